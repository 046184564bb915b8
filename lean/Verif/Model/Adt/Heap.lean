import Verif.Model.Adt.Type
import Verif.Py.Slice

/-!
# ADT values as objects in a store (hwtypes/adt.py, adt_meta.py)

Objects have identity, are shared and mutated.  An exception leaves the store as it is at that moment.

Simplified:
* only calls with field values that exist (a program cannot name others);
* attributes that are not fields are not recorded;
* direct writes to the private attributes `_value_`, `_tag_` are not modelled;
* as the value of a slice assignment only ADT objects are iterable (vectors are too);
* a class of fields is a `Tuple`, `AnonymousProduct`, `Product`, `Sum`, `TaggedUnion` or a modification of one.
-/

namespace HW.Adt

abbrev Ref := Nat

/-- An object: of a class without fields, an enum member (the i-th), a tuple or product (`asgn`: `_value_` is
a list), a sum, a tagged union (`_tag_`, `_value_`). -/
inductive Obj
  | leaf (T : Ty) (p : Nat)
  | enum (e : EnumT) (i : Nat)
  | tup (T : Ty) (asgn : Bool) (vs : List Ref)
  | sum (T : Ty) (v : Ref)
  | tag (T : Ty) (i : Nat) (v : Ref)
  deriving DecidableEq

/-- `type(o)` -/
def Obj.cls : Obj → Ty
  | .leaf T _ => T
  | .enum e _ => .enum e
  | .tup T _ _ => T
  | .sum T _ => T
  | .tag T _ _ => T

abbrev Store := List Obj

/-- `isinstance(r, T)` -/
def Store.isinst (W : World) (h : Store) (r : Ref) (T : Ty) : Bool :=
  match h[r]? with
  | some o => W.sub o.cls T
  | none => false

/-- Position of the int index `i` in a list. -/
def pyIndex (len : Nat) (i : Int) : Option Nat :=
  if 0 ≤ i then (if i < len then some i.toNat else none)
  else if -(len : Int) ≤ i then some (i + len).toNat else none

/-! ### Construction -/

/-- Arguments for the signature of `__new__` and `__init__` (adt_meta.py:398-412): positional, then by name. -/
def bindArgs {α : Type} (names : List Name) (pos : List α) (kw : List (Name × α)) : PyM (List α) :=
  if names.length < pos.length then .error .typeError
  else
    let rest := names.drop pos.length
    if kw.all (fun p => rest.contains p.1) then
      match rest.mapM (fun n => kw.lookup n) with
      | some l => .ok (pos ++ l)
      | none => .error .typeError
    else .error .typeError

/-- `for v,t in zip(value, cls.fields): if not isinstance(v,t)` -/
def checkFields {α : Type} (inst : α → Ty → Bool) : List α → List Ty → Bool
  | v :: vs, t :: ts => inst v t && checkFields inst vs ts
  | _, _ => true

/-- `Tuple.__init__` (adt.py:23-31). -/
def initTuple {α : Type} (inst : α → Ty → Bool) (fs : List Ty) (value : List α) : PyM (List α) :=
  if value.length ≠ fs.length then .error .valueError
  else if checkFields inst value fs then .ok value
  else .error .typeError

/-- `T(*pos, **kw)` for a tuple or product class: `_value_`. -/
def callTuple {α : Type} (inst : α → Ty → Bool) (k : Con) (fs : List Ty) (pos : List α) (kw : List (Name × α)) :
    PyM (List α) :=
  if k.shape = .tuple then
    if kw = [] then initTuple inst fs pos else .error .typeError
  else bindArgs k.names pos kw >>= initTuple inst fs

/-- `Sum.__init__` (adt.py:132-135): the class itself must be an alternative. -/
def callSum {α : Type} (cls : α → Option Ty) (fs : List Ty) (pos : List α) (kw : List (Name × α)) : PyM α :=
  match pos, kw with
  | [v], [] => match cls v with
    | some T => if T ∈ fs then .ok v else .error .typeError
    | none => .error .typeError
  | _, _ => .error .typeError

/-- `TaggedUnion.__init__` (adt.py:210-221): tag and value. -/
def callTagged {α : Type} (inst : α → Ty → Bool) (k : Con) (fs : List Ty) (pos : List α) (kw : List (Name × α)) :
    PyM (Nat × α) :=
  if pos ≠ [] then .error .typeError
  else match kw with
    | [(n, v)] =>
        if n ∈ k.names then
          match fs[k.names.idxOf n]? with
          | some t => if inst v t then .ok (k.names.idxOf n, v) else .error .typeError
          | none => .error .attributeError
        else .error .valueError
    | _ => .error .valueError

/-- `T(*pos, **kw)`: the new object. -/
def construct (W : World) (h : Store) (T : Ty) (pos : List Ref) (kw : List (Name × Ref)) : PyM Obj :=
  match T.view with
  | none => .error .typeError
  | some (k, fs) =>
      match k.shape with
      | .sum => do return .sum T (← callSum (fun r => h[r]?.map Obj.cls) fs pos kw)
      | .tagged => do
          let (i, v) ← callTagged (h.isinst W) k fs pos kw
          return .tag T i v
      | _ => do return .tup T false (← callTuple (h.isinst W) k fs pos kw)

/-- `Tuple(*pos)` for the unbound class (adt.py:16-21). -/
def constructUnbound (W : World) (h : Store) (b : Base) (pos : List Ref) : PyM Obj :=
  match pos.mapM (fun r => h[r]?.map Obj.cls) with
  | some ts => construct W h (mkTuple b ts) pos []
  | none => .error .typeError

/-! ### Assignment -/

/-- An index: int, slice or string. -/
inductive Idx
  | int (i : Int)
  | slice (s : PySlice)
  | str (n : Name)
  deriving DecidableEq

/-- `list(iter(value))` of an ADT object: a tuple iterates through `__getitem__`. -/
def iterObj : Obj → PyM (List Ref)
  | .tup _ _ vs => .ok vs
  | _ => .error .typeError

/-- `v[s] = items` for a list. -/
def pySetSlice {α : Type} (v : List α) (s : PySlice) (items : List α) : PyM (List α) := do
  let (start, stop, step) ← s.indices v.length
  if step = 1 then
    return v.take start.toNat ++ items ++ v.drop (max start stop).toNat
  else
    let idxs := pyRange start stop step
    if idxs.length ≠ items.length then .error .valueError
    else return (idxs.zip items).foldl (fun l p => l.set p.1.toNat p.2) v

/-- `Tuple.__setitem__` (adt.py:48-54) on a tuple or product of the class `T`: the new `_value_`.  `type(self)[idx]`
is an entry of `fields`, a tuple of entries, or for a `Product` and a string an entry of `field_dict`. -/
def setItemValue (W : World) (h : Store) (k : Con) (fs : List Ty) (vs : List Ref) (idx : Idx) (value : Ref) :
    PyM (List Ref) :=
  match idx with
  | .int i =>
      match pyIndex fs.length i with
      | none => .error .indexError
      | some j =>
          match fs[j]? with
          | none => .error .indexError
          | some t =>
              if h.isinst W value t then
                match pyIndex vs.length i with
                | none => .error .indexError
                | some j' => .ok (vs.set j' value)
              else .error .typeError
  | .slice s => do
      let ts ← pySliceList fs s
      if ts.any (fun t => h.isinst W value t) then
        match h[value]? with
        | some o => do pySetSlice vs s (← iterObj o)
        | none => .error .typeError
      else .error .typeError
  | .str n =>
      if k.shape = .product ∧ n ∉ k.names then .error .keyError else .error .typeError

/-- The outcome of a statement: the store after it, and what it raised. -/
structure Out where
  st : Store
  res : PyM Unit

/-- `r[idx] = value` on a tuple or product. -/
def Store.setItem (W : World) (h : Store) (r : Ref) (idx : Idx) (value : Ref) : Out :=
  match h[r]? with
  | some (.tup T _ vs) =>
      match T.view with
      | some (k, fs) =>
          match setItemValue W h k fs vs idx value with
          | .ok vs' => ⟨h.set r (.tup T true vs'), .ok ()⟩
          | .error e => ⟨h, .error e⟩
      | none => ⟨h, .error .typeError⟩
  | _ => ⟨h, .error .typeError⟩

/-- `r.n = value`: `TypedProperty.__set__` (util.py:104-109), then the setter of a product
(adt_meta.py:447-449) or tagged union (adt_meta.py:549-552). -/
def Store.setAttr (W : World) (h : Store) (r : Ref) (n : Name) (value : Ref) : Out :=
  match h[r]? with
  | some (.tup T _ _) =>
      match T.view with
      | some (k, fs) =>
          if n ∈ k.names then
            match fs[k.names.idxOf n]? with
            | some t =>
                if h.isinst W value t then h.setItem W r (.int (k.names.idxOf n)) value
                else ⟨h, .error .typeError⟩
            | none => ⟨h, .error .attributeError⟩
          else ⟨h, .ok ()⟩
      | none => ⟨h, .ok ()⟩
  | some (.tag T i _) =>
      match T.view with
      | some (k, fs) =>
          if n ∈ k.names then
            match fs[k.names.idxOf n]? with
            | some t =>
                if h.isinst W value t then
                  let h := h.set r (.tag T i value)
                  ⟨h.set r (.tag T (k.names.idxOf n) value), .ok ()⟩
                else ⟨h, .error .typeError⟩
            | none => ⟨h, .error .attributeError⟩
          else ⟨h, .ok ()⟩
      | none => ⟨h, .ok ()⟩
  | _ => ⟨h, .ok ()⟩

/-- `r[T'] = value` on a sum (adt.py:157-163) or tagged union (adt.py:223-224). -/
def Store.setSum (W : World) (h : Store) (r : Ref) (T' : Ty) (value : Ref) : Out :=
  match h[r]? with
  | some (.sum T _) =>
      match T.view with
      | some (_, fs) =>
          if T' ∉ fs then ⟨h, .error .typeError⟩
          else if h.isinst W value T' then ⟨h.set r (.sum T value), .ok ()⟩
          else ⟨h, .error .typeError⟩
      | none => ⟨h, .error .typeError⟩
  | _ => ⟨h, .error .typeError⟩

/-! ### Reading -/

/-- `Tuple.__getitem__` (adt.py:45-46), int index. -/
def Store.getItem (h : Store) (r : Ref) (i : Int) : PyM Ref :=
  match h[r]? with
  | some (.tup _ _ vs) =>
      match pyIndex vs.length i with
      | some j => match vs[j]? with
        | some v => .ok v
        | none => .error .indexError
      | none => .error .indexError
  | _ => .error .typeError

/-- `Sum.Match` (adt.py:114-130). -/
structure Match where
  hit : Bool
  val : Ref
  deriving DecidableEq

/-- `Match.value` -/
def Match.value (m : Match) : PyM Ref := if m.hit then .ok m.val else .error .typeError

/-- What reading an attribute gives: a field, a `Match`, or what the call `T(tag == self._tag_, self._value_)`
gives. -/
inductive Got
  | field (v : Ref)
  | match_ (m : Match)
  | call (T : Ty) (hit : Bool) (v : Ref)
  deriving DecidableEq

/-- The field name `Match`. -/
def matchName : Name := 0

/-- `r.n` for a field name: the getters of a product (adt_meta.py:443-445) and tagged union
(adt_meta.py:544-547).  The latter calls `type(self).Match`, which is a field type if there is a field of
this name. -/
def Store.getAttr (h : Store) (r : Ref) (n : Name) : PyM Got :=
  match h[r]? with
  | some (.tup T _ _) =>
      match T.view with
      | some (k, _) =>
          if n ∈ k.names then do return .field (← h.getItem r (k.names.idxOf n)) else .error .attributeError
      | none => .error .attributeError
  | some (.tag T i v) =>
      match T.view with
      | some (k, fs) =>
          if n ∈ k.names then
            let hit := decide (i = k.names.idxOf n)
            if matchName ∈ k.names then
              match fs[k.names.idxOf matchName]? with
              | some t => .ok (.call t hit v)
              | none => .error .attributeError
            else .ok (.match_ ⟨hit, v⟩)
          else .error .attributeError
      | none => .error .attributeError
  | _ => .error .attributeError

/-- `r[T']` on a sum or tagged union (adt.py:149-154). -/
def Store.getSum (W : World) (h : Store) (r : Ref) (T' : Ty) : PyM Match :=
  let go (T : Ty) (v : Ref) : PyM Match :=
    match T.view with
    | some (_, fs) => if T' ∈ fs then .ok ⟨h.isinst W v T', v⟩ else .error .typeError
    | none => .error .typeError
  match h[r]? with
  | some (.sum T v) => go T v
  | some (.tag T _ v) => go T v
  | _ => .error .typeError

/-! ### Histories -/

inductive Op
  /-- some object that is not an ADT value with fields -/
  | other (T : Ty) (p : Nat)
  | member (e : EnumT) (i : Nat)
  | new (T : Ty) (pos : List Ref) (kw : List (Name × Ref))
  | newUnbound (b : Base) (pos : List Ref)
  | setItem (r : Ref) (idx : Idx) (v : Ref)
  | setAttr (r : Ref) (n : Name) (v : Ref)
  | setSum (r : Ref) (T : Ty) (v : Ref)
  /-- in-place change of such an object (an item assignment of a vector, say) -/
  | touch (r : Ref) (p : Nat)

/-- Objects of the classes without fields. -/
def Ty.isPlain (T : Ty) : Bool := T.view.isNone

def Store.alloc (h : Store) (o : PyM Obj) : Out :=
  match o with
  | .ok o => ⟨h ++ [o], .ok ()⟩
  | .error e => ⟨h, .error e⟩

def Store.step (W : World) (h : Store) : Op → Out
  | .other T p => if T.isPlain then ⟨h ++ [.leaf T p], .ok ()⟩ else ⟨h, .error .typeError⟩
  | .member e i => if i < e.members.length then ⟨h ++ [.enum e i], .ok ()⟩ else ⟨h, .error .attributeError⟩
  | .new T pos kw => h.alloc (construct W h T pos kw)
  | .newUnbound b pos => h.alloc (constructUnbound W h b pos)
  | .setItem r idx v => h.setItem W r idx v
  | .setAttr r n v => h.setAttr W r n v
  | .setSum r T v => h.setSum W r T v
  | .touch r p =>
      match h[r]? with
      | some (.leaf T _) => ⟨h.set r (.leaf T p), .ok ()⟩
      | _ => ⟨h, .error .typeError⟩

/-- The object an operation may change. -/
def Op.target : Op → Option Ref
  | .setItem r _ _ => some r
  | .setAttr r _ _ => some r
  | .setSum r _ _ => some r
  | .touch r _ => some r
  | _ => none

/-- A history; exceptions are caught by the program. -/
def Store.run (W : World) : Store → List Op → Store
  | h, [] => h
  | h, op :: ops => Store.run W (h.step W op).st ops

end HW.Adt
