import Mathlib.Data.Finset.Basic
import Verif.Model.Adt.Type

/-!
# The caches of the type machinery (hwtypes/adt_meta.py, modifiers.py)

Class objects are numbered; a heap records for each its metaclass, its bases and the attributes the
machinery sets.  The weak tables (`BoundMeta._class_cache`, and for each modifier `_sub_class_cache`,
`_sub_classes`, and the global `_modifier_lookup`) are finite maps; the garbage collector is a step that may
remove any set of classes to which nothing that stays refers.

Simplified:
* what `type.__new__` rejects besides duplicate bases (inconsistent linearisation, layout conflicts,
  unhashable attributes, field names the generated `__init__` cannot have) is an arbitrary predicate `Env`;
* an operation that raises leaves no trace: the classes it may have made for the bases are garbage that the
  program could have made itself;
* the metaclass of a class is the most derived one of its bases (no `metaclass=` in the program), user
  metaclasses are absent, and so are keyword arguments of class statements other than `cache=`;
* the tuples of members of two enum classes are taken to differ (adt_meta.py:261), though those of a subclass of
  an enum with the same values compare equal;
* `Enum[...]`, which makes an enum without members, is left out;
* names and attribute values are numbers, equal when the Python objects are; names that the machinery
  computes (`Tuple[A, B]`, `MT`) are left out.
-/

namespace HW.Adt.Cache

/-- Metaclasses: `type`, `TupleMeta`, `AnonymousProductMeta`, `ProductMeta`, `SumMeta`, `TaggedUnionMeta`,
`EnumMeta`. -/
inductive Meta | plain | tuple | anon | product | sum | tagged | enum
  deriving DecidableEq, Repr

/-- `issubclass` between metaclasses (adt_meta.py:350, 375, 466, 498, 525, 583). -/
def Meta.le : Meta → Meta → Bool
  | _, .plain => true
  | .tuple, .tuple => true
  | .anon, .tuple => true
  | .anon, .anon => true
  | .product, .tuple => true
  | .product, .anon => true
  | .product, .product => true
  | .sum, .sum => true
  | .tagged, .sum => true
  | .tagged, .tagged => true
  | .enum, .enum => true
  | _, _ => false

/-- Index after `_get_idx` (adt_meta.py:82-95, 376-379): a tuple, a frozenset, or an `OrderedFrozenDict`. -/
inductive Idx
  | tup (l : List Nat)
  | set (s : Finset Nat)
  | dict (l : List (Name × Nat))
  deriving DecidableEq

/-- The fields of a class statement: types, or the values of an enum. -/
inductive FArg
  | types (l : List (Name × Nat))
  | vals (l : List (Name × EVal))
  deriving DecidableEq

/-- `fields_idx` (adt_meta.py:159-162). -/
inductive FIdx
  | tup (l : List (Name × Nat))
  | set (s : Finset (Name × Nat))
  | vals (s : Finset (Name × EVal))
  deriving DecidableEq

/-- Keys of `_class_cache` (adt_meta.py:100, 164-168). -/
inductive Key
  | item (c : Nat) (idx : Idx)
  | attr (f : FIdx) (bases : List Nat) (name : Name) (ns : Finset (Name × Nat))
  deriving DecidableEq

/-- `_fields_`: a tuple of types, a frozenset of types, or the members of an enum class. -/
inductive Fields
  | tuple (l : List Nat)
  | set (s : Finset Nat)
  | enum (c : Nat)
  deriving DecidableEq

def Idx.fields : Idx → Fields
  | .tup l => .tuple l
  | .set s => .set s
  | .dict l => .tuple (l.map (·.2))      -- adt_meta.py:433-434

/-- An attribute of a class body that is not a field. -/
structure Attr where
  name : Name
  dunder : Bool
  val : Nat
  deriving DecidableEq, Repr

/-- How a class came about.  Not an attribute of the Python object and never consulted; it serves to state
what the tables contain. -/
inductive Origin
  | stmt
  | cached (k : Key)
  | modified (m : ModId) (c : Nat)
  deriving DecidableEq

structure Class where
  mt : Meta
  bases : List Nat
  fields : Option Fields := none
  unbound : Option Nat := none
  table : Option FArg := none
  name : Option Name := none
  body : List Attr := []
  origin : Origin := .stmt
  deriving DecidableEq

structure Heap where
  classes : List Class
  dead : List Nat
  /-- `BoundMeta._class_cache` -/
  cache : List (Key × Nat)
  /-- `M._sub_class_cache[T]` -/
  subCache : List ((ModId × Nat) × Nat)
  /-- `M._sub_classes` -/
  subs : List (ModId × Nat)
  /-- `_ModifierMeta._modifier_lookup` -/
  lookup : List (Nat × ModId)
  /-- classes the program refers to -/
  roots : List Nat

/-- What `type.__new__` accepts. -/
structure Env where
  accepts : List Class → Meta → List Nat → Bool

/-- `object`, `Tuple`, `AnonymousProduct`, `Product`, `Sum`, `TaggedUnion`, `Enum`
(adt.py:15, 94, 110, 113, 209, 255). -/
def initClasses : List Class :=
  [{ mt := .plain, bases := [] },
   { mt := .tuple, bases := [0], unbound := some 1 },
   { mt := .anon, bases := [1], unbound := some 2 },
   { mt := .product, bases := [2], unbound := some 3 },
   { mt := .sum, bases := [0], unbound := some 4 },
   { mt := .tagged, bases := [4], unbound := some 5 },
   { mt := .enum, bases := [0], unbound := some 6 }]

abbrev objectC : Nat := 0
abbrev tupleC : Nat := 1
abbrev anonC : Nat := 2
abbrev productC : Nat := 3
abbrev sumC : Nat := 4
abbrev taggedC : Nat := 5
abbrev enumC : Nat := 6

def init : Heap := ⟨initClasses, [], [], [], [], [], [0, 1, 2, 3, 4, 5, 6]⟩

/-- Lookup in a table. -/
def find {α β : Type} [DecidableEq α] (l : List (α × β)) (a : α) : Option β :=
  (l.find? fun e => e.1 = a).map (·.2)

namespace Heap

def mt (h : Heap) (c : Nat) : Meta := match h.classes[c]? with
  | some k => k.mt
  | none => .plain

def bases (h : Heap) (c : Nat) : List Nat := match h.classes[c]? with
  | some k => k.bases
  | none => []

/-- `cls.fields` (adt_meta.py:321-323). -/
def fields (h : Heap) (c : Nat) : Option Fields := match h.classes[c]? with
  | some k => k.fields
  | none => none

/-- `isinstance(c, BoundMeta)`. -/
def adt (h : Heap) (c : Nat) : Bool := h.mt c != .plain

/-- A base that is bound. -/
def bound (h : Heap) (c : Nat) : Bool := h.adt c && (h.fields c).isSome

/-- A base that is an unbound ADT class. -/
def unboundBase (h : Heap) (c : Nat) : Bool := h.adt c && (h.fields c).isNone

/-- `unbound_t` (adt_meta.py:334-340). -/
def unboundT (h : Heap) (c : Nat) : PyM Nat := match h.classes[c]? with
  | some k => match k.unbound with
    | some u => .ok u
    | none => .error .attributeError
  | none => .error .attributeError

/-- The most derived metaclass of the bases (`type.__new__`). -/
def winner (h : Heap) : Meta → List Nat → PyM Meta
  | w, [] => .ok w
  | w, b :: bs =>
      if w.le (h.mt b) then h.winner w bs
      else if (h.mt b).le w then h.winner (h.mt b) bs
      else .error .typeError

/-- The loop of `BoundMeta.__new__` over the bases (adt_meta.py:255-264). -/
def boundLoop (h : Heap) : Option Fields → List Nat → PyM (Option Fields)
  | fs, [] => .ok fs
  | fs, b :: bs =>
      if h.bound b then
        match fs with
        | none => h.boundLoop (h.fields b) bs
        | some f => if h.fields b ≠ some f then .error .typeError else h.boundLoop fs bs
      else h.boundLoop fs bs

/-- `_unbound_base_` of a new ADT class number `id` (adt_meta.py:268-278). -/
def unboundOf (h : Heap) (id : Nat) (bases : List Nat) : Option Fields → PyM (Option Nat)
  | none => .ok (some id)
  | some _ => match bases.filter h.unboundBase with
    | [u] => .ok (some u)
    | _ => if bases.any h.bound then .ok none else .error .assertionError

/-- `_fields_` and `_unbound_base_` of a new class; an ordinary class has neither. -/
def newFields (h : Heap) (k : Class) : PyM (Option Fields) :=
  if k.mt = .plain then .ok none else h.boundLoop k.fields k.bases
def newUnbound (h : Heap) (k : Class) (fs : Option Fields) : PyM (Option Nat) :=
  if k.mt = .plain then .ok none else h.unboundOf h.classes.length k.bases fs

/-- `type.__new__`, and for an ADT class `BoundMeta.__new__` (adt_meta.py:247-280). -/
def newClass (E : Env) (h : Heap) (k : Class) : PyM (Heap × Nat) := do
  let fs ← h.newFields k
  if ¬ k.bases.Nodup ∨ E.accepts h.classes k.mt k.bases = false then .error .typeError
  else do
    let u ← h.newUnbound k fs
    return ({ h with classes := h.classes ++ [{ k with fields := fs, unbound := u }] }, h.classes.length)

/-- An enum class with members (adt_meta.py:591-617): made like any class, then `_fields_` and
`_unbound_base_` are overwritten. -/
def newEnum (E : Env) (h : Heap) (k : Class) : PyM (Heap × Nat) :=
  match k.bases.filter fun b => h.mt b = .enum with
  | [eb] => do
      let _ ← h.boundLoop none k.bases
      if ¬ k.bases.Nodup ∨ E.accepts h.classes k.mt k.bases = false then .error .typeError
      else
        let id := h.classes.length
        return ({ h with classes := h.classes ++ [{ k with fields := some (.enum id), unbound := some eb }] }, id)
  | _ => .error .typeError

/-- `[f(b) for b in bases]`, threading the heap. -/
def mapBases (f : Heap → Nat → PyM (Heap × Nat)) : Heap → List Nat → PyM (Heap × List Nat)
  | h, [] => .ok (h, [])
  | h, b :: bs => do
      let (h1, d) ← f h b
      let (h2, ds) ← mapBases f h1 bs
      return (h2, d :: ds)

/-- The depth-first searches `_get_tuple_base`, `_get_anon_base`, `_get_sum_base` (adt_meta.py:418-425,
473-480, 531-538): the first class with metaclass exactly `m` among `bases` and their ancestors. -/
def search (m : Meta) : Nat → Heap → List Nat → Option Nat
  | 0, _, _ => none
  | fuel + 1, h, bs => bs.findSome? fun b => if h.mt b = m then some b else search m fuel h (h.bases b)

/-- The bases of `cls[idx]`: `cls`, the bound bases `ds`, and for an anonymous product the tuple class with
the same types (adt_meta.py:309-313, 416-428).  `g` is getitem. -/
def idxBases (g : Heap → Nat → Idx → PyM (Heap × Nat)) (h : Heap) (c : Nat) (ds : List Nat) :
    Idx → PyM (Heap × List Nat)
  | .dict l => match search .tuple h.classes.length h (c :: ds) with
    | none => .error .typeError
    | some tb => do
        let (h, t) ← g h tb (.tup (l.map (·.2)))
        return (h, c :: ds ++ [t])
  | _ => .ok (h, c :: ds)

/-- `_field_table_` set by `_from_idx` (adt_meta.py:388). -/
def Idx.table : Idx → Option FArg
  | .dict l => some (.types l)
  | _ => none

/-- `T[idx]` of a bound class, for an `idx` that a class statement uses: a tuple does not index a tuple; a tuple
is no alternative of a sum (adt_meta.py:353-355, 501-506). -/
def _root_.HW.Adt.Cache.Idx.boundError : Idx → PyErr
  | .set _ => .keyError
  | _ => .typeError

/-- `_cache_handler`, `_from_idx`, `_bases_from_idx` of getitem classes (adt_meta.py:97-107, 282-319,
381-428), with `idx` already converted.  `T[idx]` of a bound class does not reach the cache
(adt_meta.py:353-357, 501-508).  The recursion goes to base classes, which are older; the first argument
bounds its depth. -/
def getitemF (E : Env) : Nat → Heap → Nat → Idx → PyM (Heap × Nat)
  | 0, _, _, _ => .error .assertionError
  | fuel + 1, h, c, idx =>
      if (h.fields c).isSome then .error idx.boundError
      else match find h.cache (.item c idx) with
      | some d => .ok (h, d)                                                            -- 99-100
      | none => do
          let (h1, ds) ← mapBases (fun h b => getitemF E fuel h b idx) h
            ((h.bases c).filter fun b => (h.mt b).le (h.mt c))                          -- 311
          let (h2, bs) ← idxBases (getitemF E fuel) h1 c ds idx
          let (h3, t) ← newClass E h2
            { mt := h.mt c, bases := bs, fields := some idx.fields, origin := .cached (.item c idx)
              table := Idx.table idx }                                                  -- 290-295, 388
          return ({ h3 with cache := (.item c idx, t) :: h3.cache }, t)                 -- 104-107

def getIdx (E : Env) (h : Heap) (c : Nat) (idx : Idx) : PyM (Heap × Nat) := getitemF E (c + 1) h c idx

/-- The argument of `T[...]`: an iterable of types (or one type), or a mapping. -/
inductive Arg
  | items (l : List Nat)
  | mapping (l : List (Name × Nat))

/-- `_get_idx` and the checks before it (adt_meta.py:82-95, 376-379, 494-495, 568-569). -/
def Arg.idx : Meta → Arg → PyM Idx
  | .tuple, .items l => .ok (.tup l)
  | .sum, .items l => .ok (.set l.toFinset)
  | .anon, .mapping l => .ok (.dict l)
  | _, _ => .error .typeError

/-- `T[...]` on an unbound class. -/
def getitem (E : Env) (h : Heap) (c : Nat) (a : Arg) : PyM (Heap × Nat) := do
  h.getIdx E c (← a.idx (h.mt c))

/-- The part of the key that stands for the fields (adt_meta.py:159-162). -/
def fieldsIdx : Meta → FArg → FIdx
  | .product, .types l => .tup l
  | _, .types l => .set l.toFinset
  | _, .vals l => .vals l.toFinset

/-- `frozenset(ns_idx)` (adt_meta.py:154-157, 167). -/
def nsIdx (body : List Attr) : Finset (Name × Nat) :=
  ((body.filter fun a => !a.dunder).map fun a => (a.name, a.val)).toFinset

/-- A class statement, or `from_fields`: fields, name, bases, the rest of the body, `cache=`. -/
structure Stmt where
  fields : FArg
  name : Name
  bases : List Nat
  body : List Attr := []
  cache : Bool := true

def Stmt.key (m : Meta) (s : Stmt) : Key := .attr (fieldsIdx m s.fields) s.bases s.name (nsIdx s.body)

/-- Metaclass and index of the getitem class a `Product` or `TaggedUnion` derives from. -/
def Stmt.base (s : Stmt) : Meta → Option (Meta × Idx)
  | .product => match s.fields with
    | .types l => some (.anon, .dict l)                                   -- 481
    | .vals _ => none
  | .tagged => match s.fields with
    | .types l => some (.sum, .set (l.map (·.2)).toFinset)                -- 540
    | .vals _ => none
  | _ => none

/-- `_from_fields` (adt_meta.py:470-486, 529-563, 591-617). -/
def fromFields (E : Env) (h : Heap) (m : Meta) (s : Stmt) : PyM (Heap × Nat) :=
  let o := if s.cache then Origin.cached (s.key m) else .stmt
  match s.base m with
  | some (bm, idx) => match search bm h.classes.length h s.bases with
    | none => .error .typeError
    | some b => do
        let (h1, d) ← h.getIdx E b idx
        newClass E h1 { mt := m, bases := s.bases ++ [d], name := some s.name, body := s.body, origin := o
                        table := if m = .tagged then some s.fields else none }
  | none => newEnum E h { mt := m, bases := s.bases, name := some s.name, body := s.body, origin := o
                          table := some s.fields }

/-- `_cache_handler` of class statements with fields (adt_meta.py:150-180). -/
def attrNew (E : Env) (h : Heap) (m : Meta) (s : Stmt) : PyM (Heap × Nat) :=
  if s.cache then
    match find h.cache (s.key m) with
    | some d => .ok (h, d)
    | none => do
        let (h1, t) ← fromFields E h m s
        return ({ h1 with cache := (s.key m, t) :: h1.cache }, t)
  else fromFields E h m s

/-- The statement has fields of the kind its metaclass looks for (adt_meta.py:143-144). -/
def Stmt.hasFields (s : Stmt) : Meta → Bool
  | .product | .tagged => match s.fields with
    | .types l => !l.isEmpty
    | .vals _ => false
  | .enum => match s.fields with
    | .types _ => false
    | .vals l => !l.isEmpty
  | _ => false

/-- `class name(*bases, cache=...): ...` (adt_meta.py:132-148, 179-180). -/
def classStmt (E : Env) (h : Heap) (s : Stmt) : PyM (Heap × Nat) := do
  let m ← h.winner .plain s.bases
  if s.hasFields m then attrNew E h m s
  else newClass E h { mt := m, bases := s.bases, name := some s.name, body := s.body }

/-- The metaclass has `from_fields`, and the fields are what it expects (types, or ints and `Auto`s). -/
def FArg.fits : Meta → FArg → Bool
  | .product, .types _ => true
  | .tagged, .types _ => true
  | .enum, .vals _ => true
  | _, _ => false

/-- `cls.from_fields(name, fields, cache)` (adt_meta.py:182-202); its body has only dunder entries.  Fields
that are not of the expected kind are left out. -/
def fromFieldsCall (E : Env) (h : Heap) (c : Nat) (name : Name) (fields : FArg) (cache : Bool) :
    PyM (Heap × Nat) :=
  if FArg.fits (h.mt c) fields = false then .error .attributeError
  else if (h.fields c).isSome then .error .typeError
  else classStmt E h { fields := fields, name := name, bases := [c], cache := cache }

/-- `M(T)` (modifiers.py:39-58, 66-69). -/
def applyModF (E : Env) : Nat → Heap → ModId → Nat → PyM (Heap × Nat)
  | 0, _, _, _ => .error .assertionError
  | fuel + 1, h, m, c =>
      match find h.subCache (m, c) with
      | some d => .ok (h, d)                                                            -- 47-48
      | none => do
          let (h1, ds) ← mapBases (fun h b => applyModF E fuel h m b) h (h.bases c)     -- 53-55
          let w ← h1.winner .plain (c :: ds)
          let (h2, t) ← newClass E h1 { mt := w, bases := c :: ds, origin := .modified m c }   -- 56
          return ({ h2 with
            lookup := (t, m) :: h2.lookup
            subs := (m, t) :: h2.subs
            subCache := ((m, c), t) :: h2.subCache }, t)                                -- 57, 66-69

def applyMod (E : Env) (h : Heap) (m : ModId) (c : Nat) : PyM (Heap × Nat) := applyModF E (c + 1) h m c

/-- `is_modified` (modifiers.py:74-75). -/
def isModified (h : Heap) (c : Nat) : Bool := (find h.lookup c).isSome

/-- `get_modifier` (modifiers.py:80-84). -/
def getModifier (h : Heap) (c : Nat) : PyM ModId :=
  match find h.lookup c with
  | some m => .ok m
  | none => .error .typeError

/-- `get_unmodified` (modifiers.py:86-96). -/
def getUnmodified (h : Heap) (c : Nat) : PyM Nat :=
  if h.isModified c then
    match h.bases c with
    | b :: _ => .ok b
    | [] => .error .indexError
  else .error .typeError

/-- `issubclass(T, M)` (modifiers.py:33-37). -/
def subOfMod (h : Heap) (c : Nat) (m : ModId) : Bool := h.subs.contains (m, c)

/-- A class exists and has not been collected. -/
def Alive (h : Heap) (c : Nat) : Prop := c < h.classes.length ∧ c ∉ h.dead

/-- `issubclass` between classes. -/
inductive Sub (h : Heap) : Nat → Nat → Prop
  | refl (c : Nat) : Sub h c c
  | step {c b d : Nat} : b ∈ h.bases c → Sub h b d → Sub h c d

/-- Classes a field list mentions. -/
def FArg.ids : FArg → List Nat
  | .types l => l.map (·.2)
  | .vals _ => []

def Arg.ids : Arg → List Nat
  | .items l => l
  | .mapping l => l.map (·.2)

/-- The program gets hold of a class. -/
def hold (h : Heap) (t : Nat) : Heap := { h with roots := t :: h.roots }

/-- The references from `_fields_`. -/
def Fields.Refers : Fields → Nat → Prop
  | .tuple l, d => d ∈ l
  | .set s, d => d ∈ s
  | .enum c, d => d = c

/-- What the program and the collector can do. -/
inductive Step (E : Env) : Heap → Heap → Prop
  /-- a class statement; a class without explicit bases has base `object` -/
  | stmt {h h' : Heap} {s : Stmt} {t : Nat} : s.bases ≠ [] → (∀ b ∈ s.bases, h.Alive b) →
      (∀ b ∈ FArg.ids s.fields, h.Alive b) → h.classStmt E s = .ok (h', t) → Step E h (h'.hold t)
  /-- `from_fields` -/
  | fromFields {h h' : Heap} {c : Nat} {n : Name} {f : FArg} {b : Bool} {t : Nat} : h.Alive c →
      (∀ d ∈ FArg.ids f, h.Alive d) → h.fromFieldsCall E c n f b = .ok (h', t) → Step E h (h'.hold t)
  /-- `T[...]` -/
  | getitem {h h' : Heap} {c t : Nat} {a : Arg} : h.Alive c → (∀ d ∈ a.ids, h.Alive d) →
      h.getitem E c a = .ok (h', t) → Step E h (h'.hold t)
  /-- `M(T)` -/
  | modify {h h' : Heap} {m : ModId} {c t : Nat} : h.Alive c → h.applyMod E m c = .ok (h', t) →
      Step E h (h'.hold t)
  /-- the program reaches a class through another one: a base, a field, `unbound_t` -/
  | reach {h : Heap} {t : Nat} : h.Alive t → Step E h (h.hold t)
  /-- references are dropped -/
  | release {h : Heap} {r : List Nat} : r ⊆ h.roots → Step E h { h with roots := r }
  /-- the collector removes classes to which nothing that stays refers -/
  | gc {h : Heap} {D : List Nat} : (∀ d ∈ D, d < h.classes.length) → (∀ r ∈ h.roots, r ∉ D) →
      (∀ c k, h.classes[c]? = some k → c ∉ h.dead → c ∉ D →
        (∀ b ∈ k.bases, b ∉ D) ∧ (∀ u, k.unbound = some u → u ∉ D) ∧
        (∀ f, k.fields = some f → ∀ d, Fields.Refers f d → d ∉ D)) →
      Step E h { h with
        dead := D ++ h.dead
        cache := h.cache.filter fun e => ¬ D.contains e.2
        subCache := h.subCache.filter fun e => ¬ D.contains e.2
        subs := h.subs.filter fun e => ¬ D.contains e.2
        lookup := h.lookup.filter fun e => ¬ D.contains e.1 }

/-- Any history. -/
inductive Steps (E : Env) : Heap → Heap → Prop
  | refl (h : Heap) : Steps E h h
  | tail {a b c : Heap} : Steps E a b → Step E b c → Steps E a c

end Heap
end HW.Adt.Cache
