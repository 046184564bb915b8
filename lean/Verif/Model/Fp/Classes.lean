import Verif.Model.Fp.Vector

/-!
# The classes of floating-point vectors: `AbstractFPVectorMeta` (fp_vector_abc.py:16-119)

As `Model/ClassHeap.lean`, with the binding `(eb, mb, mode, ieee)` in place of a size and the checks in the
order of this metaclass.  Simplifications as there.  Indices that are not hashable or have no length are
left out (`TypeError`).
-/

namespace HW.FpCls
open HW.Fp (Mode)

/-- A tuple `(int, int, RoundingMode, bool)`. -/
structure Key where
  eb : Int
  mb : Int
  mode : Mode
  ieee : Bool
  deriving DecidableEq, Repr

/-- A class object: is it an instance of the metaclass, `__bases__`, and `_info_`. -/
structure Class where
  isFp : Bool
  bases : List Nat
  unbound : Option Nat
  binding : Option Key
  deriving DecidableEq, Repr

structure Heap where
  classes : List Class
  dead : List Nat
  cache : List ((Nat × Key) × Nat)
  roots : List Nat
  deriving Repr

def init : Heap := ⟨[], [], [], []⟩

/-- `__getitem__` argument: a tuple of the right types; a tuple equal to one of the right types, but of others
(`1` for `True`, `8.0` for `8`); anything else. -/
inductive Index
  | key (k : Key)
  | eqKey (k : Key)
  | other
  deriving DecidableEq, Repr

def Index.key? : Index → Option Key
  | .key k => some k
  | .eqKey k => some k
  | .other => none

namespace Heap

/-- `mcs._class_cache[cls, idx]` (fp_vector_abc.py:46-49). -/
def lookup (h : Heap) (c : Nat) (k : Key) : Option Nat := (h.cache.find? fun e => e.1 == (c, k)).map (·.2)

def lookupIdx (h : Heap) (c : Nat) (i : Index) : Option Nat :=
  match i.key? with
  | some k => h.lookup c k
  | none => none

/-- `isinstance(b, AbstractFPVectorMeta)`. -/
def isFp (h : Heap) (c : Nat) : Bool :=
  match h.classes[c]? with
  | some k => k.isFp
  | none => false

/-- `cls.binding` (fp_vector_abc.py:89-91). -/
def binding (h : Heap) (c : Nat) : Option Key :=
  match h.classes[c]? with
  | some k => if k.isFp then k.binding else none
  | none => none

def bases (h : Heap) (c : Nat) : List Nat :=
  match h.classes[c]? with
  | some k => k.bases
  | none => []

/-- The loop of `__new__` over the bases (fp_vector_abc.py:24-30). -/
def bindLoop (h : Heap) : Option Key → List Nat → PyM (Option Key)
  | b, [] => .ok b
  | b, c :: cs =>
      match h.binding c with
      | none => h.bindLoop b cs
      | some n => match b with
        | none => h.bindLoop (some n) cs
        | some m => if m ≠ n then .error .typeError else h.bindLoop (some m) cs

/-- `AbstractFPVectorMeta.__new__` (fp_vector_abc.py:20-42). -/
def newFp (h : Heap) (bases : List Nat) (info : Option Nat × Option Key) : PyM (Heap × Nat) := do
  let b ← h.bindLoop info.2 bases
  let id := h.classes.length
  let unbound := match b with
    | none => some id                 -- 35-37
    | some _ => info.1                -- 32, 38-40
  return ({ h with classes := h.classes ++ [⟨true, bases, unbound, b⟩] }, id)

/-- An ordinary Python class. -/
def newPlain (h : Heap) (bases : List Nat) : Heap × Nat :=
  ({ h with classes := h.classes ++ [⟨false, bases, none, none⟩] }, h.classes.length)

/-- `[b[idx] for b in bases]`, threading the heap. -/
def mapBases (f : Heap → Nat → PyM (Heap × Nat)) : Heap → List Nat → PyM (Heap × List Nat)
  | h, [] => .ok (h, [])
  | h, b :: bs => do
      let (h1, d) ← f h b
      let (h2, ds) ← mapBases f h1 bs
      return (h2, d :: ds)

/-- `__getitem__` (fp_vector_abc.py:44-71); the first argument bounds the depth of the recursion to base
classes and is never exhausted (`C109_total`). -/
def getitemF : Nat → Heap → Nat → Index → PyM (Heap × Nat)
  | 0, _, _, _ => .error .assertionError
  | fuel + 1, h, c, idx =>
      match h.lookupIdx c idx with
      | some d => .ok (h, d)                                       -- 46-47
      | none =>
        if (h.binding c).isSome then .error .typeError             -- 51-52
        else match idx with
          | .eqKey _ => .error .indexError                         -- 54-56
          | .other => .error .indexError
          | .key k =>
            if k.eb ≤ 0 ∨ k.mb ≤ 0 then .error .valueError         -- 60-61
            else do
              let vb := (h.bases c).filter h.isFp                  -- 65
              let (h1, bs) ← mapBases (fun h b => getitemF fuel h b (.key k)) h vb
              let (h2, t) ← h1.newFp (c :: bs) (some c, some k)    -- 64-68
              return ({ h2 with cache := ((c, k), t) :: h2.cache }, t)   -- 70-71

def getitem (h : Heap) (c : Nat) (idx : Index) : PyM (Heap × Nat) := getitemF (c + 1) h c idx

/-- `unbound_t` (fp_vector_abc.py:73-79). -/
def unboundT (h : Heap) (c : Nat) : PyM Nat :=
  match h.classes[c]? with
  | some k => match k.unbound with
    | some t => .ok t
    | none => .error .attributeError
  | none => .error .attributeError

/-- A class exists and has not been collected. -/
def Alive (h : Heap) (c : Nat) : Prop := c < h.classes.length ∧ c ∉ h.dead

/-- `issubclass`. -/
inductive Sub (h : Heap) : Nat → Nat → Prop
  | refl (c : Nat) : Sub h c c
  | step {c b d : Nat} : b ∈ h.bases c → Sub h b d → Sub h c d

/-- What the client program and the collector can do. -/
inductive Step : Heap → Heap → Prop
  /-- `class X(*bases)` with the metaclass -/
  | fp {h h' : Heap} {bases : List Nat} {t : Nat} : (∀ b ∈ bases, h.Alive b) →
      h.newFp bases (none, none) = .ok (h', t) → Step h { h' with roots := t :: h'.roots }
  /-- an ordinary class -/
  | plain {h : Heap} {bases : List Nat} : (∀ b ∈ bases, h.Alive b ∧ h.isFp b = false) →
      Step h { (h.newPlain bases).1 with roots := (h.newPlain bases).2 :: h.roots }
  /-- `T[idx]` on a class the program can reach -/
  | getitem {h h' : Heap} {c t : Nat} {idx : Index} : h.Alive c → h.isFp c = true →
      h.getitem c idx = .ok (h', t) → Step h { h' with roots := t :: h'.roots }
  /-- references are dropped -/
  | release {h : Heap} {r : List Nat} : r ⊆ h.roots → Step h { h with roots := r }
  /-- the collector removes classes to which nothing that stays refers -/
  | gc {h : Heap} {D : List Nat} : (∀ d ∈ D, d < h.classes.length) → (∀ r ∈ h.roots, r ∉ D) →
      (∀ c k, h.classes[c]? = some k → c ∉ h.dead → c ∉ D →
        (∀ b ∈ k.bases, b ∉ D) ∧ (∀ u, k.unbound = some u → u ∉ D)) →
      Step h { h with dead := D ++ h.dead, cache := h.cache.filter fun e => ¬ D.contains e.2 }

/-- Any history. -/
inductive Steps : Heap → Heap → Prop
  | refl (h : Heap) : Steps h h
  | tail {a b c : Heap} : Steps a b → Step b c → Steps a c

end Heap
end HW.FpCls
