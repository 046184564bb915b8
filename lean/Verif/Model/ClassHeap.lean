import Verif.Model.BitVector

/-!
# The class heap: `AbstractBitVectorMeta` (bit_vector_abc.py:19-122)

Classes are numbered; a heap records for each its bases and its `_info_` attribute.  The weak class
cache is a finite map; the garbage collector is a step that may remove any set of classes nothing
else refers to.  Simplifications: one metaclass for all vector classes; Python's C3 linearisation
(which may reject a list of bases with `TypeError`) is left to `Model/C3.lean`; `issubclass` is the reflexive
transitive closure of `bases`; the keyword `info=` of the class statement is left to the type
machinery.
-/

namespace HW.Cls

/-- A class object: is it an instance of the metaclass, `__bases__`, and `_info_`. -/
structure Class where
  isVec : Bool
  bases : List Nat
  unsized : Option Nat
  size : Option Int
  deriving DecidableEq, Repr

/-- All classes ever created (by number), the ones collected, the cache, and the classes the client
program holds references to. -/
structure Heap where
  classes : List Class
  dead : List Nat
  cache : List ((Nat × Int) × Nat)
  roots : List Nat
  deriving Repr

def init : Heap := ⟨[], [], [], []⟩

/-- `__getitem__` argument: an int, a float (or other number) that compares equal to an int, or
something that equals no int. -/
inductive Index
  | int (i : Int)
  | eqInt (i : Int)
  | other
  deriving DecidableEq, Repr

/-- The int an index is equal to, as a dictionary key. -/
def Index.key? : Index → Option Int
  | .int i => some i
  | .eqInt i => some i
  | .other => none

namespace Heap

/-- `mcs._class_cache[cls, idx]` (bit_vector_abc.py:77-80). -/
def lookup (h : Heap) (c : Nat) (i : Int) : Option Nat :=
  (h.cache.find? fun e => e.1 == (c, i)).map (·.2)

def lookupIdx (h : Heap) (c : Nat) (i : Index) : Option Nat :=
  match i.key? with
  | some i => h.lookup c i
  | none => none

/-- `isinstance(b, mcs)`. -/
def isVec (h : Heap) (c : Nat) : Bool :=
  match h.classes[c]? with
  | some k => k.isVec
  | none => false

/-- `cls.size` (bit_vector_abc.py:107-109). -/
def size (h : Heap) (c : Nat) : Option Int :=
  match h.classes[c]? with
  | some k => if k.isVec then k.size else none
  | none => none

def bases (h : Heap) (c : Nat) : List Nat :=
  match h.classes[c]? with
  | some k => k.bases
  | none => []

/-- The loop of `__new__` over the bases (bit_vector_abc.py:55-61). -/
def sizeLoop (h : Heap) : Option Int → List Nat → PyM (Option Int)
  | size, [] => .ok size
  | size, b :: bs =>
      match h.size b with
      | none => h.sizeLoop size bs
      | some n => match size with
        | none => h.sizeLoop (some n) bs
        | some m => if m ≠ n then .error .typeError else h.sizeLoop (some m) bs

/-- `AbstractBitVectorMeta.__new__` (bit_vector_abc.py:51-72). -/
def newVec (h : Heap) (bases : List Nat) (info : Option Nat × Option Int) : PyM (Heap × Nat) := do
  let size ← h.sizeLoop info.2 bases
  let id := h.classes.length
  let unsized := match size with
    | none => some id                 -- 65-67
    | some _ => info.1                -- 63, 68-70
  return ({ h with classes := h.classes ++ [⟨true, bases, unsized, size⟩] }, id)

/-- An ordinary Python class. -/
def newPlain (h : Heap) (bases : List Nat) : Heap × Nat :=
  ({ h with classes := h.classes ++ [⟨false, bases, none, none⟩] }, h.classes.length)

/-- `[b[idx] for b in bases]`, threading the heap. -/
def mapBases (f : Heap → Nat → PyM (Heap × Nat)) : Heap → List Nat → PyM (Heap × List Nat)
  | h, [] => .ok (h, [])
  | h, b :: bs => do
      let (h1, d) ← f h b
      let (h2, ds) ← mapBases f h1 bs
      return (h2, d :: ds)

/-- `__getitem__` (bit_vector_abc.py:75-97).  The recursion goes to base classes, which are older; the
first argument bounds its depth and is never exhausted (`getitem_total`). -/
def getitemF : Nat → Heap → Nat → Index → PyM (Heap × Nat)
  | 0, _, _, _ => .error .assertionError
  | fuel + 1, h, c, idx =>
      match h.lookupIdx c idx with
      | some d => .ok (h, d)                                   -- 77-78
      | none => match idx with
        | .eqInt _ => .error .typeError                        -- 82-83
        | .other => .error .typeError
        | .int i =>
            if i < 0 then .error .valueError                   -- 84-85
            else if (h.size c).isSome then .error .typeError   -- 87-88
            else do
              let vb := (h.bases c).filter h.isVec             -- 91
              let (h1, bs) ← mapBases (fun h b => getitemF fuel h b (.int i)) h vb
              let (h2, t) ← h1.newVec (c :: bs) (some c, some i)     -- 90-94
              return ({ h2 with cache := ((c, i), t) :: h2.cache }, t)   -- 96-97

def getitem (h : Heap) (c : Nat) (idx : Index) : PyM (Heap × Nat) := getitemF (c + 1) h c idx

/-- `unsized_t` (bit_vector_abc.py:99-105). -/
def unsizedT (h : Heap) (c : Nat) : PyM Nat :=
  match h.classes[c]? with
  | some k => match k.unsized with
    | some t => .ok t
    | none => .error .attributeError
  | none => .error .attributeError

/-- A class exists and has not been collected. -/
def Alive (h : Heap) (c : Nat) : Prop := c < h.classes.length ∧ c ∉ h.dead

/-- `issubclass`. -/
inductive Sub (h : Heap) : Nat → Nat → Prop
  | refl (c : Nat) : Sub h c c
  | step {c b d : Nat} : b ∈ h.bases c → Sub h b d → Sub h c d

/-- What the client program and the collector can do. -/
inductive Step : Heap → Heap → Prop
  /-- `class X(*bases)` with the vector metaclass -/
  | vec {h h' : Heap} {bases : List Nat} {t : Nat} : (∀ b ∈ bases, h.Alive b) →
      h.newVec bases (none, none) = .ok (h', t) → Step h { h' with roots := t :: h'.roots }
  /-- an ordinary class -/
  | plain {h : Heap} {bases : List Nat} : (∀ b ∈ bases, h.Alive b ∧ h.isVec b = false) →
      Step h { (h.newPlain bases).1 with roots := (h.newPlain bases).2 :: h.roots }
  /-- `T[idx]` on a class the program can reach -/
  | getitem {h h' : Heap} {c t : Nat} {idx : Index} : h.Alive c → h.isVec c = true →
      h.getitem c idx = .ok (h', t) → Step h { h' with roots := t :: h'.roots }
  /-- references are dropped -/
  | release {h : Heap} {r : List Nat} : r ⊆ h.roots → Step h { h with roots := r }
  /-- the collector removes classes to which nothing that stays refers -/
  | gc {h : Heap} {D : List Nat} : (∀ d ∈ D, d < h.classes.length) → (∀ r ∈ h.roots, r ∉ D) →
      (∀ c k, h.classes[c]? = some k → c ∉ h.dead → c ∉ D →
        (∀ b ∈ k.bases, b ∉ D) ∧ (∀ u, k.unsized = some u → u ∉ D)) →
      Step h { h with dead := D ++ h.dead, cache := h.cache.filter fun e => ¬ D.contains e.2 }

/-- Any history. -/
inductive Steps : Heap → Heap → Prop
  | refl (h : Heap) : Steps h h
  | tail {a b c : Heap} : Steps a b → Step b c → Steps a c

end Heap
end HW.Cls

namespace HW

/-- The width chosen by the unsized constructor (bit_vector_abc.py:30-46).  `Obj.other (some v)` has
`__int__`. -/
def implicitSize : Obj → PyM Nat
  | .bv x => .ok x.size
  | .bit _ => .ok 1
  | .seq l => .ok (max l.length 1)
  | .int v => .ok (max (pyBitLength v) 1)
  | .bool b => .ok (max (pyBitLength (b2i b)) 1)
  | .other (some v) _ => .ok (max (pyBitLength v) 1)
  | .other none _ => .error .typeError

/-- `T(v)` for an unsized `T` (bit_vector_abc.py:23-48). -/
def mkUnsized (k : Kind) (o : Obj) : PyM BVal := do mkBV k (← implicitSize o) o

end HW
