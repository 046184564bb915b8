import Verif.Model.ClassHeap
import Verif.Model.Derived

/-!
# The class hierarchy of a program

`Model/Derived.lean` runs the methods over any `Hier`.  This is the `Hier` of a state of the class heap
(`Model/ClassHeap.lean`): the unsized classes alive, the sized classes alive, and the classes `U[n]` that the
program would make by writing `U[n]` (bit_vector_abc.py:75-97).
-/

namespace HW.Der

open Cls Cls.Heap

/-- An unsized class the program can reach. -/
def HU (h : Heap) : Type := { u : Nat // h.Alive u ∧ h.isVec u = true ∧ h.size u = none }

/-- A sized class: one that exists, or `U[n]` not made so far. -/
inductive HC (h : Heap)
  | real (c : Nat) (hc : h.Alive c) (hs : (h.size c).isSome = true)
  | fresh (u : HU h) (n : Nat) (hl : h.lookup u.1 n = none)

/-- The state after the program evaluates `U[n]` and keeps it, and the class. -/
def after (h : Heap) (u : Nat) (n : Nat) : Heap × Nat :=
  match h.getitem u (.int n) with
  | .ok (h', t) => ({ h' with roots := t :: h'.roots }, t)
  | .error _ => (h, u)

/-- `issubclass` with a class that exists already. -/
def HC.under {h : Heap} : HC h → Nat → Prop
  | .real c _ _, d => Sub h c d
  | .fresh u n _, d => Sub (after h u.1 n).1 (after h u.1 n).2 d

/-- `issubclass` (a class made later is no superclass of one that exists). -/
def HC.sub {h : Heap} (c : HC h) : HC h → Prop
  | .real d _ _ => c.under d
  | .fresh v m _ => match c with
    | .real _ _ _ => False
    | .fresh u n _ => ∃ e, (after h u.1 n).1.lookup v.1 m = some e ∧ Sub (after h u.1 n).1 (after h u.1 n).2 e

/-- Cached classes are alive and sized (true in every history: `C131_cached`). -/
def Cached (h : Heap) : Prop := ∀ u n d, h.lookup u n = some d → h.Alive d ∧ (h.size d).isSome = true

/-- `U[n]`. -/
def HC.get {h : Heap} (hc : Cached h) (u : HU h) (n : Nat) : HC h :=
  match e : h.lookup u.1 n with
  | none => .fresh u n e
  | some d => .real d (hc u.1 n d e).1 (hc u.1 n d e).2

/-- `size` (bit_vector_abc.py:107-109). -/
def HC.size {h : Heap} : HC h → Nat
  | .real c _ _ => ((h.size c).getD 0).toNat
  | .fresh _ n _ => n

open Classical in
/-- `unsized_t` (bit_vector_abc.py:99-105). -/
noncomputable def HC.unsized {h : Heap} : HC h → Option (HU h)
  | .real c _ _ => match h.unsizedT c with
    | .ok t => if ht : h.Alive t ∧ h.isVec t = true ∧ h.size t = none then some ⟨t, ht⟩ else none
    | .error _ => none
  | .fresh u _ _ => some u

open Classical in
/-- The hierarchy of a state `h`, where `S` is the class `SIntVector`. -/
noncomputable def hierOf (h : Heap) (hc : Cached h) (S : Nat) : Hier where
  U := HU h
  C := HC h
  decC := Classical.decEq _
  size := HC.size
  unsized := HC.unsized
  get := HC.get hc
  isSub c d := decide (c.sub d)
  isSubU c u := decide (c.under u.1)
  signed c := decide (c.under S)

end HW.Der
