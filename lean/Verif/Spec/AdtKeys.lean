import Verif.Spec.AdtShare
import Verif.Spec.AdtValue
import Verif.Model.Adt.Keys

/-!
# Specification vocabulary for dictionaries with ADT values as keys
-/

namespace HW.Adt

/-- No tuple or product in it has been assigned to. -/
def Val.Frozen (x : Val) : Prop := ∀ T vs, ¬ (Val.tup T true vs).In x

/-- Objects, and a function from values to what is stored under them. -/
structure ValueMap where
  store : Store
  map : Val → Option Int

namespace ValueMap
variable (W : World) (L : Leaves)

open Classical in
/-- An operation on what is stored under the value of `k`: an object changed by assignment is no key. -/
noncomputable def at' (s : ValueMap) (k : Ref) (f : Val → ValueMap × PyM (Option Int)) : ValueMap × PyM (Option Int) :=
  if h : ∃ x, s.store.Reads k x then
    if h.choose.Frozen then f h.choose else (s, .error .typeError)
  else (s, .error .nameError)

/-- `v` is stored under the values equal to `x`. -/
def update (s : ValueMap) (x : Val) (v : Option Int) : ValueMap :=
  { s with map := fun y => if Val.eq W L x y then v else s.map y }

noncomputable def exec (s : ValueMap) : KInstr → ValueMap × PyM (Option Int)
  | .op c => ({ s with store := (s.store.step W c).st }, (s.store.step W c).res.map fun _ => none)
  | .put k v => s.at' k fun x => (s.update W L x (some v), .ok none)
  | .get k => s.at' k fun x => (s, if s.map x = none then .error .keyError else .ok (s.map x))
  | .del k => s.at' k fun x => if s.map x = none then (s, .error .keyError) else (s.update W L x none, .ok none)

noncomputable def outputs (s : ValueMap) : List KInstr → List (PyM (Option Int))
  | [] => []
  | c :: p => (s.exec W L c).2 :: outputs (s.exec W L c).1 p

end ValueMap

namespace KeyMachine

/-- The instruction changes no object that is a key now or a part of one. -/
def KeysKept (s : KeyMachine) : KInstr → Prop
  | .op c => ∀ t, c.target = some t → ∀ e ∈ s.dict, ¬ Reach s.store e.key t
  | _ => True

/-- The object a dictionary operation takes as key. -/
def keyOf : KInstr → Option Ref
  | .op _ => none
  | .put k _ => some k
  | .get k => some k
  | .del k => some k

/-- Throughout the run, the values used as keys satisfy `P`, and neither the keys in the dictionary nor their parts are
assigned to. -/
def Disciplined (W : World) (L : Leaves) (P : Val → Prop) (s : KeyMachine) : List KInstr → Prop
  | [] => True
  | c :: p => s.KeysKept c ∧ (∀ k x, keyOf c = some k → s.store.Reads k x → P x) ∧
      Disciplined W L P (s.exec W L c).1 p

end KeyMachine
end HW.Adt
