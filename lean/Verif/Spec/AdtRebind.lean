import Verif.Spec.Adt

/-!
# What `rebind` does to modified classes and to classes with a body

Unlike `Maps`, `Rebound` says nothing of the place of the modifiers (on the bound class or on its `unbound_t`) nor of
the attributes of a class that are not fields.
-/

namespace HW.Adt

/-- What `rebind(A, B, subs, rec)` does with a field of type `t`: `some t'` if it becomes `t'`, `none` if it is
rebound itself. -/
def fieldImage (W : World) (A B : Ty) (subs rec : Bool) (t : Ty) : Option Ty :=
  if t = A ∨ subs = true ∧ W.sub t A = true then some B
  else if rec = true then none else some t

/-- `T'` is of the kind of `T`, has its `unbound_t`, its `__name__` and its field names, and its fields are
those of `T` mapped by `f`, or in the same way again where `f` is `none`; classes without fields are kept. The
alternatives of a `Sum` are a set, the fields of a `TaggedUnion` a dictionary. `top`: the class itself is not
looked up in `f`. -/
inductive Rebound (W : World) (f : Ty → Option Ty) : Bool → Ty → Ty → Prop
  | hit {T T'} : f T = some T' → Rebound W f false T T'
  | plain {top T} : (top = false → f T = none) → T.Fieldless → Rebound W f top T T
  | ordered {top T T' k k'} {fs fs' : List Ty} : (top = false → f T = none) → T.view = some (k, fs) →
      T'.view = some (k', fs') → k.shape ≠ .sum → k.shape ≠ .tagged → k'.shape = k.shape → k'.base = k.base →
      k'.names = k.names → (k.shape = .product → T'.cname W = T.cname W) → fs.length = fs'.length →
      (∀ (i : Nat) (t t' : Ty), fs[i]? = some t → fs'[i]? = some t' → Rebound W f false t t') → Rebound W f top T T'
  | sum {top T T' k k'} {fs fs' : List Ty} (g : Ty → Ty) : (top = false → f T = none) → T.view = some (k, fs) →
      T'.view = some (k', fs') → k.shape = .sum → k'.shape = .sum → k'.base = k.base → fs'.Nodup →
      (∀ t ∈ fs, Rebound W f false t (g t)) → (∀ t', t' ∈ fs' ↔ ∃ t ∈ fs, g t = t') → Rebound W f top T T'
  | tagged {top T T' k k'} {fs fs' : List Ty} : (top = false → f T = none) → T.view = some (k, fs) →
      T'.view = some (k', fs') → k.shape = .tagged → k'.shape = .tagged → k'.base = k.base →
      T'.cname W = T.cname W → k'.names.Perm k.names → fs.length = k.names.length → fs'.length = k'.names.length →
      (∀ n t t', (n, t) ∈ k.names.zip fs → (n, t') ∈ k'.names.zip fs' → Rebound W f false t t') → Rebound W f top T T'

/-- `rebind` comes to the class `s` from `T`: through fields that `f` leaves to be rebound. -/
inductive Reaches (f : Ty → Option Ty) : Ty → Ty → Prop
  | self (T) : Reaches f T T
  | field {T t s} : T.HasField t → f t = none → Reaches f t s → Reaches f T s

/-- An `AnonymousProduct`, perhaps modified. -/
def Ty.IsAnon (T : Ty) : Prop := ∃ k fs, T.view = some (k, fs) ∧ k.shape = .anon

/-- The same class up to the place of the modifiers, the class body, and alternatives of a `Sum` or fields that
are the same in this sense. -/
def SameClass (W : World) : Ty → Ty → Prop := Rebound W (fun _ => none) true

end HW.Adt
