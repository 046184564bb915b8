import Verif.Model.HeapProgram
import Verif.Lemmas.CircuitHeap

/-! Programs with assignments, run with two related families. -/

namespace HW.Circuit

section
variable {F G : HFamily} (E : PyErr → PyErr → Prop) (RV : F.V → G.V → Prop) (RB : F.B → G.B → Prop)

/-- Neither run has ended, or both have: with the same objects of related values, and with the same Python value or
related exceptions. -/
def HRelO {α : Type} : Option (HStore F × PyM α) → Option (HStore G × PyM α) → Prop
  | none, none => True
  | some (s, r), some (t, q) => List.Forall₂ (RegRel (ObjRel RV) RB) s t ∧ RelP E (· = ·) r q
  | _, _ => False

end

namespace HSim
variable {F G : HFamily} {E : PyErr → PyErr → Prop} {RV : F.V → G.V → Prop} {RB : F.B → G.B → Prop}

theorem hturns_rel {σ β : Type} {f : σ → HStore F → Option (HStore F × PyM (σ ⊕ β))}
    {g : σ → HStore G → Option (HStore G × PyM (σ ⊕ β))}
    (hfg : ∀ a s t, List.Forall₂ (RegRel (ObjRel RV) RB) s t → HRelO E RV RB (f a s) (g a t)) (n : Nat) :
    ∀ a s t, List.Forall₂ (RegRel (ObjRel RV) RB) s t → HRelO E RV RB (hturns F f n a s) (hturns G g n a t) := by
  induction n with
  | zero => intro a s t _; trivial
  | succ n ih =>
    intro a s t h
    unfold hturns
    have := hfg a s t h
    match f a s, g a t, this with
    | none, none, _ => trivial
    | some (s', .error e), some (t', .error e'), h => exact h
    | some (s', .ok (.inl a1)), some (t', .ok b), h =>
      obtain rfl : Sum.inl a1 = b := h.2
      exact ih _ _ _ h.1
    | some (s', .ok (.inr a1)), some (t', .ok b), h =>
      obtain rfl : Sum.inr a1 = b := h.2
      exact ⟨h.1, rfl⟩

variable (H : HSim F G E RV RB) (T : Truth F.toFamily) (U : Truth G.toFamily)
include H

theorem readObj_rel {s : HStore F} {t : HStore G} (h : List.Forall₂ (RegRel (ObjRel RV) RB) s t) (x : Nat) :
    RelP E (ObjRel RV) (readObj F s x) (readObj G t x) := by
  unfold readObj
  rcases get_rel h x with ⟨h1, h2⟩ | ⟨a, b, h1, h2, h3⟩
  · rw [h1, h2]; exact H.refl _
  · rw [h1, h2]
    cases h3 with
    | vec h3 => exact h3
    | bit => exact H.refl _

theorem query_rel {s : HStore F} {t : HStore G} (h : List.Forall₂ (RegRel (ObjRel RV) RB) s t) (q : Query) (hq : q.Quiet) :
    RelP E (· = ·) (query F T s q) (query G U t q) := by
  have hd := deref_rel h
  cases q with
  | next => exact h.length_eq
  | len x => exact (H.toSim.readV_rel hd x).bind fun a b hab => H.size hab
  | same x y => exact (H.toSim.readV_rel hd x).bind fun a b hab => (H.toSim.readV_rel hd y).bind fun a' b' hab' => H.sameClass hab hab'
  | signed x => exact (H.toSim.readV_rel hd x).bind fun a b hab => H.signed hab
  | isBit x => exact (H.toSim.read_rel hd x).bind fun a b hab => by cases hab <;> rfl
  | ident x y =>
    refine (H.readObj_rel h x).bind fun a b hab => (H.readObj_rel h y).bind fun a' b' hab' => ?_
    show decide _ = decide _
    rw [hab.1, hab'.1]
  | test => exact hq.elim
  | testV => exact hq.elim

/-- A program that tests no bit does the same with both families. -/
theorem hexec_rel (n : Nat) {α : Type} (p : HProg α) : p.NoTest → p.Respects E → ∀ {s : HStore F} {t : HStore G},
    List.Forall₂ (RegRel (ObjRel RV) RB) s t → HRelO E RV RB (hexec F (fresh F) T n p s) (hexec G (fresh G) U n p t) := by
  induction p with
  | ret a => intro _ _ s t h; exact ⟨h, rfl⟩
  | raise e => intro _ _ s t h; exact ⟨h, H.refl e⟩
  | op i k ih =>
    intro h1 h2 s t h
    unfold hexec
    have := H.hstep_rel h i
    match hstep F (fresh F) s i, hstep G (fresh G) t i, this with
    | .ok s', .ok t', h' => exact ih h1 h2 h'
    | .error e, .error e', h' => exact ⟨h, h'⟩
  | ask q k ih =>
    intro h1 h2 s t h
    unfold hexec
    have := H.query_rel T U h q h1.1
    match query F T s q, query G U t q, this with
    | .ok a, .ok b, h' =>
      obtain rfl : a = b := h'
      exact ih a (h1.2 a) (h2 a) h
    | .error e, .error e', h' => exact ⟨h, h'⟩
  | tryElse body hd k ihb ihh ihk =>
    intro h1 h2 s t h
    unfold hexec
    have := ihb h1.1 h2.1 h
    match hexec F (fresh F) T n body s, hexec G (fresh G) U n body t, this with
    | none, none, _ => trivial
    | some (s', .ok a), some (t', .ok b), h' =>
      obtain rfl : a = b := h'.2
      exact ihk a (h1.2.2 a) (h2.2.2.1 a) h'.1
    | some (s', .error e), some (t', .error e'), h' =>
      rcases h2.2.2.2 e e' h'.2 with he | ⟨he, he'⟩
      · dsimp only
        rw [← he]
        exact ihh e (h1.2.1 e) (h2.2.1 e) h'.1
      · dsimp only
        rw [he, he']
        exact h'
  | loop a body k ihb ihk =>
    intro h1 h2 s t h
    unfold hexec
    have := hturns_rel (E := E) (fun a s t h => ihb a (h1.1 a) (h2.1 a) h) n a s t h
    match hturns F (fun a s => hexec F (fresh F) T n (body a) s) n a s,
      hturns G (fun a s => hexec G (fresh G) U n (body a) s) n a t, this with
    | none, none, _ => trivial
    | some (s', .ok a), some (t', .ok b), h' =>
      obtain rfl : a = b := h'.2
      exact ihk a (h1.2 a) (h2.2 a) h'.1
    | some (s', .error e), some (t', .error e'), h' => exact h'

end HSim

theorem hturns_mono (F : HFamily) {σ β : Type} {f g : σ → HStore F → Option (HStore F × PyM (σ ⊕ β))}
    (hfg : ∀ a s r, f a s = some r → g a s = some r) : ∀ {n m : Nat}, n ≤ m → ∀ a s r,
    hturns F f n a s = some r → hturns F g m a s = some r
  | 0, _, _, _, _, _, h => by cases h
  | n + 1, 0, h, _, _, _, _ => absurd h (by omega)
  | n + 1, m + 1, hnm, a, s, r, h => by
    unfold hturns at h ⊢
    match hf : f a s with
    | none => rw [hf] at h; cases h
    | some (s', .error e) => rw [hf] at h; rw [hfg _ _ _ hf]; exact h
    | some (s', .ok (.inl a')) =>
      rw [hf] at h; rw [hfg _ _ _ hf]
      exact hturns_mono F hfg (Nat.le_of_succ_le_succ hnm) a' s' r h
    | some (s', .ok (.inr b)) => rw [hf] at h; rw [hfg _ _ _ hf]; exact h

/-- More turns allowed: the same outcome. -/
theorem hexec_mono (F : HFamily) (al : Alias F) (T : Truth F.toFamily) {n m : Nat} (hnm : n ≤ m) {α : Type} (p : HProg α) :
    ∀ (s : HStore F) (r : HStore F × PyM α), hexec F al T n p s = some r → hexec F al T m p s = some r := by
  induction p with
  | ret a => intro s r h; exact h
  | raise e => intro s r h; exact h
  | op i k ih =>
    intro s r h
    unfold hexec at h ⊢
    match hs : hstep F al s i with
    | .ok s' => rw [hs] at h; exact ih _ _ h
    | .error e => rw [hs] at h; exact h
  | ask q k ih =>
    intro s r h
    unfold hexec at h ⊢
    match hs : query F T s q with
    | .ok a => rw [hs] at h; exact ih _ _ _ h
    | .error e => rw [hs] at h; exact h
  | tryElse body hd k ihb ihh ihk =>
    intro s r h
    unfold hexec at h ⊢
    match hb : hexec F al T n body s with
    | none => rw [hb] at h; cases h
    | some (s', .ok b) => rw [hb] at h; rw [ihb _ _ hb]; exact ihk _ _ _ h
    | some (s', .error e) => rw [hb] at h; rw [ihb _ _ hb]; exact ihh _ _ _ h
  | loop a body k ihb ihk =>
    intro s r h
    unfold hexec at h ⊢
    match hb : hturns F (fun a s => hexec F al T n (body a) s) n a s with
    | none => rw [hb] at h; cases h
    | some (s', .ok b) =>
      rw [hb] at h; rw [hturns_mono F (fun a s r h => ihb a s r h) hnm _ _ _ hb]; exact ihk _ _ _ h
    | some (s', .error e) =>
      rw [hb] at h; rw [hturns_mono F (fun a s r h => ihb a s r h) hnm _ _ _ hb]; exact h

/-- A program has one outcome. -/
theorem HEnds.unique {F : HFamily} {al : Alias F} {T : Truth F.toFamily} {α : Type} {p : HProg α} {s s1 s2 : HStore F}
    {r1 r2 : PyM α} (h1 : HEnds F al T p s s1 r1) (h2 : HEnds F al T p s s2 r2) : s1 = s2 ∧ r1 = r2 := by
  obtain ⟨n, h1⟩ := h1
  obtain ⟨m, h2⟩ := h2
  have e1 := hexec_mono F al T (Nat.le_max_left n m) p _ _ h1
  have e2 := hexec_mono F al T (Nat.le_max_right n m) p _ _ h2
  rw [e1] at e2
  injection e2 with e2
  injection e2 with e2 e3
  exact ⟨e2, e3⟩

end HW.Circuit
