import Verif.Model.PyProgram
import Verif.Lemmas.Circuit

/-! Programs run with two families whose methods are related. -/

namespace HW.Circuit

section
variable {F G : Family} (E : PyErr → PyErr → Prop) (RV : F.V → G.V → Prop) (RB : F.B → G.B → Prop)

/-- Neither run has ended, or both have: with related registers, and with the same Python value or related
exceptions. -/
def RelO {α : Type} : Option (Store F × PyM α) → Option (Store G × PyM α) → Prop
  | none, none => True
  | some (s, r), some (t, q) => List.Forall₂ (RegRel RV RB) s t ∧ RelP E (· = ·) r q
  | _, _ => False

/-- The same, unless the first run has ended with a `TypeError`. -/
def RelOT {α : Type} (m : Option (Store F × PyM α)) (M : Option (Store G × PyM α)) : Prop :=
  RelO E RV RB m M ∨ ∃ s, m = some (s, .error .typeError)

end

namespace Sim
variable {F G : Family} {E : PyErr → PyErr → Prop} {RV : F.V → G.V → Prop} {RB : F.B → G.B → Prop}

theorem look_rel {α β β' : Type} {R : β → β' → Prop} {s : Store F} {t : Store G} (h : List.Forall₂ (RegRel RV RB) s t)
    {m : PyM β} {M : PyM β'} (hm : RelP E R m M) {k : β → Option (Store F × PyM α)} {K : β' → Option (Store G × PyM α)}
    {Q : Option (Store F × PyM α) → Option (Store G × PyM α) → Prop}
    (hQ : ∀ s t e e', List.Forall₂ (RegRel RV RB) s t → E e e' → Q (some (s, .error e)) (some (t, .error e')))
    (hk : ∀ a b, R a b → Q (k a) (K b)) : Q (look F s m k) (look G t M K) := by
  cases m with
  | error => cases M with
    | error => exact hQ _ _ _ _ h hm
    | ok => exact hm.elim
  | ok => cases M with
    | error => exact hm.elim
    | ok => exact hk _ _ hm

theorem turns_rel {σ β : Type} {f : σ → Store F → Option (Store F × PyM (σ ⊕ β))}
    {g : σ → Store G → Option (Store G × PyM (σ ⊕ β))}
    (hfg : ∀ a s t, List.Forall₂ (RegRel RV RB) s t → RelO E RV RB (f a s) (g a t)) (n : Nat) :
    ∀ a s t, List.Forall₂ (RegRel RV RB) s t → RelO E RV RB (turns F f n a s) (turns G g n a t) := by
  induction n with
  | zero => intro a s t _; trivial
  | succ n ih =>
    intro a s t h
    have := hfg a s t h
    unfold turns
    match f a s, g a t, this with
    | none, none, _ => trivial
    | some (s', .error e), some (t', .error e'), h => exact h
    | some (s', .ok (.inl a1)), some (t', .ok b), h =>
      obtain rfl : Sum.inl a1 = b := h.2
      exact ih _ _ _ h.1
    | some (s', .ok (.inr a1)), some (t', .ok b), h =>
      obtain rfl : Sum.inr a1 = b := h.2
      exact ⟨h.1, rfl⟩

theorem turns_relT {σ β : Type} {f : σ → Store F → Option (Store F × PyM (σ ⊕ β))}
    {g : σ → Store G → Option (Store G × PyM (σ ⊕ β))}
    (hfg : ∀ a s t, List.Forall₂ (RegRel RV RB) s t → RelOT E RV RB (f a s) (g a t)) (n : Nat) :
    ∀ a s t, List.Forall₂ (RegRel RV RB) s t → RelOT E RV RB (turns F f n a s) (turns G g n a t) := by
  induction n with
  | zero => intro a s t _; exact .inl trivial
  | succ n ih =>
    intro a s t h
    unfold turns
    rcases hfg a s t h with h | ⟨s', h⟩
    · match f a s, g a t, h with
      | none, none, _ => exact .inl trivial
      | some (s', .error e), some (t', .error e'), h => exact .inl h
      | some (s', .ok (.inl a1)), some (t', .ok b), h =>
        obtain rfl : Sum.inl a1 = b := h.2
        exact ih _ _ _ h.1
      | some (s', .ok (.inr a1)), some (t', .ok b), h =>
        obtain rfl : Sum.inr a1 = b := h.2
        exact .inl ⟨h.1, rfl⟩
    · rw [h]; exact .inr ⟨s', rfl⟩

variable (H : Sim F G E RV RB) (T : Truth F) (U : Truth G)
include H

omit H in
theorem isBit_rel {r : Reg F.V F.B} {q : Reg G.V G.B} (h : RegRel RV RB r q) : regIsBit F r = regIsBit G q := by
  cases h <;> rfl

/-- A program that tests no bit does the same with both families. -/
theorem exec_rel (n : Nat) {α : Type} (p : Prog α) : p.NoTest → p.Respects E → ∀ {s : Store F} {t : Store G},
    List.Forall₂ (RegRel RV RB) s t → RelO E RV RB (exec F T n p s) (exec G U n p t) := by
  have hQ : ∀ (α : Type) (s : Store F) (t : Store G) (e e' : PyErr), List.Forall₂ (RegRel RV RB) s t → E e e' →
      RelO (α := α) E RV RB (some (s, .error e)) (some (t, .error e')) := fun _ _ _ _ _ h he => ⟨h, he⟩
  induction p with
  | ret a => intro _ _ s t h; exact ⟨h, rfl⟩
  | raise e => intro _ _ s t h; exact ⟨h, H.refl e⟩
  | op i k ih =>
    intro h1 h2 s t h
    unfold exec
    have := H.step_rel h i
    match step F s i, step G t i, this with
    | .ok s', .ok t', h' => exact ih h1 h2 h'
    | .error e, .error e', h' => exact ⟨h, h'⟩
  | next k ih =>
    intro h1 h2 s t h
    unfold exec
    rw [h.length_eq]
    exact ih _ (h1 _) (h2 _) h
  | len x k ih =>
    intro h1 h2 s t h
    unfold exec
    refine look_rel h (H.readV_rel h x) (hQ _) fun a b hab => ?_
    rw [H.size hab]
    exact ih _ (h1 _) (h2 _) h
  | same x y k ih =>
    intro h1 h2 s t h
    unfold exec
    refine look_rel h (H.readV_rel h x) (hQ _) fun a b hab => look_rel h (H.readV_rel h y) (hQ _) fun a' b' hab' => ?_
    rw [H.sameClass hab hab']
    exact ih _ (h1 _) (h2 _) h
  | signed x k ih =>
    intro h1 h2 s t h
    unfold exec
    refine look_rel h (H.readV_rel h x) (hQ _) fun a b hab => ?_
    rw [H.signed hab]
    exact ih _ (h1 _) (h2 _) h
  | isBit x k ih =>
    intro h1 h2 s t h
    unfold exec
    refine look_rel h (H.read_rel h x) (hQ _) fun a b hab => ?_
    rw [isBit_rel hab]
    exact ih _ (h1 _) (h2 _) h
  | test => intro h1; exact h1.elim
  | testV => intro h1; exact h1.elim
  | tryElse body hd k ihb ihh ihk =>
    intro h1 h2 s t h
    unfold exec
    have := ihb h1.1 h2.1 h
    match exec F T n body s, exec G U n body t, this with
    | none, none, _ => trivial
    | some (s', .ok a), some (t', .ok b), h' =>
      obtain rfl : a = b := h'.2
      exact ihk a (h1.2.2 a) (h2.2.2.1 a) h'.1
    | some (s', .error e), some (t', .error e'), h' =>
      rcases h2.2.2.2 e e' h'.2 with he | ⟨he, he'⟩
      · dsimp only
        rw [← he]
        exact ihh e (h1.2.1 e) (h2.2.1 e) h'.1
      · dsimp only
        rw [he, he']
        exact h'
  | loop a body k ihb ihk =>
    intro h1 h2 s t h
    unfold exec
    have := turns_rel (E := E) (fun a s t h => ihb a (h1.1 a) (h2.1 a) h) n a s t h
    match turns F (fun a s => exec F T n (body a) s) n a s, turns G (fun a s => exec G U n (body a) s) n a t, this with
    | none, none, _ => trivial
    | some (s', .ok a), some (t', .ok b), h' =>
      obtain rfl : a = b := h'.2
      exact ihk a (h1.2 a) (h2.2 a) h'.1
    | some (s', .error e), some (t', .error e'), h' => exact h'

/-- If the first family refuses to test bits, a program does the same with both, unless it ends with a `TypeError`. -/
theorem exec_relT (hT : ∀ b, T.bit b = .error .typeError) (n : Nat) {α : Type} (p : Prog α) : p.Plain → p.Respects E →
    ∀ {s : Store F} {t : Store G}, List.Forall₂ (RegRel RV RB) s t →
      RelOT E RV RB (exec F T n p s) (exec G U n p t) := by
  have hQ : ∀ (α : Type) (s : Store F) (t : Store G) (e e' : PyErr), List.Forall₂ (RegRel RV RB) s t → E e e' →
      RelOT (α := α) E RV RB (some (s, .error e)) (some (t, .error e')) := fun _ _ _ _ _ h he => .inl ⟨h, he⟩
  induction p with
  | ret a => intro _ _ s t h; exact .inl ⟨h, rfl⟩
  | raise e => intro _ _ s t h; exact .inl ⟨h, H.refl e⟩
  | op i k ih =>
    intro h1 h2 s t h
    unfold exec
    have := H.step_rel h i
    match step F s i, step G t i, this with
    | .ok s', .ok t', h' => exact ih h1 h2 h'
    | .error e, .error e', h' => exact .inl ⟨h, h'⟩
  | next k ih =>
    intro h1 h2 s t h
    unfold exec
    rw [h.length_eq]
    exact ih _ (h1 _) (h2 _) h
  | len x k ih =>
    intro h1 h2 s t h
    unfold exec
    refine look_rel h (H.readV_rel h x) (hQ _) fun a b hab => ?_
    rw [H.size hab]
    exact ih _ (h1 _) (h2 _) h
  | same x y k ih =>
    intro h1 h2 s t h
    unfold exec
    refine look_rel h (H.readV_rel h x) (hQ _) fun a b hab => look_rel h (H.readV_rel h y) (hQ _) fun a' b' hab' => ?_
    rw [H.sameClass hab hab']
    exact ih _ (h1 _) (h2 _) h
  | signed x k ih =>
    intro h1 h2 s t h
    unfold exec
    refine look_rel h (H.readV_rel h x) (hQ _) fun a b hab => ?_
    rw [H.signed hab]
    exact ih _ (h1 _) (h2 _) h
  | isBit x k ih =>
    intro h1 h2 s t h
    unfold exec
    refine look_rel h (H.read_rel h x) (hQ _) fun a b hab => ?_
    rw [isBit_rel hab]
    exact ih _ (h1 _) (h2 _) h
  | test x k ih =>
    intro h1 h2 s t h
    unfold exec
    refine look_rel h (H.readB_rel h x) (hQ _) fun a b hab => ?_
    rw [hT]
    exact .inr ⟨s, rfl⟩
  | testV => intro h1; exact h1.elim
  | tryElse body hd k ihb ihh ihk =>
    intro h1 h2 s t h
    unfold exec
    rcases ihb h1.1 h2.1 h with h' | ⟨s', h'⟩
    · match exec F T n body s, exec G U n body t, h' with
      | none, none, _ => exact .inl trivial
      | some (s', .ok a), some (t', .ok b), h' =>
        obtain rfl : a = b := h'.2
        exact ihk a (h1.2.2.1 a) (h2.2.2.1 a) h'.1
      | some (s', .error e), some (t', .error e'), h' =>
        rcases h2.2.2.2 e e' h'.2 with he | ⟨he, he'⟩
        · dsimp only
          rw [← he]
          exact ihh e (h1.2.1 e) (h2.2.1 e) h'.1
        · dsimp only
          rw [he, he']
          exact .inl h'
    · rw [h']
      dsimp only
      rw [h1.2.2.2]
      exact .inr ⟨s', rfl⟩
  | loop a body k ihb ihk =>
    intro h1 h2 s t h
    unfold exec
    rcases turns_relT (E := E) (fun a s t h => ihb a (h1.1 a) (h2.1 a) h) n a s t h with h' | ⟨s', h'⟩
    · match turns F (fun a s => exec F T n (body a) s) n a s, turns G (fun a s => exec G U n (body a) s) n a t, h' with
      | none, none, _ => exact .inl trivial
      | some (s', .ok a), some (t', .ok b), h' =>
        obtain rfl : a = b := h'.2
        exact ihk a (h1.2 a) (h2.2 a) h'.1
      | some (s', .error e), some (t', .error e'), h' => exact .inl h'
    · rw [h']
      exact .inr ⟨s', rfl⟩

end Sim

theorem turns_mono (F : Family) {σ β : Type} {f g : σ → Store F → Option (Store F × PyM (σ ⊕ β))}
    (hfg : ∀ a s r, f a s = some r → g a s = some r) : ∀ {n m : Nat}, n ≤ m → ∀ a s r,
    turns F f n a s = some r → turns F g m a s = some r
  | 0, _, _, _, _, _, h => by cases h
  | n + 1, 0, h, _, _, _, _ => absurd h (by omega)
  | n + 1, m + 1, hnm, a, s, r, h => by
    unfold turns at h ⊢
    match hf : f a s with
    | none => rw [hf] at h; cases h
    | some (s', .error e) => rw [hf] at h; rw [hfg _ _ _ hf]; exact h
    | some (s', .ok (.inl a')) =>
      rw [hf] at h; rw [hfg _ _ _ hf]
      exact turns_mono F hfg (Nat.le_of_succ_le_succ hnm) a' s' r h
    | some (s', .ok (.inr b)) => rw [hf] at h; rw [hfg _ _ _ hf]; exact h

theorem look_mono {F : Family} {α β : Type} {s : Store F} {m : PyM β} {k k' : β → Option (Store F × PyM α)}
    (hk : ∀ b r, k b = some r → k' b = some r) (r : Store F × PyM α) (h : look F s m k = some r) : look F s m k' = some r := by
  cases m with
  | error => exact h
  | ok b => exact hk b r h

/-- More turns allowed: the same outcome. -/
theorem exec_mono (F : Family) (T : Truth F) {n m : Nat} (hnm : n ≤ m) {α : Type} (p : Prog α) :
    ∀ (s : Store F) (r : Store F × PyM α), exec F T n p s = some r → exec F T m p s = some r := by
  induction p with
  | ret a => intro s r h; exact h
  | raise e => intro s r h; exact h
  | op i k ih =>
    intro s r h
    unfold exec at h ⊢
    match hs : step F s i with
    | .ok s' => rw [hs] at h; exact ih _ _ h
    | .error e => rw [hs] at h; exact h
  | next k ih => intro s r h; unfold exec at h ⊢; exact ih _ _ _ h
  | len x k ih => intro s r h; unfold exec at h ⊢; exact look_mono (fun b r h => ih _ _ _ h) r h
  | same x y k ih =>
    intro s r h; unfold exec at h ⊢
    exact look_mono (fun b r h => look_mono (fun c r h => ih _ _ _ h) r h) r h
  | signed x k ih => intro s r h; unfold exec at h ⊢; exact look_mono (fun b r h => ih _ _ _ h) r h
  | isBit x k ih => intro s r h; unfold exec at h ⊢; exact look_mono (fun b r h => ih _ _ _ h) r h
  | test x k ih =>
    intro s r h; unfold exec at h ⊢
    exact look_mono (fun b r h => look_mono (fun c r h => ih _ _ _ h) r h) r h
  | testV x k ih =>
    intro s r h; unfold exec at h ⊢
    exact look_mono (fun b r h => look_mono (fun c r h => ih _ _ _ h) r h) r h
  | tryElse body hd k ihb ihh ihk =>
    intro s r h
    unfold exec at h ⊢
    match hb : exec F T n body s with
    | none => rw [hb] at h; cases h
    | some (s', .ok b) => rw [hb] at h; rw [ihb _ _ hb]; exact ihk _ _ _ h
    | some (s', .error e) => rw [hb] at h; rw [ihb _ _ hb]; exact ihh _ _ _ h
  | loop a body k ihb ihk =>
    intro s r h
    unfold exec at h ⊢
    match hb : turns F (fun a s => exec F T n (body a) s) n a s with
    | none => rw [hb] at h; cases h
    | some (s', .ok b) =>
      rw [hb] at h; rw [turns_mono F (fun a s r h => ihb a s r h) hnm _ _ _ hb]; exact ihk _ _ _ h
    | some (s', .error e) =>
      rw [hb] at h; rw [turns_mono F (fun a s r h => ihb a s r h) hnm _ _ _ hb]; exact h

/-- A program has one outcome. -/
theorem Ends.unique {F : Family} {T : Truth F} {α : Type} {p : Prog α} {s s1 s2 : Store F} {r1 r2 : PyM α}
    (h1 : Ends F T p s s1 r1) (h2 : Ends F T p s s2 r2) : s1 = s2 ∧ r1 = r2 := by
  obtain ⟨n, h1⟩ := h1
  obtain ⟨m, h2⟩ := h2
  have e1 := exec_mono F T (Nat.le_max_left n m) p _ _ h1
  have e2 := exec_mono F T (Nat.le_max_right n m) p _ _ h2
  rw [e1] at e2
  injection e2 with e2
  injection e2 with e2 e3
  exact ⟨e2, e3⟩

end HW.Circuit
