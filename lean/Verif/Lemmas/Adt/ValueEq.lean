import Verif.Lemmas.Adt.HeapOps
import Verif.Spec.AdtValue

/-!
# Equality and hash of ADT values
-/

namespace HW.Adt

variable {W : World} {L : Leaves}

theorem Val.induct {P : Val → Prop} (leaf : ∀ T p, P (.leaf T p)) (enum : ∀ e i, P (.enum e i))
    (tup : ∀ T a vs, (∀ v ∈ vs, P v) → P (.tup T a vs)) (sum : ∀ T v, P v → P (.sum T v))
    (tag : ∀ T i v, P v → P (.tag T i v)) (v : Val) : P v := by
  induction v using Val.rec (motive_2 := fun l => ∀ t ∈ l, P t) with
  | leaf T p => exact leaf T p
  | enum e i => exact enum e i
  | tup T a vs ih => exact tup T a vs ih
  | sum T v ih => exact sum T v ih
  | tag T i v ih => exact tag T i v ih
  | nil t ht => exact absurd ht (by simp)
  | cons a l h1 h2 t ht =>
      rcases List.mem_cons.1 ht with h | h
      · exact h ▸ h1
      · exact h2 t h

theorem Val.In.ok_tup {P : Val → Prop} {T a vs} (h : ∀ w : Val, w.In (.tup T a vs) → P w) {v} (hv : v ∈ vs) :
    ∀ w : Val, w.In v → P w := fun w hw => h w (.tup hv hw)

/-! ### Lists -/

theorem eqvs_iff {f} : ∀ {xs ys : List Val}, Val.eqvs W L f xs ys = true ↔
    xs.length = ys.length ∧ ∀ (i : Nat) x y, xs[i]? = some x → ys[i]? = some y → Val.eqv W L f x y = true
  | [], [] => by simp [Val.eqvs]
  | [], y :: ys => by simp [Val.eqvs]
  | x :: xs, [] => by simp [Val.eqvs]
  | x :: xs, y :: ys => by
      simp only [Val.eqvs, Bool.and_eq_true, eqvs_iff (xs := xs) (ys := ys), List.length_cons, Nat.add_right_cancel_iff]
      constructor
      · rintro ⟨h1, h2, h3⟩
        refine ⟨h2, fun i a b ha hb => ?_⟩
        cases i with
        | zero =>
            simp only [List.getElem?_cons_zero, Option.some.injEq] at ha hb
            rw [← ha, ← hb]; exact h1
        | succ i => exact h3 i a b (by simpa using ha) (by simpa using hb)
      · rintro ⟨h2, h3⟩
        exact ⟨h3 0 x y rfl rfl, h2, fun i a b ha hb => h3 (i + 1) a b (by simpa using ha) (by simpa using hb)⟩

/-! ### Who decides -/

theorem decides_self (f : Bool) (T : Ty) : ∃ g, decides W f T T = some g := by
  cases f <;> simp [decides, dispatch, W.sub_refl]

theorem decides_swap (f : Bool) (x y : Ty) : decides W (!f) y x = (decides W f x y).map not := by
  cases f
  · cases h : dispatch W x y <;> simp [decides, h]
  · simp [decides]

theorem decides_some {f : Bool} {x y : Ty} {g} (h : decides W f x y = some g) :
    (if g then W.sub x y else W.sub y x) = true := by
  unfold decides dispatch at h
  cases f <;> cases g <;> simp at h ⊢ <;> repeat' (split at h) <;> simp_all

theorem decides_iff {f : Bool} {x y : Ty} : (∃ g, decides W f x y = some g) ↔ (W.sub x y = true ∨ W.sub y x = true) := by
  constructor
  · rintro ⟨g, h⟩
    have := decides_some h
    cases g
    · exact .inr this
    · exact .inl this
  · intro h
    unfold decides dispatch
    cases f <;> simp <;> repeat' split
    all_goals simp_all

/-- If the classes differ, it does not matter on which side of `==` the values are. -/
theorem decides_flip (hA : W.Antisymm) {x y : Ty} (h : x ≠ y) (f g : Bool) : decides W f x y = decides W g x y := by
  have h' : ¬ (W.sub x y = true ∧ W.sub y x = true) := fun ⟨a, b⟩ => h (hA _ _ a b)
  have h2 : y ≠ x := fun e => h e.symm
  cases hxy : W.sub x y <;> cases hyx : W.sub y x <;> simp_all <;> cases f <;> cases g <;>
    simp [decides, dispatch, hxy, hyx, h, h2]

/-! ### Reflexivity and symmetry -/

theorem eqv_refl (x : Val) : ∀ f, Val.eqv W L f x x = true := by
  induction x using Val.induct with
  | leaf T p => intro f; cases f <;> simp [Val.eqv, L.refl]
  | enum e i =>
      intro f
      obtain ⟨g, hg⟩ := decides_self (W := W) f (.enum e)
      simp [Val.eqv, hg]
  | tup T a vs ih =>
      intro f
      obtain ⟨g, hg⟩ := decides_self (W := W) f T
      simp only [Val.eqv, hg, decide_true, Bool.true_and]
      refine eqvs_iff.2 ⟨rfl, fun i x y hx hy => ?_⟩
      rw [hx] at hy
      cases hy
      exact ih x (List.mem_of_getElem? hx) g
  | sum T v ih =>
      intro f
      obtain ⟨g, hg⟩ := decides_self (W := W) f T
      simp only [Val.eqv, hg]
      exact ih g
  | tag T i v ih =>
      intro f
      obtain ⟨g, hg⟩ := decides_self (W := W) f T
      simp only [Val.eqv, hg, decide_true, Bool.true_and]
      exact ih g

theorem eqvs_swap {f} {xs : List Val} (ih : ∀ x ∈ xs, ∀ f y, Val.eqv W L (!f) y x = Val.eqv W L f x y) :
    ∀ ys, Val.eqvs W L (!f) ys xs = Val.eqvs W L f xs ys := by
  induction xs with
  | nil => intro ys; cases ys <;> simp [Val.eqvs]
  | cons x xs ih' =>
      intro ys
      cases ys with
      | nil => simp [Val.eqvs]
      | cons y ys =>
          simp only [Val.eqvs]
          rw [ih x (by simp) f y, ih' (fun x hx => ih x (by simp [hx])) ys]

/-- `x == y` is `x == y`, whichever is called `x`. -/
theorem eqv_swap (x : Val) : ∀ f y, Val.eqv W L (!f) y x = Val.eqv W L f x y := by
  induction x using Val.induct with
  | leaf T p => intro f y; cases y <;> cases f <;> simp [Val.eqv]
  | enum e i =>
      intro f y
      cases y <;> simp only [Val.eqv]
      rw [decides_swap]
      cases decides W f _ _ <;> simp [eq_comm]
  | tup T a vs ih =>
      intro f y
      cases y <;> simp only [Val.eqv]
      rw [decides_swap]
      cases decides W f _ _ with
      | none => rfl
      | some g =>
          simp only [Option.map_some]
          rw [eqvs_swap ih]
          congr 1
          simp [eq_comm]
  | sum T v ih =>
      intro f y
      cases y <;> simp only [Val.eqv]
      · rw [decides_swap]
        cases decides W f _ _ with
        | none => rfl
        | some g => exact ih g _
      · rw [decides_swap]
        cases decides W f _ _ with
        | none => rfl
        | some g =>
            cases g
            · exact ih false _
            · rfl
  | tag T i v ih =>
      intro f y
      cases y <;> simp only [Val.eqv]
      · rw [decides_swap]
        cases decides W f _ _ with
        | none => rfl
        | some g =>
            cases g
            · rfl
            · exact ih true _
      · rw [decides_swap]
        cases decides W f _ _ with
        | none => rfl
        | some g =>
            simp only [Option.map_some]
            rw [ih g]
            congr 1
            simp [eq_comm]

theorem Val.WT.tup {T a vs} (h : Val.WT W (.tup T a vs)) {v} (hv : v ∈ vs) : v.WT W := fun w hw => h w (.tup hv hw)
theorem Val.WT.sum {T v} (h : Val.WT W (.sum T v)) : v.WT W := fun w hw => h w (.sum hw)
theorem Val.WT.tag {T i v} (h : Val.WT W (.tag T i v)) : v.WT W := fun w hw => h w (.tag hw)
theorem Val.WT.ok {v : Val} (h : v.WT W) : v.Ok W := h v .self

theorem sum_tag_cls {T v T' i v'} (h : (Val.sum T v).Ok W) (h' : (Val.tag T' i v').Ok W) : T ≠ T' := by
  rintro rfl
  obtain ⟨k, fs, h1, h2, -⟩ := h
  obtain ⟨k', fs', t, h3, h4, -⟩ := h'
  rw [h1] at h3
  cases h3
  rw [h2] at h4
  cases h4

theorem eqvs_flip {xs : List Val} {f g} (ih : ∀ x ∈ xs, ∀ y, y.WT W → ∀ f g, Val.eqv W L f x y = Val.eqv W L g x y) :
    ∀ ys, (∀ y ∈ ys, y.WT W) → Val.eqvs W L f xs ys = Val.eqvs W L g xs ys := by
  induction xs with
  | nil => intro ys _; cases ys <;> simp [Val.eqvs]
  | cons x xs ih' =>
      intro ys hy
      cases ys with
      | nil => simp [Val.eqvs]
      | cons y ys =>
          simp only [Val.eqvs]
          rw [ih x (by simp) y (hy y (by simp)) f g, ih' (fun x hx => ih x (by simp [hx])) ys fun y h => hy y (by simp [h])]

theorem eqv_flip (hA : W.Antisymm) (x : Val) : x.WT W → ∀ y, y.WT W → ∀ f g,
    Val.eqv W L f x y = Val.eqv W L g x y := by
  induction x using Val.induct with
  | leaf T p => intro _ y _ f g; cases y <;> cases f <;> cases g <;> simp [Val.eqv, L.symm]
  | enum e i =>
      intro _ y _ f g
      cases y <;> simp only [Val.eqv]
      rename_i e' i' _
      by_cases h : e = e'
      · subst h
        obtain ⟨a, ha⟩ := decides_self (W := W) f (.enum e)
        obtain ⟨b, hb⟩ := decides_self (W := W) g (.enum e)
        simp [ha, hb]
      · rw [decides_flip hA (by simpa using h) f g]
  | tup T a vs ih =>
      intro hx y hy f g
      cases y <;> simp only [Val.eqv]
      rename_i T' a' vs'
      have hl : ∀ f g, Val.eqvs W L f vs vs' = Val.eqvs W L g vs vs' := fun f g =>
        eqvs_flip (fun x h y hy => ih x h (hx.tup h) y hy) vs' fun y h => hy.tup h
      by_cases h : T = T'
      · subst h
        obtain ⟨a, ha⟩ := decides_self (W := W) f T
        obtain ⟨b, hb⟩ := decides_self (W := W) g T
        simp only [ha, hb]
        rw [hl a b]
      · rw [decides_flip hA h f g]
  | sum T v ih =>
      intro hx y hy f g
      cases y with
      | sum T' v' =>
          simp only [Val.eqv]
          by_cases h : T = T'
          · subst h
            obtain ⟨a, ha⟩ := decides_self (W := W) f T
            obtain ⟨b, hb⟩ := decides_self (W := W) g T
            simp only [ha, hb]
            exact ih hx.sum v' hy.sum a b
          · rw [decides_flip hA h f g]
      | tag T' i' v' =>
          simp only [Val.eqv]
          rw [decides_flip hA (sum_tag_cls hx.ok hy.ok) f g]
      | leaf T' p => simp [Val.eqv]
      | enum e i => simp [Val.eqv]
      | tup T' a vs => simp [Val.eqv]
  | tag T i v ih =>
      intro hx y hy f g
      cases y with
      | tag T' i' v' =>
          simp only [Val.eqv]
          by_cases h : T = T'
          · subst h
            obtain ⟨a, ha⟩ := decides_self (W := W) f T
            obtain ⟨b, hb⟩ := decides_self (W := W) g T
            simp only [ha, hb]
            rw [ih hx.tag v' hy.tag a b]
          · rw [decides_flip hA h f g]
      | sum T' v' =>
          simp only [Val.eqv]
          rw [decides_flip hA (Ne.symm (sum_tag_cls hy.ok hx.ok)) f g]
      | leaf T' p => simp [Val.eqv]
      | enum e i => simp [Val.eqv]
      | tup T' a vs => simp [Val.eqv]

theorem eq_symm (hA : W.Antisymm) {x y : Val} (hx : x.WT W) (hy : y.WT W) : Val.eq W L x y = Val.eq W L y x := by
  unfold Val.eq
  rw [← eqv_swap y false x]
  exact eqv_flip hA x hx y hy _ _

/-! ### Transitivity -/

theorem Unrelated.symm {x y} (h : Unrelated W x y) : Unrelated W y x :=
  fun u v hu hv hs => (h v u hv hu hs.symm).symm

theorem Unrelated.root {x y} (h : Unrelated W x y) {f g} (hd : decides W f x.cls y.cls = some g) : x.cls = y.cls :=
  h x y .self .self (decides_iff.1 ⟨g, hd⟩)

theorem eqv_trans (x : Val) : ∀ y z, x.WT W → y.WT W → z.WT W → Unrelated W x y → Unrelated W y z →
    ∀ f g h, Val.eqv W L f x y = true → Val.eqv W L g y z = true → Val.eqv W L h x z = true := by
  induction x using Val.induct with
  | leaf T p =>
      intro y z _ _ _ _ _ f g h h1 h2
      cases y with
      | leaf T' p' =>
        cases z with
        | leaf T'' p'' =>
          have e1 : L.eq (T, p) (T', p') = true := by
            cases f <;> simp only [Val.eqv] at h1 <;> simpa [L.symm] using h1
          have e2 : L.eq (T', p') (T'', p'') = true := by
            cases g <;> simp only [Val.eqv] at h2 <;> simpa [L.symm] using h2
          have e3 := L.trans _ _ _ e1 e2
          cases h <;> simp only [Val.eqv] <;> simp [e3, L.symm (T'', p'')]
        | _ => simp [Val.eqv] at h2
      | _ => simp [Val.eqv] at h1
  | enum e i =>
      intro y z _ _ _ u1 u2 f g h h1 h2
      cases y with
      | enum e' i' =>
        cases z with
        | enum e'' i'' =>
          simp only [Val.eqv] at h1 h2 ⊢
          cases d1 : decides W f (.enum e) (.enum e') with
          | none => simp [d1] at h1
          | some a =>
            cases d2 : decides W g (.enum e') (.enum e'') with
            | none => simp [d2] at h2
            | some b =>
              have r1 := u1.root (x := .enum e i) (y := .enum e' i') d1
              have r2 := u2.root (x := .enum e' i') (y := .enum e'' i'') d2
              simp only [Val.cls, Ty.enum.injEq] at r1 r2
              subst r1 r2
              obtain ⟨c, hc⟩ := decides_self (W := W) h (.enum e)
              simp only [d1, d2, hc, decide_eq_true_eq] at h1 h2 ⊢
              rw [h1, h2]
        | _ => simp [Val.eqv] at h2
      | _ => simp [Val.eqv] at h1
  | tup T a vs ih =>
      intro y z w1 w2 w3 u1 u2 f g h h1 h2
      cases y with
      | tup T' a' vs' =>
        cases z with
        | tup T'' a'' vs'' =>
          simp only [Val.eqv] at h1 h2 ⊢
          cases d1 : decides W f T T' with
          | none => simp [d1] at h1
          | some f' =>
            cases d2 : decides W g T' T'' with
            | none => simp [d2] at h2
            | some g' =>
              have r1 := u1.root (x := .tup T a vs) (y := .tup T' a' vs') d1
              have r2 := u2.root (x := .tup T' a' vs') (y := .tup T'' a'' vs'') d2
              simp only [Val.cls] at r1 r2
              subst r1 r2
              obtain ⟨c, hc⟩ := decides_self (W := W) h T
              simp only [d1, d2, hc, Bool.and_eq_true, decide_eq_true_eq] at h1 h2 ⊢
              obtain ⟨l1, e1⟩ := eqvs_iff.1 h1.2
              obtain ⟨l2, e2⟩ := eqvs_iff.1 h2.2
              refine ⟨h1.1.trans h2.1, eqvs_iff.2 ⟨l1.trans l2, fun i p r hp hr => ?_⟩⟩
              have hlt : i < vs'.length := l1 ▸ (List.getElem?_eq_some_iff.1 hp).1
              have hq := List.getElem?_eq_getElem hlt
              have mp := List.mem_of_getElem? hp
              have mq := List.mem_of_getElem? hq
              have mr := List.mem_of_getElem? hr
              exact ih p mp _ r (w1.tup mp) (w2.tup mq) (w3.tup mr)
                (fun u v hu hv => u1 u v (.tup mp hu) (.tup mq hv)) (fun u v hu hv => u2 u v (.tup mq hu) (.tup mr hv))
                _ _ _ (e1 i p _ hp hq) (e2 i _ r hq hr)
        | _ => simp [Val.eqv] at h2
      | _ => simp [Val.eqv] at h1
  | sum T v ih =>
      intro y z w1 w2 w3 u1 u2 f g h h1 h2
      cases y with
      | sum T' v' =>
        simp only [Val.eqv] at h1
        cases d1 : decides W f T T' with
        | none => simp [d1] at h1
        | some f' =>
          have r1 := u1.root (x := .sum T v) (y := .sum T' v') d1
          simp only [Val.cls] at r1
          subst r1
          simp only [d1] at h1
          cases z with
          | sum T'' v'' =>
            simp only [Val.eqv] at h2 ⊢
            cases d2 : decides W g T T'' with
            | none => simp [d2] at h2
            | some g' =>
              have r2 := u2.root (x := .sum T v') (y := .sum T'' v'') d2
              simp only [Val.cls] at r2
              subst r2
              obtain ⟨c, hc⟩ := decides_self (W := W) h T
              simp only [d2, hc] at h2 ⊢
              exact ih v' v'' w1.sum w2.sum w3.sum (fun u v hu hv => u1 u v (.sum hu) (.sum hv))
                (fun u v hu hv => u2 u v (.sum hu) (.sum hv)) _ _ _ h1 h2
          | tag T'' i'' v'' =>
            simp only [Val.eqv] at h2
            cases d2 : decides W g T T'' with
            | none => simp [d2] at h2
            | some g' =>
              exact absurd (u2.root (x := .sum T v') (y := .tag T'' i'' v'') d2) (sum_tag_cls w2.ok w3.ok)
          | _ => simp [Val.eqv] at h2
      | tag T' i' v' =>
        simp only [Val.eqv] at h1
        cases d1 : decides W f T T' with
        | none => simp [d1] at h1
        | some f' => exact absurd (u1.root (x := .sum T v) (y := .tag T' i' v') d1) (sum_tag_cls w1.ok w2.ok)
      | _ => simp [Val.eqv] at h1
  | tag T i v ih =>
      intro y z w1 w2 w3 u1 u2 f g h h1 h2
      cases y with
      | tag T' i' v' =>
        simp only [Val.eqv] at h1
        cases d1 : decides W f T T' with
        | none => simp [d1] at h1
        | some f' =>
          have r1 := u1.root (x := .tag T i v) (y := .tag T' i' v') d1
          simp only [Val.cls] at r1
          subst r1
          simp only [d1, Bool.and_eq_true, decide_eq_true_eq] at h1
          cases z with
          | tag T'' i'' v'' =>
            simp only [Val.eqv] at h2 ⊢
            cases d2 : decides W g T T'' with
            | none => simp [d2] at h2
            | some g' =>
              have r2 := u2.root (x := .tag T i' v') (y := .tag T'' i'' v'') d2
              simp only [Val.cls] at r2
              subst r2
              obtain ⟨c, hc⟩ := decides_self (W := W) h T
              simp only [d2, hc, Bool.and_eq_true, decide_eq_true_eq] at h2 ⊢
              exact ⟨h1.1.trans h2.1, ih v' v'' w1.tag w2.tag w3.tag (fun u v hu hv => u1 u v (.tag hu) (.tag hv))
                (fun u v hu hv => u2 u v (.tag hu) (.tag hv)) _ _ _ h1.2 h2.2⟩
          | sum T'' v'' =>
            simp only [Val.eqv] at h2
            cases d2 : decides W g T T'' with
            | none => simp [d2] at h2
            | some g' =>
              exact absurd (u2.root (x := .tag T i' v') (y := .sum T'' v'') d2).symm (sum_tag_cls w3.ok w2.ok)
          | _ => simp [Val.eqv] at h2
      | sum T' v' =>
        simp only [Val.eqv] at h1
        cases d1 : decides W f T T' with
        | none => simp [d1] at h1
        | some f' => exact absurd (u1.root (x := .tag T i v) (y := .sum T' v') d1).symm (sum_tag_cls w2.ok w1.ok)
      | _ => simp [Val.eqv] at h1

/-! ### Hash -/

theorem hashes_congr : ∀ {xs ys : List Val}, xs.length = ys.length →
    (∀ (i : Nat) x y, xs[i]? = some x → ys[i]? = some y → Val.hash L x = Val.hash L y) →
    Val.hashes L xs = Val.hashes L ys
  | [], [], _, _ => rfl
  | x :: xs, y :: ys, hl, h => by
      simp only [Val.hashes]
      rw [h 0 x y rfl rfl, hashes_congr (by simpa using hl)
        fun i a b ha hb => h (i + 1) a b (by simpa using ha) (by simpa using hb)]
  | [], _ :: _, hl, _ => by simp at hl
  | _ :: _, [], hl, _ => by simp at hl

theorem eqv_hash (x : Val) : ∀ y, SumApart W x y → SumApart W y x → ∀ f, Val.eqv W L f x y = true →
    Val.hash L x = Val.hash L y := by
  induction x using Val.induct with
  | leaf T p =>
      intro y _ _ f h
      cases y <;> simp only [Val.eqv, Bool.false_eq_true] at h
      rename_i T' p' _ _
      have : L.eq (T, p) (T', p') = true := by cases f <;> simpa [L.symm] using h
      simp only [Val.hash, L.hash_eq _ _ this]
  | enum e i =>
      intro y _ _ f h
      cases y <;> simp only [Val.eqv, Bool.false_eq_true] at h
      split at h
      · simp only [Val.hash, of_decide_eq_true h]
      · cases h
  | tup T a vs ih =>
      intro y s1 s2 f h
      cases y <;> simp only [Val.eqv, Bool.false_eq_true] at h
      split at h
      · simp only [Bool.and_eq_true, decide_eq_true_eq] at h
        obtain ⟨rfl, h⟩ := h
        obtain ⟨hl, he⟩ := eqvs_iff.1 h
        simp only [Val.hash]
        rw [hashes_congr hl fun i x y hx hy => ?_]
        have mx := List.mem_of_getElem? hx
        have my := List.mem_of_getElem? hy
        exact ih x mx y (fun S v U j u a b => s1 S v U j u (.tup mx a) (.tup my b))
          (fun S v U j u a b => s2 S v U j u (.tup my a) (.tup mx b)) _ (he i x y hx hy)
      · cases h
  | sum T v ih =>
      intro y s1 s2 f h
      cases y with
      | sum T' v' =>
          simp only [Val.eqv] at h
          split at h
          · exact ih v' (fun S v U j u a b => s1 S v U j u (.sum a) (.sum b))
              (fun S v U j u a b => s2 S v U j u (.sum a) (.sum b)) _ h
          · cases h
      | tag T' i' v' =>
          simp only [Val.eqv] at h
          split at h
          · rename_i hd
            have := decides_some hd
            rw [if_neg (by simp), s1 T v T' i' v' .self .self] at this
            cases this
          · cases h
      | _ => simp [Val.eqv] at h
  | tag T i v ih =>
      intro y s1 s2 f h
      cases y with
      | tag T' i' v' =>
          simp only [Val.eqv] at h
          split at h
          · simp only [Bool.and_eq_true, decide_eq_true_eq] at h
            obtain ⟨rfl, h⟩ := h
            simp only [Val.hash]
            rw [ih v' (fun S v U j u a b => s1 S v U j u (.tag a) (.tag b))
              (fun S v U j u a b => s2 S v U j u (.tag a) (.tag b)) _ h]
          · cases h
      | sum T' v' =>
          simp only [Val.eqv] at h
          split at h
          · rename_i hd
            have := decides_some hd
            rw [if_pos rfl, s2 T' v' T i v .self .self] at this
            cases this
          · cases h
      | _ => simp [Val.eqv] at h

end HW.Adt
