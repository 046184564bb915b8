import Verif.Lemmas.C3Mod
import Verif.Model.Adt.Mro
import Verif.Props.AdtModCache

/-! # MROs of modified classes -/

namespace HW.Adt.Cache
open Cls (mroB mroB_iff mroB_ind mroB_le mroB_head mroB_base mroB_twice merge_twice twice)

theorem basesIn_eq (L : List Class) : basesIn L = basesOf L := rfl

namespace Heap

variable {E : Env} {h h' : Heap} {m : ModId}

theorem Inv.lt_of_base (hi : h.Inv) : ∀ c, ∀ b ∈ basesIn h.classes c, b < c := by
  intro c b hb
  obtain ⟨k, hk, hb⟩ := get_basesOf hb
  exact (hi.good c k hk).lt b hb

theorem Inv.mro_sub (hi : h.Inv) {c : Nat} {l : List Nat} (hl : mro h.classes c = some l) : ∀ y ∈ l, Sub h c y := by
  have trans : ∀ {a b : Nat}, Sub h a b → ∀ {d}, d ∈ h.bases b → Sub h a d := by
    intro a b hab
    induction hab with
    | refl => intro d hd; exact .step hd (.refl _)
    | step hb _ ih => intro d hd; exact .step hb (ih hd)
  exact mroB_ind hi.lt_of_base (P := fun y => Sub h c y) (fun x hx b hb => trans hx hb) c hl (.refl _)

/-- New classes do not change the MRO of old ones. -/
theorem mro_app {L M : List Class} (hB : ∀ c, ∀ b ∈ basesIn L c, b < c) {c : Nat} (hc : c < L.length) :
    mro (L ++ M) c = mro L c :=
  (Cls.mroF_congr c (fun d _ b hb => hB d b hb) (fun d hd => (basesOf_app (by omega)).symm) (by omega) (by omega)).symm

/-- A modified class has no modified class above what it modifies: that would have two bases alike. -/
theorem Inv.mod_free (hi : h.Inv) {c x t u : Nat} (ht : h.Alive t) (hm : ModOf h.classes t m c) (hx : Sub h c x) :
    ¬ ModOf h.classes x m u := by
  intro hu
  obtain ⟨e, he, hse⟩ := hi.mod_sub hx hm
  have hea := hi.alive_sub ht hse
  obtain ⟨k, ds, hk, hkb, hnd, hf⟩ := hi.mod_shape he
  obtain ⟨k', ds', hk', hkb', -, -⟩ := hi.mod_shape hu
  have hb : basesOf h.classes x = u :: ds' := by simp only [basesOf, hk', hkb']
  have hxb : ∀ y ∈ k.bases, h.Alive y := fun y hy =>
    (hi.base_alive (c := e) hea (by simpa only [basesOf, hk] using hy)).1
  rw [hb] at hf
  cases hf with
  | @cons _ y _ ys hy hys =>
    have hya := hxb y (by rw [hkb]; simp)
    have hxa := hxb x (by rw [hkb]; simp)
    have e1 := hi.mcomplete y m u hya.2 hy
    have e2 := hi.mcomplete x m u hxa.2 hu
    rw [e1] at e2
    rw [hkb, Option.some.inj e2] at hnd
    simp at hnd

/-- `M(x)`, if it exists. -/
def modd (h : Heap) (m : ModId) (x : Nat) : Nat := (find h.subCache (m, x)).getD h.classes.length

theorem modd_eq {x d : Nat} (e : find h.subCache (m, x) = some d) : h.modd m x = d := by
  unfold modd; rw [e]; rfl

theorem Inv.mod_of_sub (hi : h.Inv) {c t x : Nat} (ht : h.Alive t) (hm : ModOf h.classes t m c) (hx : Sub h c x) :
    ∃ d, find h.subCache (m, x) = some d ∧ h.Alive d ∧ ModOf h.classes d m x := by
  obtain ⟨e, he, hse⟩ := hi.mod_sub hx hm
  have hea := hi.alive_sub ht hse
  exact ⟨e, hi.mcomplete e m x hea.2 he, hea, he⟩

theorem Inv.modd_bases (hi : h.Inv) {c t : Nat} (ht : h.Alive t) (hm : ModOf h.classes t m c) :
    basesIn h.classes t = c :: (basesIn h.classes c).map (h.modd m) := by
  obtain ⟨k, ds, hk, hkb, -, hf⟩ := hi.mod_shape hm
  have hb : basesIn h.classes t = c :: ds := by simp only [basesIn, hk, hkb]
  rw [hb]
  have hal : ∀ d ∈ ds, h.Alive d := fun d hd => (hi.base_alive ht (by rw [← basesIn_eq, hb]; simp [hd])).1
  congr 1
  rw [basesIn_eq]
  clear hb hkb hk
  revert hf
  generalize basesOf h.classes c = bs
  intro hf
  induction hf with
  | nil => rfl
  | @cons b d bs ds h1 _ ih =>
    rw [List.map_cons, modd_eq (hi.mcomplete d m b (hal d (by simp)).2 h1), ih fun d hd => hal d (by simp [hd])]

/-- The MRO of a modified class. -/
theorem Inv.mro_mod (hi : h.Inv) {c t : Nat} {l : List Nat} (ht : h.Alive t) (hm : ModOf h.classes t m c)
    (hl : mro h.classes c = some l) : mro h.classes t = some (twice (h.modd m) l) := by
  have hsub := hi.mro_sub hl
  have hcl : find h.subCache (m, c) = some t := hi.mcomplete t m c ht.2 hm
  rw [← modd_eq hcl]
  refine mroB_twice hi.lt_of_base c hl (fun x hx => ?_) (fun x hx y hy e => ?_) (fun x hx y hy e => ?_)
  · obtain ⟨d, h1, h2, h3⟩ := hi.mod_of_sub ht hm (hsub x hx)
    rw [modd_eq h1]; exact hi.modd_bases h2 h3
  · obtain ⟨d, h1, h2, h3⟩ := hi.mod_of_sub ht hm (hsub x hx)
    rw [modd_eq h1] at e
    subst e
    exact hi.mod_free ht hm (hsub _ hy) h3
  · obtain ⟨d, h1, h2, h3⟩ := hi.mod_of_sub ht hm (hsub x hx)
    obtain ⟨d', h1', h2', h3'⟩ := hi.mod_of_sub ht hm (hsub y hy)
    rw [modd_eq h1, modd_eq h1'] at e
    subst e
    unfold ModOf at h3 h3'
    rw [h3] at h3'; cases h3'; rfl

/-- What `M(c)` needs. -/
structure Ready (h : Heap) (m : ModId) (c : Nat) : Prop where
  mro : ∃ l, mro h.classes c = some l
  free : ∀ x, Sub h c x → ∀ u, ¬ ModOf h.classes x m u
  agree : ∀ x, Sub h c x → ∀ b ∈ h.bases x, ∀ f g, h.fields x = some f → h.fields b = some g → g = f

theorem sub_ext {P : Key → Prop} {Q : ModId × Nat → Prop} (hi : h.Inv) (x : Ext P Q h h') {c d : Nat}
    (hc : c < h.classes.length) (hs : Sub h' c d) : Sub h c d ∧ d < h.classes.length := by
  induction hs with
  | refl => exact ⟨.refl _, hc⟩
  | @step c b d hb _ ih =>
    have hb' : b ∈ h.bases c := by rw [bases_eq] at hb ⊢; rwa [x.bases hc] at hb
    have := hi.lt_of_base c b hb'
    obtain ⟨i1, i2⟩ := ih (by omega)
    exact ⟨.step hb' i1, i2⟩

theorem Ready.ext {P : Key → Prop} {Q : ModId × Nat → Prop} (hi : h.Inv) (x : Ext P Q h h') {c : Nat}
    (hc : c < h.classes.length) (hr : Ready h m c) : Ready h' m c := by
  obtain ⟨M, hM⟩ := x.classes
  obtain ⟨l, hl⟩ := hr.mro
  refine ⟨⟨l, by rw [hM, mro_app hi.lt_of_base hc]; exact hl⟩, fun y hy u hu => ?_, fun y hy b hb f g hf hg => ?_⟩
  · obtain ⟨h1, h2⟩ := sub_ext hi x hc hy
    refine hr.free y h1 u ?_
    unfold ModOf at hu ⊢
    rwa [hM, originOf_app' h2] at hu
  · obtain ⟨h1, h2⟩ := sub_ext hi x hc hy
    have hb' : b ∈ h.bases y := by rw [bases_eq] at hb ⊢; rwa [x.bases h2] at hb
    have hlt := hi.lt_of_base y b hb'
    rw [fields_eq] at hf hg
    rw [x.fields h2] at hf
    rw [x.fields (by omega)] at hg
    exact hr.agree y h1 b hb' f g hf hg

theorem Ready.base (hi : h.Inv) {c b : Nat} (hr : Ready h m c) (hb : b ∈ h.bases c) : Ready h m b := by
  obtain ⟨l, hl⟩ := hr.mro
  obtain ⟨lb, e, -⟩ := mroB_base hi.lt_of_base hl hb
  exact ⟨⟨lb, e⟩, fun x hx => hr.free x (.step hb hx), fun x hx => hr.agree x (.step hb hx)⟩

theorem mapBases_total {f : Heap → Nat → PyM (Heap × Nat)} {P : Key → Prop} {Q : ModId × Nat → Prop}
    {R : Heap → Nat → Prop}
    (hf : ∀ h b, h.Inv → h.Alive b → R h b → ∃ h' d, f h b = .ok (h', d) ∧ h'.Inv ∧ Ext P Q h h')
    (hR : ∀ h h' b, h.Inv → Ext P Q h h' → h.Alive b → R h b → R h' b) : ∀ {bs : List Nat} {h : Heap}, h.Inv →
    (∀ b ∈ bs, h.Alive b ∧ R h b) → ∃ h' ds, mapBases f h bs = .ok (h', ds)
  | [], h, _, _ => ⟨h, [], rfl⟩
  | b :: bs, h, hi, hb => by
      obtain ⟨h1, d, e1, i1, x1⟩ := hf h b hi (hb b (by simp)).1 (hb b (by simp)).2
      obtain ⟨h2, ds, e2⟩ := mapBases_total hf hR (bs := bs) i1 fun b' hb' => by
        obtain ⟨a1, a2⟩ := hb b' (by simp [hb'])
        exact ⟨x1.alive a1, hR h h1 b' hi x1 a1 a2⟩
      exact ⟨h2, d :: ds, by simp only [mapBases, e1, bind, Except.bind, e2]; rfl⟩

/-- The metaclass of the first base, if it is below those of the others. -/
theorem winner_head {w : Meta} : ∀ {bs : List Nat}, (∀ b ∈ bs, w.le (h.mt b) = true) → h.winner w bs = .ok w
  | [], _ => rfl
  | b :: bs, hb => by
      rw [winner, if_pos (hb b (by simp))]
      exact winner_head fun b' hb' => hb b' (by simp [hb'])

theorem Inv.src (hi : h.Inv) {d b : Nat} (hm : ModOf h.classes d m b) : h.mt d = h.mt b ∧ h.fields d = h.fields b := by
  obtain ⟨k, -, hk, -, -, -⟩ := hi.mod_shape hm
  have ho : k.origin = .modified m b := by
    unfold ModOf originOf at hm; rw [hk] at hm; exact Option.some.inj hm
  obtain ⟨s1, s2⟩ := (hi.good d k hk).src m b ho
  constructor
  · rw [mt_eq, mt_eq, ← s1]; simp only [mtOf, hk]
  · rw [fields_eq, fields_eq, ← s2]; simp only [fieldsOf, hk]

/-- `M(c)` is made. -/
theorem applyMod_total (hE : ∀ L mt bs, (linear L bs).isSome = true → E.accepts L mt bs = true) :
    ∀ (fuel : Nat) {h : Heap} {c : Nat}, h.Inv → c < fuel → h.Alive c → Ready h m c →
    ∃ h' d, applyModF E fuel h m c = .ok (h', d)
  | 0, _, _, _, hf, _, _ => by omega
  | fuel + 1, h, c, hi, hf, hc, hr => by
    rw [applyModF]
    cases hfd : find h.subCache (m, c) with
    | some d => exact ⟨h, d, rfl⟩
    | none =>
    dsimp only
    have hbl : ∀ b ∈ h.bases c, b < c := fun b hb => hi.lt_of_base c b hb
    obtain ⟨h1, ds, e1⟩ := mapBases_total (f := fun h b => applyModF E fuel h m b) (P := fun _ => False)
      (Q := fun mc => mc.1 = m ∧ mc.2 < c) (R := fun h b => Ready h m b ∧ b < c)
      (fun h b hi hb hr => by
        obtain ⟨h', d, e⟩ := applyMod_total hE fuel hi (by omega) hb hr.1
        obtain ⟨r1, r2, r3, r4⟩ := applyMod_ok hi (by omega) hb e
        exact ⟨h', d, e, r1, r2.mono (fun _ h => h) (fun mc h => ⟨h.1, by have := h.2; have := hr.2; omega⟩)⟩)
      (fun h h' b hi x hb hr => ⟨hr.1.ext hi x hb.1, hr.2⟩) hi
      (fun b hb => ⟨(hi.base_alive hc hb).1, hr.base hi hb, hbl b hb⟩)
    obtain ⟨i1, x1, l1, r0⟩ := mapBases_ok (P := fun _ => False) (Q := fun mc => mc.1 = m ∧ mc.2 < c)
      (pre := fun _ b => b < c) (R := fun L b d => ModOf L d m b)
      (fun h b h' d hi ha hp e => by
        obtain ⟨r1, r2, r3, r4⟩ := applyMod_ok hi (by omega) ha e
        exact ⟨r1, r2.mono (fun _ h => h) (fun mc h => ⟨h.1, by have := h.2; omega⟩), r3, r4⟩)
      (fun L M b d hr => originOf_app hr M)
      (fun L M b hb hp => hp)
      hi (fun b hb => hi.base_alive hc hb) e1
    have hc1 := x1.alive hc
    have hr1 := hr.ext hi x1 hc.1
    have hbc : h1.bases c = h.bases c := x1.bases hc.1
    rw [show mapBases (fun h b => applyModF E fuel h m b) h (h.bases c) = .ok (h1, ds) from e1]
    simp only [bind, Except.bind]
    have r1 : List.Forall₂ (fun b d => ModOf h1.classes d m b) (h1.bases c) ds := by rw [hbc]; exact r0
    clear r0
    have hds : ∀ d ∈ ds, ∃ b ∈ h1.bases c, ModOf h1.classes d m b := fun d hd => forall₂_right r1 hd
    -- metaclass
    obtain ⟨kc, hkc⟩ := Inv.get hc1.1
    have gc := i1.good c kc hkc
    have hkb : h1.bases c = kc.bases := by simp only [Heap.bases, hkc]
    have hkm : h1.mt c = kc.mt := by simp only [Heap.mt, hkc]
    have hw : h1.winner .plain (c :: ds) = .ok (h1.mt c) := by
      have hle : ∀ d ∈ ds, (h1.mt c).le (h1.mt d) = true := by
        intro d hd
        obtain ⟨b, hb, hm⟩ := hds d hd
        rw [(i1.src hm).1, hkm]
        exact gc.le b (by rw [← hkb]; exact hb)
      rw [winner]
      split
      · rename_i hp
        rw [Meta.le_plain hp] at hle ⊢
        exact winner_head hle
      · rw [if_pos (by cases h1.mt c <;> rfl)]
        exact winner_head hle
    rw [hw]
    -- distinct bases
    have hinj : ∀ {d b b'}, ModOf h1.classes d m b → ModOf h1.classes d m b' → b = b' := by
      intro d b b' h1 h2
      unfold ModOf at h1 h2
      rw [h1] at h2; cases h2; rfl
    have hnd : (c :: ds).Nodup := by
      refine List.nodup_cons.2 ⟨fun hcd => ?_, ?_⟩
      · obtain ⟨b, hb, hm⟩ := hds c hcd
        exact hr1.free c (.refl _) b hm
      · have hn : (h1.bases c).Nodup := by rw [hkb]; exact gc.nodup
        clear hw hds e1
        revert hn r1
        generalize h1.bases c = bs
        intro r1
        clear l1
        induction r1 with
        | nil => intro _; exact List.nodup_nil
        | @cons b d bs ds hm hms ih =>
          intro hn
          obtain ⟨n1, n2⟩ := List.nodup_cons.1 hn
          refine List.nodup_cons.2 ⟨fun hd => ?_, ih n2⟩
          obtain ⟨b', hb', hm'⟩ := forall₂_right hms hd
          rw [hinj hm hm'] at n1
          exact n1 hb'
    -- linearisation
    have hmap : ds = (h1.bases c).map (h1.modd m) := by
      clear hnd hw hds e1
      revert r1 l1
      generalize h1.bases c = bs
      intro l1 r1
      induction r1 with
      | nil => rfl
      | @cons b d bs ds hm _ ih =>
        rw [List.map_cons, modd_eq (i1.mcomplete d m b (l1 d (by simp)).2 hm), ih fun d hd => l1 d (by simp [hd])]
    obtain ⟨l, hl⟩ := hr1.mro
    have hfresh : find h1.subCache (m, c) = none := by
      rw [x1.monly, hfd]
      rintro ⟨_, h2⟩; exact Nat.lt_irrefl _ h2
    have hsub := i1.mro_sub hl
    have hsl : ∀ x ∈ l, x ≠ c → ∃ d, find h1.subCache (m, x) = some d ∧ h1.Alive d ∧ ModOf h1.classes d m x := by
      intro x hx hne
      cases hsub x hx with
      | refl => exact absurd rfl hne
      | step hb hs =>
        obtain ⟨d, hd, hm⟩ := forall₂_left r1 hb
        exact i1.mod_of_sub (l1 d hd) hm hs
    have hsc : h1.modd m c = h1.classes.length := by unfold modd; rw [hfresh]; rfl
    have hlin : (linear h1.classes (c :: ds)).isSome = true := by
      have := merge_twice (s := h1.modd m) i1.lt_of_base hl (fun x hx y hy e => by
          by_cases hne : x = c
          · subst hne
            rw [hsc] at e
            have := mroB_le i1.lt_of_base hl y hy
            have := hc1.1
            omega
          · obtain ⟨d, h2, -, h3⟩ := hsl x hx hne
            rw [modd_eq h2] at e
            subst e
            exact hr1.free _ (hsub _ hy) x h3)
        (fun x hx y hy e => by
          have big : ∀ x ∈ l, x ≠ c → h1.modd m x ≠ h1.classes.length := fun x hx hne e => by
            obtain ⟨d, h2, h3, -⟩ := hsl x hx hne
            rw [modd_eq h2] at e
            have := h3.1
            omega
          by_cases hx' : x = c
          · by_cases hy' : y = c
            · rw [hx', hy']
            · rw [hx', hsc] at e
              exact absurd e.symm (big y hy hy')
          · by_cases hy' : y = c
            · rw [hy', hsc] at e
              exact absurd e (big x hx hx')
            · obtain ⟨d, h2, -, h3⟩ := hsl x hx hx'
              obtain ⟨d', h2', -, h3'⟩ := hsl y hy hy'
              rw [modd_eq h2, modd_eq h2'] at e
              subst e
              exact hinj h3 h3')
        (fun b hb lb hlb => by
          obtain ⟨d, hd, hm⟩ := forall₂_left r1 (show b ∈ h1.bases c from hb)
          have hda := l1 d hd
          rw [modd_eq (i1.mcomplete d m b hda.2 hm)]
          exact i1.mro_mod hda hm hlb)
      obtain ⟨ls, m1, m2⟩ := this
      have e : c :: (basesIn h1.classes c).map (h1.modd m) = c :: ds := by rw [hmap]; rfl
      rw [e] at m1 m2
      rw [Option.isSome_iff_exists]
      exact ⟨_, Cls.linear_iff.2 ⟨ls, m1, m2⟩⟩
    -- fields
    have hfl : ∃ fs, h1.newFields { mt := h1.mt c, bases := c :: ds, origin := .modified m c } = .ok fs ∧
        ∃ u, h1.newUnbound { mt := h1.mt c, bases := c :: ds, origin := .modified m c } fs = .ok u := by
      by_cases hp : h1.mt c = .plain
      · exact ⟨none, by simp only [newFields, hp, if_true], none, by simp only [newUnbound, hp, if_true]⟩
      · have fld : ∀ d ∈ c :: ds, ∀ f, h1.fields d = some f → h1.fields c = some f := by
          intro d hd f hf
          rcases List.mem_cons.1 hd with hd | hd
          · rw [← hd]; exact hf
          · obtain ⟨b, hb, hm⟩ := hds d hd
            rw [(i1.src hm).2] at hf
            cases hfc : h1.fields c with
            | none =>
              have := (gc.unb (by rw [← hkm]; exact hp) (by simpa only [Heap.fields, hkc] using hfc)).2 b
                (by rw [← hkb]; exact hb)
              rw [fields_eq, this] at hf; cases hf
            | some g => rw [hr1.agree c (.refl _) b hb g f hfc hf]
        obtain ⟨r, hr', y⟩ := boundLoop_agree (h := h1) (bs := c :: ds) (s := none) (by simp) (by
          intro b hb b' hb' h2 h2'
          rw [i1.bound_iff] at h2 h2'
          obtain ⟨f, hf⟩ := Option.isSome_iff_exists.1 h2
          obtain ⟨g, hg⟩ := Option.isSome_iff_exists.1 h2'
          have e1 := fld b hb f hf
          have e2 := fld b' hb' g hg
          rw [e1] at e2; rw [hf, hg]; exact e2)
        obtain ⟨u, hu⟩ := unboundOf_ok (h := h1) (id := h1.classes.length) (bs := c :: ds) (r := r) fun f hf => by
          obtain ⟨b, hb, e⟩ := y rfl f hf
          exact ⟨b, hb, by rw [i1.bound_iff, e]; rfl⟩
        exact ⟨r, by simp only [newFields, if_neg hp]; exact hr', u, by simp only [newUnbound, if_neg hp]; exact hu⟩
    obtain ⟨fs, hfs, u, hu⟩ := hfl
    simp only [newClass, bind, Except.bind, hfs]
    rw [if_neg (by simp only [hnd, not_true_eq_false, false_or]; rw [hE _ _ _ hlin]; nofun)]
    simp only [hu]
    exact ⟨_, _, rfl⟩

/-! ### Every class has been accepted -/

/-- Classes made one after the other, each accepted. -/
inductive Grow (E : Env) : List Class → List Class → Prop
  | refl (L : List Class) : Grow E L L
  | snoc {L L' : List Class} {k : Class} : Grow E L L' → E.accepts L' k.mt k.bases = true → Grow E L (L' ++ [k])

theorem Grow.trans {L L' L'' : List Class} (a : Grow E L L') (b : Grow E L' L'') : Grow E L L'' := by
  induction b with
  | refl => exact a
  | snoc _ hk ih => exact .snoc ih hk

theorem newClass_grow {k : Class} {t : Nat} (he : newClass E h k = .ok (h', t)) : Grow E h.classes h'.classes := by
  unfold newClass at he
  simp only [bind, Except.bind] at he
  split at he
  · cases he
  · split at he
    · cases he
    · rename_i hn
      split at he
      · cases he
      · cases he
        have : E.accepts h.classes k.mt k.bases = true := by
          cases e : E.accepts h.classes k.mt k.bases with
          | true => rfl
          | false => exact absurd (.inr e) hn
        exact .snoc (.refl _) this

theorem newEnum_grow {k : Class} {t : Nat} (he : newEnum E h k = .ok (h', t)) : Grow E h.classes h'.classes := by
  unfold newEnum at he
  split at he
  · simp only [bind, Except.bind] at he
    split at he
    · cases he
    · split at he
      · cases he
      · rename_i hn
        cases he
        have : E.accepts h.classes k.mt k.bases = true := by
          cases e : E.accepts h.classes k.mt k.bases with
          | true => rfl
          | false => exact absurd (.inr e) hn
        exact .snoc (.refl _) this
  · cases he

theorem mapBases_grow {f : Heap → Nat → PyM (Heap × Nat)}
    (hf : ∀ h b h' d, f h b = .ok (h', d) → Grow E h.classes h'.classes) : ∀ {bs ds : List Nat} {h h' : Heap},
    mapBases f h bs = .ok (h', ds) → Grow E h.classes h'.classes
  | [], _, _, _, he => by cases he; exact .refl _
  | b :: bs, _, h, h', he => by
      simp only [mapBases, bind, Except.bind] at he
      split at he
      · cases he
      · rename_i r h1
        split at he
        · cases he
        · rename_i r' h2
          cases he
          exact (hf _ _ _ _ h1).trans (mapBases_grow hf h2)

theorem getitem_grow : ∀ (fuel : Nat) {h h' : Heap} {c d : Nat} {idx : Idx}, getitemF E fuel h c idx = .ok (h', d) →
    Grow E h.classes h'.classes
  | 0, _, _, _, _, _, he => by cases he
  | fuel + 1, h, h', c, d, idx, he => by
      rw [getitemF] at he
      split at he
      · cases he
      · split at he
        · cases he; exact .refl _
        · simp only [bind, Except.bind] at he
          split at he
          · cases he
          · rename_i r1 e1
            split at he
            · cases he
            · rename_i r2 e2
              split at he
              · cases he
              · rename_i r3 e3
                cases he
                refine (mapBases_grow (fun h b h' d e => getitem_grow fuel e) e1).trans (.trans ?_ (show Grow E _ r3.1.classes from newClass_grow (h' := r3.1) (t := r3.2) e3))
                unfold idxBases at e2
                split at e2
                · split at e2
                  · cases e2
                  · simp only [bind, Except.bind] at e2
                    split at e2
                    · cases e2
                    · rename_i r4 e4
                      cases e2
                      exact getitem_grow fuel e4
                · cases e2; exact .refl _

theorem fromFields_grow {mt : Meta} {s : Stmt} {t : Nat} (he : fromFields E h mt s = .ok (h', t)) :
    Grow E h.classes h'.classes := by
  unfold fromFields at he
  dsimp only at he
  split at he
  · split at he
    · cases he
    · simp only [bind, Except.bind] at he
      split at he
      · cases he
      · rename_i r e
        exact (getitem_grow _ e).trans (newClass_grow he)
  · exact newEnum_grow he

theorem classStmt_grow {s : Stmt} {t : Nat} (he : classStmt E h s = .ok (h', t)) : Grow E h.classes h'.classes := by
  simp only [classStmt, bind, Except.bind] at he
  split at he
  · cases he
  · split at he
    · unfold attrNew at he
      split at he
      · split at he
        · cases he; exact .refl _
        · simp only [bind, Except.bind] at he
          split at he
          · cases he
          · rename_i r e
            cases he
            exact (show Grow E _ r.1.classes from fromFields_grow (h' := r.1) (t := r.2) e)
      · exact fromFields_grow he
    · exact newClass_grow he

theorem applyMod_grow : ∀ (fuel : Nat) {h h' : Heap} {c d : Nat}, applyModF E fuel h m c = .ok (h', d) →
    Grow E h.classes h'.classes
  | 0, _, _, _, _, he => by cases he
  | fuel + 1, h, h', c, d, he => by
      rw [applyModF] at he
      split at he
      · cases he; exact .refl _
      · simp only [bind, Except.bind] at he
        split at he
        · cases he
        · rename_i r1 e1
          split at he
          · cases he
          · split at he
            · cases he
            · rename_i r3 e3
              cases he
              exact (mapBases_grow (fun h b h' d e => applyMod_grow fuel e) e1).trans (show Grow E _ r3.1.classes from newClass_grow (h' := r3.1) (t := r3.2) e3)

theorem Steps.grow {a b : Heap} (hs : Steps E a b) : Grow E a.classes b.classes := by
  induction hs with
  | refl => exact .refl _
  | tail _ st ih =>
    refine ih.trans ?_
    cases st with
    | stmt _ _ _ he => have := classStmt_grow he; exact this
    | fromFields _ _ he =>
      unfold fromFieldsCall at he
      split at he
      · cases he
      · split at he
        · cases he
        · have := classStmt_grow he; exact this
    | getitem _ _ he =>
      simp only [getitem, bind, Except.bind] at he
      split at he
      · cases he
      · have := getitem_grow _ he; exact this
    | modify _ he => have := applyMod_grow _ he; exact this
    | reach _ => exact .refl _
    | release _ => exact .refl _
    | gc _ _ _ => exact .refl _

/-- If `type()` accepts only bases that have an MRO, every class has one. -/
theorem mro_exists (hE : ∀ L mt bs, E.accepts L mt bs = true → (linear L bs).isSome = true) (hist : Steps E init h)
    {c : Nat} (hc : c < h.classes.length) : ∃ l, mro h.classes c = some l := by
  have hB := (inv_init.steps hist).1.lt_of_base
  have hg := hist.grow
  revert hB c
  generalize h.classes = L at hg ⊢
  have : init.classes = initClasses := rfl
  rw [this] at hg
  clear this
  induction hg with
  | refl =>
    intro c hc _
    have : ∀ c < 7, (mro initClasses c).isSome = true := by decide
    exact Option.isSome_iff_exists.1 (this c hc)
  | @snoc L' k _ hk ih =>
    intro c hc hB
    have hB' : ∀ c, ∀ b ∈ basesIn L' c, b < c := by
      intro c b hb
      obtain ⟨k', hk', hb'⟩ := get_basesOf hb
      exact hB c b (by
        show b ∈ basesOf (L' ++ [k]) c
        rw [basesOf_app (lt_of_get hk')]; exact hb)
    by_cases hlt : c < L'.length
    · obtain ⟨l, hl⟩ := ih hlt hB'
      exact ⟨l, by rw [mro_app hB' hlt]; exact hl⟩
    · have hcl : c = L'.length := by simp at hc; omega
      subst hcl
      have hbs : basesIn (L' ++ [k]) L'.length = k.bases := by simp [basesIn]
      obtain ⟨r, hr⟩ := Option.isSome_iff_exists.1 (hE _ _ _ hk)
      obtain ⟨ls, h1, h2⟩ := Cls.linear_iff.1 hr
      refine ⟨L'.length :: r, (mroB_iff hB).2 ⟨ls, r, ?_, ?_, rfl⟩⟩
      · rw [hbs]
        have hlt : ∀ b ∈ k.bases, b < L'.length := fun b hb => hB L'.length b (by rw [hbs]; exact hb)
        clear h2
        revert hlt
        generalize k.bases = bs at h1
        induction h1 with
        | nil => intro _; exact .nil
        | cons e _ ih =>
          intro hlt
          exact .cons ((mro_app (M := [k]) hB' (hlt _ (List.mem_cons_self ..))).trans e) (ih fun b hb => hlt b (by simp [hb]))
      · rw [hbs]; exact h2

/-! ### `M(T)` raises nothing but `TypeError` -/

theorem mapBases_error {f : Heap → Nat → PyM (Heap × Nat)} {I : Heap → Nat → Prop} {e : PyErr}
    (hf : ∀ h b, I h b → f h b = .error e → e = .typeError)
    (hI : ∀ h b h' d, I h b → f h b = .ok (h', d) → ∀ b', I h b' → I h' b') : ∀ {bs : List Nat} {h : Heap},
    (∀ b ∈ bs, I h b) → mapBases f h bs = .error e → e = .typeError
  | [], _, _, he => by cases he
  | b :: bs, h, hb, he => by
      simp only [mapBases, bind, Except.bind] at he
      split at he
      · rename_i e' h1
        cases he
        exact hf h b (hb b (by simp)) h1
      · rename_i r h1
        split at he
        · rename_i e' h2
          cases he
          exact mapBases_error hf hI (fun b' hb' => hI _ _ _ _ (hb b (by simp)) h1 b' (hb b' (by simp [hb']))) h2
        · cases he

theorem winner_error {e : PyErr} : ∀ {bs : List Nat} {w : Meta}, h.winner w bs = .error e → e = .typeError
  | [], _, he => by cases he
  | b :: bs, w, he => by
      rw [winner] at he
      split at he
      · exact winner_error he
      · split at he
        · exact winner_error he
        · cases he; rfl

theorem boundLoop_some {f : Fields} : ∀ {bs : List Nat}, h.boundLoop none bs = .ok (some f) → ∃ b ∈ bs, h.bound b = true
  | [], he => by cases he
  | b :: bs, he => by
      by_cases hb : h.bound b = true
      · exact ⟨b, by simp, hb⟩
      · rw [boundLoop, if_neg hb] at he
        obtain ⟨b', h1, h2⟩ := boundLoop_some he
        exact ⟨b', by simp [h1], h2⟩

theorem applyMod_error : ∀ (fuel : Nat) {h : Heap} {c : Nat} {e : PyErr}, h.Inv → c < fuel → h.Alive c →
    applyModF E fuel h m c = .error e → e = .typeError
  | 0, _, _, _, _, hf, _, _ => by omega
  | fuel + 1, h, c, e, hi, hf, hc, he => by
      rw [applyModF] at he
      split at he
      · cases he
      · simp only [bind, Except.bind] at he
        have hmap := @mapBases_error (fun h b => applyModF E fuel h m b) (fun h b => h.Inv ∧ b < fuel ∧ h.Alive b) e
          (fun h b hi he => applyMod_error fuel hi.1 hi.2.1 hi.2.2 he)
          (fun h b h' d hi he b' hi' => by
            obtain ⟨r1, r2, r3, r4⟩ := applyMod_ok hi.1 hi.2.1 hi.2.2 he
            exact ⟨r1, hi'.2.1, r2.alive hi'.2.2⟩) (h.bases c) h
          (fun b hb => ⟨hi, by have := hi.lt_of_base c b hb; omega, (hi.base_alive hc hb).1⟩)
        split at he
        · rename_i e' h1
          cases he
          exact hmap h1
        · rename_i r h1
          have i1 : r.1.Inv := (mapBases_ok (P := fun _ => False) (Q := fun mc => mc.1 = m ∧ mc.2 < c)
            (pre := fun _ b => b < c) (R := fun L b d => ModOf L d m b)
            (fun h b h' d hi ha hp e => by
              obtain ⟨r1, r2, r3, r4⟩ := applyMod_ok hi (by omega) ha e
              exact ⟨r1, r2.mono (fun _ h => h) (fun mc h => ⟨h.1, by have := h.2; omega⟩), r3, r4⟩)
            (fun L M b d hr => originOf_app hr M)
            (fun L M b hb hp => hp)
            hi (fun b hb => hi.base_alive hc hb) h1).1
          split at he
          · rename_i e' h2
            cases he
            exact winner_error h2
          · rename_i w h2
            split at he
            · rename_i e' h3
              cases he
              unfold newClass at h3
              simp only [bind, Except.bind] at h3
              split at h3
              · rename_i e'' h4
                cases h3
                unfold newFields at h4
                split at h4
                · cases h4
                · exact boundLoop_error h4
              · rename_i fs h4
                split at h3
                · cases h3; rfl
                · split at h3
                  · rename_i e'' h5
                    cases h3
                    unfold newUnbound at h5
                    unfold newFields at h4
                    split at h5
                    · cases h5
                    · rename_i hp
                      rw [if_neg hp] at h4
                      obtain ⟨u, hu⟩ := unboundOf_ok (h := r.1) (id := r.1.classes.length) (bs := c :: r.2) (r := fs)
                        (fun f hf => boundLoop_some (hf ▸ h4))
                      rw [hu] at h5; cases h5
                  · cases h3
            · cases he

end Heap
end HW.Adt.Cache
