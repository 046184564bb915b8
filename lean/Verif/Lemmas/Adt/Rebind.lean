import Verif.Lemmas.Adt.Type
import Verif.Spec.AdtRebind

/-! # Lemmas on `rebind` of modified classes -/

namespace HW.Adt

variable {W : World}

/-- What is known of the view of a class that can be built. -/
structure ViewOk (W : World) (T : Ty) (k : Con) (fs : List Ty) : Prop where
  built : ∀ t ∈ fs, Built W t
  sum : k.shape = .sum → W.canon fs = fs
  named : k.shape = .product ∨ k.shape = .tagged ∨ k.shape = .anon → k.names.length = fs.length ∧ k.names.Nodup
  tuple : k.shape = .tuple → k.names = []

theorem viewOk {T k fs} (hT : Built W T) (h : T.view = some (k, fs)) : ViewOk W T k fs := by
  induction T using Ty.induct generalizing k fs with
  | leaf => simp [Ty.view] at h
  | enum => simp [Ty.view] at h
  | node k' fs' _ =>
      simp only [Ty.view, Option.some.injEq, Prod.mk.injEq] at h
      obtain ⟨rfl, rfl⟩ := h
      have hc := hT.canon
      obtain ⟨shape, base, name, ns, names⟩ := k'
      refine ⟨hT.fields, ?_, ?_, ?_⟩ <;> cases shape <;> simp_all [Canon]
  | mod m t ih =>
      simp only [Ty.view, Option.map_eq_some_iff] at h
      obtain ⟨⟨k', fs'⟩, h1, h2⟩ := h
      obtain ⟨rfl, rfl⟩ := Prod.mk.inj h2
      obtain ⟨a, b, c, d⟩ := ih hT.unmod h1
      exact ⟨a, b, c, d⟩

theorem view_isBound {T : Ty} {k : Con} {fs : List Ty} (h : T.view = some (k, fs)) : T.isBound = true := by
  induction T using Ty.induct generalizing k fs with
  | leaf => simp [Ty.view] at h
  | enum => simp [Ty.view] at h
  | node k' fs' _ => rfl
  | mod m t ih =>
      simp only [Ty.view, Option.map_eq_some_iff] at h
      obtain ⟨⟨k', fs'⟩, h1, h2⟩ := h
      exact ih h1

theorem rebFields_view {A B subs rec T k fs} (h : T.view = some (k, fs)) :
    Ty.rebFields W A B subs rec T = Ty.rebList W A B subs rec fs := by
  induction T using Ty.induct generalizing k fs with
  | leaf => simp [Ty.view] at h
  | enum => simp [Ty.view] at h
  | node k' fs' _ =>
      simp only [Ty.view, Option.some.injEq, Prod.mk.injEq] at h
      obtain ⟨rfl, rfl⟩ := h
      rw [Ty.rebFields]
  | mod m t ih =>
      simp only [Ty.view, Option.map_eq_some_iff] at h
      obtain ⟨⟨k', fs'⟩, h1, h2⟩ := h
      obtain ⟨rfl, rfl⟩ := Prod.mk.inj h2
      rw [Ty.rebFields, ih h1]

theorem view_size {T t : Ty} {k : Con} {fs : List Ty} (h : T.view = some (k, fs)) (ht : t ∈ fs) : sizeOf t < sizeOf T := by
  induction T using Ty.induct generalizing k fs with
  | leaf => simp [Ty.view] at h
  | enum => simp [Ty.view] at h
  | node k' fs' _ =>
      simp only [Ty.view, Option.some.injEq, Prod.mk.injEq] at h
      obtain ⟨rfl, rfl⟩ := h
      exact size_field ht
  | mod m t' ih =>
      simp only [Ty.view, Option.map_eq_some_iff] at h
      obtain ⟨⟨k', fs'⟩, h1, h2⟩ := h
      obtain ⟨rfl, rfl⟩ := Prod.mk.inj h2
      have := ih h1 ht
      simp only [Ty.mod.sizeOf_spec]
      omega

theorem fieldImage_hit {A B subs rec t} (h : hit W A subs t = true) : fieldImage W A B subs rec t = some B := by
  simp only [hit, Bool.or_eq_true, decide_eq_true_eq, Bool.and_eq_true] at h
  simp [fieldImage, h]

theorem fieldImage_miss {A B subs rec t} (h : hit W A subs t = false) :
    fieldImage W A B subs rec t = if rec = true then none else some t := by
  have h' : ¬ (t = A ∨ subs = true ∧ W.sub t A = true) := by
    intro hc
    rw [← Bool.not_eq_true] at h
    apply h
    simpa [hit] using hc
  rw [fieldImage, if_neg h']

/-- Fields related one by one. -/
theorem get_rel {R : Ty → Ty → Prop} {l l' : List Ty} (h : List.Forall₂ R l l') (i : Nat) {t t' : Ty}
    (h1 : l[i]? = some t) (h2 : l'[i]? = some t') : R t t' := by
  induction h generalizing i with
  | nil => simp at h1
  | cons hd _ ih =>
      cases i with
      | zero =>
          simp only [List.getElem?_cons_zero, Option.some.injEq] at h1 h2
          exact h1 ▸ h2 ▸ hd
      | succ n =>
          simp only [List.getElem?_cons_succ] at h1 h2
          exact ih n h1 h2

/-- The new fields of a class determine a class that is `Rebound`. -/
theorem rebuild_rebound {f : Ty → Option Ty} {top : Bool} {T : Ty} {k : Con} {fs fs' : List Ty} (g : Ty → Ty)
    (hT : Built W T)
    (ht : top = false → f T = none) (hv : T.view = some (k, fs)) (hk : k.shape ≠ .anon) (hfs : fs' = fs.map g)
    (hg : ∀ t ∈ fs, Rebound W f false t (g t)) (hb : ∀ t ∈ fs, Built W (g t)) :
    ∃ T', rebuild W T { k with name := T.cname W } fs fs' = .ok T' ∧ Rebound W f top T T' ∧ Built W T' := by
  subst hfs
  have ok := viewOk hT hv
  have hord : ∀ (i : Nat) (t t' : Ty), fs[i]? = some t → (fs.map g)[i]? = some t' → Rebound W f false t t' := by
    intro i t t' h1 h2
    rw [List.getElem?_map, h1] at h2
    cases h2
    exact hg t (List.mem_of_getElem? h1)
  have hbm : ∀ t ∈ fs.map g, Built W t := by
    intro t h
    obtain ⟨s, hs, rfl⟩ := List.mem_map.1 h
    exact hb s hs
  obtain ⟨shape, base, name, ns, names⟩ := k
  cases shape with
  | tuple =>
      refine ⟨_, rfl, .ordered ht hv rfl (by simp) (by simp) rfl rfl ?_ nofun (by simp) hord, .tuple _ _ hbm⟩
      exact (ok.tuple rfl).symm
  | anon => exact absurd rfl hk
  | sum =>
      refine ⟨_, rfl, .sum g ht hv rfl rfl rfl rfl (W.nodup_canon _) hg ?_, .sum _ _ hbm⟩
      intro t'
      rw [W.mem_canon, List.mem_map]
  | product =>
      obtain ⟨hl, hn⟩ := ok.named (.inl rfl)
      dsimp only at hl hn
      simp only [rebuild]
      split <;> rename_i he
      · refine ⟨_, rfl, .ordered ht hv hv (by simp) (by simp) rfl rfl rfl (fun _ => rfl) rfl ?_, hT⟩
        rw [he] at hord
        exact hord
      · refine ⟨_, rfl, .ordered ht hv rfl (by simp) (by simp) rfl rfl rfl (fun _ => rfl) (by simp) hord, ?_⟩
        exact .product _ _ _ _ _ (by simp [hl]) hn hbm
  | tagged =>
      obtain ⟨hl, hn⟩ := ok.named (.inr (.inl rfl))
      dsimp only at hl hn
      simp only [rebuild]
      have hz : ∀ n t t', (n, t) ∈ names.zip fs → (n, t') ∈ names.zip (fs.map g) → Rebound W f false t t' := by
        intro n t t' hm hm'
        obtain ⟨i, hi, he⟩ := List.getElem_of_mem hm
        obtain ⟨j, hj, he'⟩ := List.getElem_of_mem hm'
        simp only [List.getElem_zip, Prod.mk.injEq, List.getElem_map] at he he'
        have : i = j := by
          apply (List.Nodup.getElem_inj_iff hn).1
          rw [he.1, he'.1]
        subst this
        rw [← he'.2, he.2]
        exact hg t (he.2 ▸ List.getElem_mem _)
      split <;> rename_i he
      · refine ⟨_, rfl, .tagged ht hv hv rfl rfl rfl rfl (List.Perm.refl _) hl.symm hl.symm ?_, hT⟩
        rw [he] at hz
        exact hz
      · refine ⟨_, rfl, .tagged ht hv rfl rfl rfl rfl rfl ?_ hl.symm (by simp) ?_,
          .tagged _ _ _ _ _ (by simp [hl]) hn hbm⟩
        · have hp := W.perm_canonF ⟨.tagged, base, T.cname W, 0, names⟩ (names.zip (fs.map g))
          have hp1 := hp.map Prod.fst
          rw [List.map_fst_zip (by simp; omega)] at hp1
          exact hp1
        · intro n t t' hm hm'
          dsimp only at hm hm'
          rw [zip_unzip] at hm'
          exact hz n t t' hm ((W.perm_canonF _ _).mem_iff.1 hm')

/-- The loop over the fields. -/
theorem rebList_rebound {A B subs rec} (hB : Built W B) {fs : List Ty} (hf : ∀ t ∈ fs, Built W t)
    (h : ∀ t ∈ fs, hit W A subs t = false → rec = true → t.isBound = true →
      ∃ t', (Ty.rebFields W A B subs rec t >>= t.finishRebind W) = .ok t' ∧
        Rebound W (fieldImage W A B subs rec) true t t' ∧ Built W t') :
    ∃ g : Ty → Ty, Ty.rebList W A B subs rec fs = .ok (fs.map g) ∧
      (∀ t ∈ fs, Rebound W (fieldImage W A B subs rec) false t (g t)) ∧ ∀ t ∈ fs, Built W (g t) := by
  have key : ∀ t ∈ fs, ∃ t', (if hit W A subs t then .ok B
        else if rec && t.isBound then Ty.rebFields W A B subs rec t >>= t.finishRebind W
        else .ok t : PyM Ty) = .ok t' ∧ Rebound W (fieldImage W A B subs rec) false t t' ∧ Built W t' := by
    intro t ht
    cases hA : hit W A subs t with
    | true => exact ⟨B, by simp, .hit (fieldImage_hit hA), hB⟩
    | false =>
        have hm := fieldImage_miss (B := B) (rec := rec) hA
        cases rec with
        | false => exact ⟨t, by simp, .hit (by simpa using hm), hf t ht⟩
        | true =>
            cases hb : t.isBound with
            | false =>
                refine ⟨t, by simp, .plain (fun _ => by simpa using hm) ?_, hf t ht⟩
                simp only [Ty.Fieldless]
                cases hv : t.view with
                | none => rfl
                | some p =>
                    have := view_isBound hv
                    rw [this] at hb
                    cases hb
            | true =>
                obtain ⟨t', h1, h2, h3⟩ := h t ht hA rfl hb
                refine ⟨t', by simpa using h1, ?_, h3⟩
                have hn : fieldImage W A B subs true t = none := by simpa using hm
                clear h1 h3
                generalize hf : fieldImage W A B subs true = f at *
                cases h2 with
                | plain _ a => exact .plain (fun _ => hn) a
                | ordered _ a b c d e f g i j l => exact .ordered (fun _ => hn) a b c d e f g i j l
                | sum g _ a b c d e f i j => exact .sum g (fun _ => hn) a b c d e f i j
                | tagged _ a b c d e f g i j l => exact .tagged (fun _ => hn) a b c d e f g i j l
  classical
  refine ⟨fun t => if ht : t ∈ fs then (key t ht).choose else t, ?_, ?_, ?_⟩
  · have : ∀ l : List Ty, (hl : ∀ t ∈ l, t ∈ fs) → Ty.rebList W A B subs rec l =
        .ok (l.map fun t => if ht : t ∈ fs then (key t ht).choose else t) := by
      intro l
      induction l with
      | nil => intro _; rw [Ty.rebList]; rfl
      | cons t ts ih =>
          intro hl
          have ht := hl t (by simp)
          rw [Ty.rebList, ih fun s hs => hl s (by simp [hs]), (key t ht).choose_spec.1]
          simp only [List.map_cons, dif_pos ht]
          rfl
    exact this fs fun _ h => h
  · intro t ht
    dsimp only
    rw [dif_pos ht]
    exact (key t ht).choose_spec.2.1
  · intro t ht
    dsimp only
    rw [dif_pos ht]
    exact (key t ht).choose_spec.2.2

theorem finish_rebound {A B subs rec} (hB : Built W B) (n : Nat) : ∀ T : Ty, sizeOf T ≤ n → Built W T →
    (∀ s, Reaches (fieldImage W A B subs rec) T s → ¬ s.IsAnon) →
    ∃ T', (Ty.rebFields W A B subs rec T >>= T.finishRebind W) = .ok T' ∧
      Rebound W (fieldImage W A B subs rec) true T T' ∧ Built W T' := by
  induction n with
  | zero => intro T h; cases T <;> simp at h
  | succ n ih =>
      intro T hs hT ha
      cases hv : T.view with
      | none =>
          obtain ⟨l, hl⟩ := rebFields_fieldless (W := W) (A := A) (B := B) (subs := subs) (rec := rec) hv
          refine ⟨T, ?_, .plain nofun hv, hT⟩
          rw [hl, pyBindOk, Ty.finishRebind, hv]
      | some p =>
          obtain ⟨k, fs⟩ := p
          have ok := viewOk hT hv
          obtain ⟨g, h1, h2, h3⟩ := rebList_rebound (A := A) (subs := subs) (rec := rec) hB ok.built
            (fun t ht hA hr hb => ih t (by have := view_size hv ht; omega) (ok.built t ht) (by
              intro s hs
              refine ha s (.field ⟨k, fs, hv, ht⟩ ?_ hs)
              rw [fieldImage_miss hA, if_pos hr]))
          rw [rebFields_view hv, h1, pyBindOk, Ty.finishRebind, hv]
          exact rebuild_rebound g hT nofun hv (fun hk => ha T (.self T) ⟨k, fs, hv, hk⟩) rfl h2 h3

/-- The only exception is a `TypeError`. -/
theorem finish_error {A B subs rec} (n : Nat) : ∀ T : Ty, sizeOf T ≤ n →
    ∀ e, (Ty.rebFields W A B subs rec T >>= T.finishRebind W) = .error e → e = .typeError := by
  induction n with
  | zero => intro T h; cases T <;> simp at h
  | succ n ih =>
      intro T hs e he
      cases hv : T.view with
      | none =>
          obtain ⟨l, hl⟩ := rebFields_fieldless (W := W) (A := A) (B := B) (subs := subs) (rec := rec) hv
          rw [hl, pyBindOk, Ty.finishRebind, hv] at he
          cases he
      | some p =>
          obtain ⟨k, fs⟩ := p
          rw [rebFields_view hv] at he
          have hl : ∀ l : List Ty, (∀ t ∈ l, t ∈ fs) → ∀ e, Ty.rebList W A B subs rec l = .error e → e = .typeError := by
            intro l
            induction l with
            | nil => intro _ e h; rw [Ty.rebList] at h; cases h
            | cons t ts ih' =>
                intro hm e h
                rw [Ty.rebList] at h
                split at h
                · cases hr : Ty.rebList W A B subs rec ts with
                  | error e' =>
                      rw [hr] at h
                      cases h
                      exact ih' (fun s hs => hm s (by simp [hs])) _ hr
                  | ok l => rw [hr] at h; cases h
                · split at h
                  · cases hx : (Ty.rebFields W A B subs rec t >>= t.finishRebind W) with
                    | error e' =>
                        rw [hx] at h
                        cases h
                        exact ih t (by have := view_size hv (hm t (by simp)); omega) _ hx
                    | ok t' =>
                        rw [hx] at h
                        cases hr : Ty.rebList W A B subs rec ts with
                        | error e' =>
                            rw [hr] at h
                            cases h
                            exact ih' (fun s hs => hm s (by simp [hs])) _ hr
                        | ok l => rw [hr] at h; cases h
                  · cases hr : Ty.rebList W A B subs rec ts with
                    | error e' =>
                        rw [hr] at h
                        cases h
                        exact ih' (fun s hs => hm s (by simp [hs])) _ hr
                    | ok l => rw [hr] at h; cases h
          cases hr : Ty.rebList W A B subs rec fs with
          | error e' =>
              rw [hr] at he
              cases he
              exact hl fs (fun _ h => h) _ hr
          | ok l =>
              rw [hr, pyBindOk, Ty.finishRebind, hv] at he
              dsimp only at he
              revert he
              obtain ⟨shape, base, name, ns, names⟩ := k
              cases shape <;> simp only [rebuild]
              · nofun
              · rintro ⟨⟩; rfl
              · split <;> nofun
              · nofun
              · split <;> nofun

theorem rebList_ok {A B subs rec} {t : Ty} {fs l : List Ty} (h : Ty.rebList W A B subs rec fs = .ok l) (ht : t ∈ fs)
    (hA : hit W A subs t = false) (hr : rec = true) (hb : t.isBound = true) :
    ∃ t', (Ty.rebFields W A B subs rec t >>= t.finishRebind W) = .ok t' := by
  induction fs generalizing l with
  | nil => cases ht
  | cons s ss ih =>
      rw [Ty.rebList] at h
      cases hx : (if hit W A subs s then .ok B
        else if rec && s.isBound then Ty.rebFields W A B subs rec s >>= s.finishRebind W
        else .ok s : PyM Ty) with
      | error e => rw [hx] at h; cases h
      | ok s' =>
          rw [hx] at h
          cases hy : Ty.rebList W A B subs rec ss with
          | error e => rw [pyBindOk, hy] at h; cases h
          | ok l' =>
              rcases List.mem_cons.1 ht with rfl | ht
              · refine ⟨s', ?_⟩
                simpa [hA, hr, hb] using hx
              · exact ih hy ht

theorem fieldImage_none {A B subs rec t} (h : fieldImage W A B subs rec t = none) :
    hit W A subs t = false ∧ rec = true := by
  cases hA : hit W A subs t with
  | true => rw [fieldImage_hit hA] at h; cases h
  | false =>
      rw [fieldImage_miss hA] at h
      split at h
      · rename_i hr; exact ⟨rfl, hr⟩
      · cases h

/-- A class that is reached and is an `AnonymousProduct` is not rebound. -/
theorem finish_anon {A B subs rec T s} (h : Reaches (fieldImage W A B subs rec) T s) (hs : s.IsAnon) {T'} :
    (Ty.rebFields W A B subs rec T >>= T.finishRebind W) ≠ .ok T' := by
  induction h generalizing T' with
  | self T =>
      obtain ⟨k, fs, hv, hk⟩ := hs
      rw [rebFields_view hv]
      cases hr : Ty.rebList W A B subs rec fs with
      | error e => nofun
      | ok l =>
          rw [pyBindOk, Ty.finishRebind, hv]
          simp only [rebuild, hk]
          nofun
  | field hf hn hr ih =>
      rename_i T t s
      obtain ⟨k, fs, hv, ht⟩ := hf
      rw [rebFields_view hv]
      cases hr' : Ty.rebList W A B subs rec fs with
      | error e => nofun
      | ok l =>
          obtain ⟨hA, hrec⟩ := fieldImage_none hn
          exfalso
          have hb : t.isBound = true := by
            cases hr with
            | self => obtain ⟨k, fs, hv, _⟩ := hs; exact view_isBound hv
            | field hf => obtain ⟨k, fs, hv, _⟩ := hf; exact view_isBound hv
          obtain ⟨t', h'⟩ := rebList_ok hr' ht hA hrec hb
          exact ih hs h'

theorem rebound_refl (n : Nat) : ∀ (T : Ty) (top : Bool), sizeOf T ≤ n → Built W T →
    Rebound W (fun _ => none) top T T := by
  induction n with
  | zero => intro T _ h; cases T <;> simp at h
  | succ n ih =>
      intro T top hs hT
      cases hv : T.view with
      | none => exact .plain (fun _ => rfl) hv
      | some p =>
          obtain ⟨k, fs⟩ := p
          have ok := viewOk hT hv
          have hr : ∀ t ∈ fs, Rebound W (fun _ => none) false t t := fun t ht =>
            ih t false (by have := view_size hv ht; omega) (ok.built t ht)
          by_cases h1 : k.shape = .sum
          · refine .sum id (fun _ => rfl) hv hv h1 h1 rfl ?_ hr (by simp)
            rw [← ok.sum h1]
            exact W.nodup_canon _
          by_cases h2 : k.shape = .tagged
          · obtain ⟨hl, hn⟩ := ok.named (.inr (.inl h2))
            refine .tagged (fun _ => rfl) hv hv h2 h2 rfl rfl (List.Perm.refl _) hl.symm hl.symm ?_
            intro m t t' hm hm'
            obtain ⟨i, hi, he⟩ := List.getElem_of_mem hm
            obtain ⟨j, hj, he'⟩ := List.getElem_of_mem hm'
            simp only [List.getElem_zip, Prod.mk.injEq] at he he'
            have : i = j := by
              apply (List.Nodup.getElem_inj_iff hn).1
              rw [he.1, he'.1]
            subst this
            rw [← he'.2, he.2]
            exact hr t (he.2 ▸ List.getElem_mem _)
          · refine .ordered (fun _ => rfl) hv hv h1 h2 rfl rfl rfl (fun _ => rfl) rfl ?_
            intro i t t' ht ht'
            rw [ht] at ht'
            cases ht'
            exact hr t (List.mem_of_getElem? ht)

theorem image_some {A B : Ty} {t t' : Ty} (h : fieldImage W A B false true t = some t') : t = A ∧ t' = B := by
  simp only [fieldImage, Bool.false_eq_true, false_and, or_false, if_true] at h
  split at h
  · rename_i he; cases h; exact ⟨he, rfl⟩
  · cases h

theorem image_self (A B : Ty) : fieldImage W A B false true A = some B := by simp [fieldImage]

theorem mem_zip_of_mem {α β : Type} {l : List α} {l' : List β} (h : l'.length = l.length) {n : α} (hn : n ∈ l) :
    ∃ t, (n, t) ∈ l.zip l' := by
  obtain ⟨i, hi, rfl⟩ := List.getElem_of_mem hn
  exact ⟨l'[i], List.mem_iff_getElem.2 ⟨i, by simp [h, hi], by simp⟩⟩

/-- There and back. -/
theorem rebound_back {A B : Ty} (hB : B.Fieldless) (n : Nat) : ∀ (T T' T'' : Ty) (top : Bool), sizeOf T ≤ n → Built W T →
    (top = false → T ≠ B) → ¬ B.Below T → Rebound W (fieldImage W A B false true) top T T' →
    Rebound W (fieldImage W B A false true) top T' T'' → Rebound W (fun _ => none) top T T'' := by
  have hBv : ∀ {k fs}, B.view = some (k, fs) → False := by
    intro k fs h; simp only [Ty.Fieldless] at hB; rw [hB] at h; cases h
  induction n with
  | zero => intro T _ _ _ h; cases T <;> simp at h
  | succ n ih =>
      intro T T' T'' top hs hT hne hb h1 h2
      have hsub : ∀ {k fs t}, T.view = some (k, fs) → t ∈ fs → ∀ t' t'', Rebound W (fieldImage W A B false true) false t t' →
          Rebound W (fieldImage W B A false true) false t' t'' → Rebound W (fun _ => none) false t t'' := by
        intro k fs t hv ht t' t'' r1 r2
        have hbel : Ty.Below t T := .field ⟨k, fs, hv, ht⟩
        refine ih t t' t'' false (by have := view_size hv ht; omega) ((viewOk hT hv).built t ht) ?_ ?_ r1 r2
        · rintro - rfl; exact hb hbel
        · exact fun h => hb (.deep ⟨k, fs, hv, ht⟩ h)
      cases h1 with
      | hit h =>
          obtain ⟨rfl, rfl⟩ := image_some h
          cases h2 with
          | hit h =>
              obtain ⟨-, rfl⟩ := image_some h
              exact rebound_refl _ _ _ (Nat.le_refl _) hT
          | plain h => rw [image_self] at h; cases h rfl
          | ordered h => rw [image_self] at h; cases h rfl
          | sum g h => rw [image_self] at h; cases h rfl
          | tagged h => rw [image_self] at h; cases h rfl
      | plain h hf =>
          cases h2 with
          | hit h => exact absurd (image_some h).1 (hne rfl)
          | plain _ _ => exact .plain (fun _ => rfl) hf
          | ordered _ a => simp only [Ty.Fieldless] at hf; rw [hf] at a; cases a
          | sum _ _ a => simp only [Ty.Fieldless] at hf; rw [hf] at a; cases a
          | tagged _ a => simp only [Ty.Fieldless] at hf; rw [hf] at a; cases a
      | ordered _ a b c d e f g i j l =>
          cases h2 with
          | hit h => rw [(image_some h).1] at b; exact (hBv b).elim
          | plain _ h => simp only [Ty.Fieldless] at h; rw [h] at b; cases b
          | ordered _ a' b' c' d' e' f' g' i' j' l' =>
              rw [b] at a'
              cases a'
              refine .ordered (fun _ => rfl) a b' c d (e'.trans e) (f'.trans f) (g'.trans g)
                (fun h => (i' (e.trans h)).trans (i h)) (j.trans j') ?_
              intro x t t'' ht ht''
              have hx := (List.getElem?_eq_some_iff.1 ht).1
              rw [j] at hx
              exact hsub a (List.mem_of_getElem? ht) _ t'' (l x t _ ht (List.getElem?_eq_getElem hx))
                (l' x _ t'' (List.getElem?_eq_getElem hx) ht'')
          | sum _ _ a' _ c' => rw [b] at a'; cases a'; exact absurd (e.symm.trans c') c
          | tagged _ a' _ c' => rw [b] at a'; cases a'; exact absurd (e.symm.trans c') d
      | sum g _ a b c d e f i j =>
          cases h2 with
          | hit h => rw [(image_some h).1] at b; exact (hBv b).elim
          | plain _ h => simp only [Ty.Fieldless] at h; rw [h] at b; cases b
          | ordered _ a' _ c' => rw [b] at a'; cases a'; exact absurd d c'
          | sum g' _ a' b' c' d' e' f' i' j' =>
              rw [b] at a'
              cases a'
              refine .sum (g' ∘ g) (fun _ => rfl) a b' c d' (e'.trans e) f' ?_ ?_
              · intro t ht
                exact hsub a ht _ _ (i t ht) (i' _ ((j _).2 ⟨t, ht, rfl⟩))
              · intro t''
                rw [j']
                constructor
                · rintro ⟨t', ht', rfl⟩
                  obtain ⟨t, ht, rfl⟩ := (j t').1 ht'
                  exact ⟨t, ht, rfl⟩
                · rintro ⟨t, ht, rfl⟩
                  exact ⟨g t, (j _).2 ⟨t, ht, rfl⟩, rfl⟩
          | tagged _ a' _ c' => rw [b] at a'; cases a'; rw [d] at c'; cases c'
      | tagged _ a b c d e f g i j l =>
          cases h2 with
          | hit h => rw [(image_some h).1] at b; exact (hBv b).elim
          | plain _ h => simp only [Ty.Fieldless] at h; rw [h] at b; cases b
          | ordered _ a' _ _ c' => rw [b] at a'; cases a'; exact absurd d c'
          | sum _ _ a' _ c' => rw [b] at a'; cases a'; rw [d] at c'; cases c'
          | tagged _ a' b' c' d' e' f' g' i' j' l' =>
              rw [b] at a'
              cases a'
              refine .tagged (fun _ => rfl) a b' c d' (e'.trans e) (f'.trans f) (g'.trans g) i j' ?_
              intro m t t'' hm hm''
              have hn : m ∈ _ := (g'.mem_iff.1 (List.of_mem_zip hm'').1)
              obtain ⟨t', ht'⟩ := mem_zip_of_mem j hn
              exact hsub a (List.of_mem_zip hm).2 t' t'' (l m t t' hm ht') (l' m t' t'' ht' hm'')

/-- A class that is reached after rebinding is rebound from one reached before. -/
theorem reaches_back {A B : Ty} (hB : B.Fieldless) {T' s' : Ty} (h : Reaches (fieldImage W B A false true) T' s') :
    ∀ {T : Ty} {top : Bool}, Rebound W (fieldImage W A B false true) top T T' → s'.IsAnon →
      ∃ s, Reaches (fieldImage W A B false true) T s ∧ s.IsAnon := by
  have hBv : ∀ {k fs}, B.view = some (k, fs) → False := by
    intro k fs h; simp only [Ty.Fieldless] at hB; rw [hB] at h; cases h
  induction h with
  | self T' =>
      rintro T top h ⟨k, fs, hv, hk⟩
      refine ⟨T, .self T, ?_⟩
      cases h with
      | hit h => rw [(image_some h).2] at hv; exact (hBv hv).elim
      | plain _ h => exact ⟨k, fs, hv, hk⟩
      | ordered _ a b _ _ e =>
          rw [b] at hv
          cases hv
          exact ⟨_, _, a, e.symm.trans hk⟩
      | sum _ _ _ b _ d => rw [b] at hv; cases hv; rw [d] at hk; cases hk
      | tagged _ _ b _ d => rw [b] at hv; cases hv; rw [d] at hk; cases hk
  | field hf hn hr ih =>
      rintro T top h hs
      rename_i T' t' s'
      obtain ⟨k, fs, hv, ht⟩ := hf
      have step : ∀ {t k0 fs0}, T.view = some (k0, fs0) → t ∈ fs0 → Rebound W (fieldImage W A B false true) false t t' →
          ∃ s, Reaches (fieldImage W A B false true) T s ∧ s.IsAnon := by
        intro t k0 fs0 hv0 ht0 hrb
        obtain ⟨s, h1, h2⟩ := ih hrb hs
        refine ⟨s, .field ⟨k0, fs0, hv0, ht0⟩ ?_ h1, h2⟩
        cases hx : fieldImage W A B false true t with
        | none => rfl
        | some y =>
            exfalso
            obtain ⟨rfl, rfl⟩ := image_some hx
            have : t' = y := by
              cases hrb with
              | hit h => rw [hx] at h; cases h; rfl
              | plain h => rw [hx] at h; cases h rfl
              | ordered h => rw [hx] at h; cases h rfl
              | sum g h => rw [hx] at h; cases h rfl
              | tagged h => rw [hx] at h; cases h rfl
            subst this
            rw [image_self] at hn
            cases hn
      cases h with
      | hit h => rw [(image_some h).2] at hv; exact (hBv hv).elim
      | plain _ h => simp only [Ty.Fieldless] at h; rw [h] at hv; cases hv
      | ordered _ a b _ _ _ _ _ _ j l =>
          rw [b] at hv
          cases hv
          obtain ⟨i, hi, he⟩ := List.getElem_of_mem ht
          have hi' : i < _ := j.symm ▸ hi
          exact step a (List.getElem_mem hi')
            (l i _ _ (List.getElem?_eq_getElem hi') (List.getElem?_eq_some_iff.2 ⟨hi, he⟩))
      | sum g _ a b _ _ _ _ i j =>
          rw [b] at hv
          cases hv
          obtain ⟨t, ht1, rfl⟩ := (j t').1 ht
          exact step a ht1 (i t ht1)
      | tagged _ a b _ _ _ _ g i j l =>
          rw [b] at hv
          cases hv
          obtain ⟨x, hx, he⟩ := List.getElem_of_mem ht
          have hm' : (k.names[x]'(by omega), t') ∈ k.names.zip fs := by
            exact List.mem_iff_getElem.2 ⟨x, by simp; omega, by simp [he]⟩
          obtain ⟨t, htm⟩ := mem_zip_of_mem i (g.mem_iff.1 (List.of_mem_zip hm').1)
          exact step a (List.of_mem_zip htm).2 (l _ t t' htm hm')

end HW.Adt
