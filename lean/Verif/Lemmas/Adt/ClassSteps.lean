import Verif.Lemmas.Adt.ClassOps

/-! # Class statements, modifiers, the collector: the invariant holds in every history -/

namespace HW.Adt.Cache
namespace Heap

variable {E : Env} {h h' : Heap}

/-! ## Modifiers -/

theorem applyMod_ok {m : ModId} : ∀ {fuel : Nat} {h h' : Heap} {c d : Nat}, h.Inv → c < fuel → h.Alive c →
    applyModF E fuel h m c = .ok (h', d) →
    h'.Inv ∧ Ext (fun _ => False) (fun mc => mc.1 = m ∧ mc.2 < c + 1) h h' ∧ h'.Alive d ∧ ModOf h'.classes d m c
  | 0, _, _, _, _, _, hf, _, _ => by omega
  | fuel + 1, h, h', c, d, hi, hf, hc, e => by
    simp only [applyModF] at e
    split at e
    · rename_i d' hfd
      cases e
      obtain ⟨a, b⟩ := hi.find_mod hfd
      exact ⟨hi, Ext.refl _, a, b⟩
    · rename_i hfd
      obtain ⟨⟨h1, ds⟩, e1, e⟩ := bind_ok e
      obtain ⟨w, e2, e⟩ := bind_ok e
      obtain ⟨⟨h3, t⟩, e3, e⟩ := bind_ok e
      simp only [pure, Except.pure, Except.ok.injEq, Prod.mk.injEq] at e
      obtain ⟨rfl, rfl⟩ := e
      obtain ⟨i1, x1, l1, r1⟩ := mapBases_ok (P := fun _ => False) (Q := fun mc => mc.1 = m ∧ mc.2 < c)
        (pre := fun _ b => b < c) (R := fun L b d => ModOf L d m b)
        (fun h b h' d hi ha hp e => by
          obtain ⟨r1, r2, r3, r4⟩ := applyMod_ok hi (by omega) ha e
          exact ⟨r1, r2.mono (fun _ h => h) (fun mc h => ⟨h.1, by have := h.2; omega⟩), r3, r4⟩)
        (fun L M b d hr => originOf_app hr M)
        (fun L M b hb hp => hp)
        hi (fun b hb => hi.base_alive hc hb) e1
      have hc1 := x1.alive hc
      obtain ⟨w1, w2, w3⟩ := winner_ok e2
      dsimp only at w2 w3 e3
      have hsr := newClass_src e3 rfl
      obtain ⟨fs, u, rfl, rfl, hnd, hpl, hnp⟩ := newClass_ok i1 e3
      have hsrc : w = mtOf h1.classes c ∧ fs = fieldsOf h1.classes c := by
        have hsr := hsr _ rfl
        dsimp only at hsr
        obtain ⟨kc, hkc⟩ := Inv.get hc1.1
        have gc := i1.good c kc hkc
        have mc : mtOf h1.classes c = kc.mt := by simp only [mtOf, hkc]
        have fc : fieldsOf h1.classes c = kc.fields := by simp only [fieldsOf, hkc]
        have hds : ∀ d ∈ ds, ∃ b ∈ kc.bases, mtOf h1.classes d = mtOf h1.classes b ∧
            fieldsOf h1.classes d = fieldsOf h1.classes b := by
          intro d hd
          obtain ⟨b, hb, hm⟩ := forall₂_right r1 hd
          rw [← x1.bases hc.1] at hb
          obtain ⟨kd, hkd⟩ := Inv.get (l1 d hd).1
          have ho : kd.origin = .modified m b := by
            unfold ModOf originOf at hm; rw [hkd] at hm; exact Option.some.inj hm
          obtain ⟨s1, s2⟩ := (i1.good d kd hkd).src m b ho
          refine ⟨b, by simpa only [basesOf, hkc] using hb, ?_, ?_⟩
          · rw [← s1]; simp only [mtOf, hkd]
          · rw [← s2]; simp only [fieldsOf, hkd]
        have hw : w = mtOf h1.classes c := by
          have lc := w2 c (by simp)
          rw [mt_eq] at lc
          refine Meta.le_antisymm lc ?_
          rcases w3 with rfl | ⟨b, hb, rfl⟩
          · rw [Meta.le_plain lc]; rfl
          · rcases List.mem_cons.1 hb with rfl | hb
            · exact Meta.le_refl _
            · obtain ⟨b', hb', e1, -⟩ := hds b hb
              rw [mt_eq, e1, mc]; exact gc.le b' hb'
        refine ⟨hw, ?_⟩
        have hwc : ∀ {b}, b ∈ kc.bases → fieldsOf h1.classes c = none → fieldsOf h1.classes b = none := by
          intro b hb hn
          by_cases hp : kc.mt = .plain
          · have := gc.le b hb
            rw [hp] at this
            exact i1.fields_plain (Meta.le_plain this)
          · exact (gc.unb hp (by rw [← fc]; exact hn)).2 b hb
        cases hfc : fieldsOf h1.classes c with
        | none =>
          cases fs with
          | none => rfl
          | some f =>
            obtain ⟨b, hb, hbf⟩ := hsr f rfl
            rw [fields_eq] at hbf
            rcases List.mem_cons.1 hb with rfl | hb
            · rw [hfc] at hbf; cases hbf
            · obtain ⟨b', hb', -, e2⟩ := hds b hb
              rw [e2, hwc hb' hfc] at hbf; cases hbf
        | some g =>
          have hp : w ≠ .plain := by
            rw [hw]; intro hp; rw [i1.fields_plain hp] at hfc; cases hfc
          cases fs with
          | none => rw [((hnp hp).2.1 rfl).2 c (by simp)] at hfc; cases hfc
          | some f => rw [(hnp hp).2.2.1 f rfl c (by simp) g hfc]
      have hbases : ∀ d ∈ c :: ds, h1.Alive d := by
        intro d hd
        simp only [List.mem_cons] at hd
        rcases hd with rfl | hd
        · exact hc1
        · exact l1 d hd
      have hgood : Good h1.classes h1.classes.length
          { mt := w, bases := c :: ds, fields := fs, unbound := u, origin := .modified m c } := by
        refine good_new (k := { mt := w, bases := c :: ds, origin := .modified m c }) (fs := fs) (u := u) hpl
          (fun hp => ⟨(hnp hp).2.1, fun _ => (hnp hp).2.2.1⟩) (fun b hb => (hbases b hb).1) hnd w2 ?_ nofun nofun ?_ ?_
        · intro hp
          rcases w3 with rfl | h'
          · exact absurd rfl hp
          · exact h'
        · rintro m' v ⟨⟩
          refine ⟨ds, rfl, ?_⟩
          rw [x1.bases hc.1]; exact r1
        · rintro m' v ⟨⟩
          exact hsrc
      have hfresh : find h1.subCache (m, c) = none := by
        rw [x1.monly, hfd]
        rintro ⟨_, h2⟩; exact Nat.lt_irrefl _ h2
      have hI := i1.add hgood (fun b hb => (hbases b hb).2) hfresh
      have hX := ext_add (h := h1)
        (k := { mt := w, bases := c :: ds, fields := fs, unbound := u, origin := .modified m c }) hfresh
      have lift : Ext (fun _ => False) (fun mc => mc.1 = m ∧ mc.2 < c + 1) h h1 :=
        x1.mono (fun _ h => h) (fun mc h => ⟨h.1, by have := h.2; omega⟩)
      refine ⟨hI, lift.trans (hX.mono ?_ ?_), ⟨?_, ?_⟩, ?_⟩
      · rintro key hk; cases hk
      · rintro ⟨m', c'⟩ hk; cases hk; exact ⟨rfl, Nat.lt_succ_self _⟩
      · simp
      · exact fun hd => Nat.lt_irrefl _ (i1.dead_lt _ hd)
      · exact originOf_len _

/-! ## Class statements -/

/-- Keys of getitem classes. -/
def IsItem (key : Key) : Prop := ∃ u i, key = .item u i

theorem base_mt {s : Stmt} {m bm : Meta} {idx : Idx} (e : s.base m = some (bm, idx)) : bm = idx.mt ∧ m.le bm = true := by
  unfold Stmt.base at e
  split at e
  · split at e
    · cases e; exact ⟨rfl, rfl⟩
    · cases e
  · split at e
    · cases e; exact ⟨rfl, rfl⟩
    · cases e
  · cases e

theorem base_none {s : Stmt} {m : Meta} (hf : s.hasFields m = true) (e : s.base m = none) : m = .enum := by
  unfold Stmt.base at e
  unfold Stmt.hasFields at hf
  cases m <;> simp at hf e ⊢
  · cases hs : s.fields <;> rw [hs] at hf e <;> simp at hf e
  · cases hs : s.fields <;> rw [hs] at hf e <;> simp at hf e

theorem newEnum_ok {k : Class} {t : Nat} (e : newEnum E h k = .ok (h', t)) : ∃ eb, h' = { h with
      classes := h.classes ++ [{ k with fields := some (.enum h.classes.length), unbound := some eb }] } ∧
    t = h.classes.length ∧ k.bases.Nodup := by
  unfold newEnum at e
  split at e
  · rename_i eb _
    obtain ⟨_, _, e⟩ := bind_ok e
    split at e
    · cases e
    · rename_i hnd
      simp only [pure, Except.pure, Except.ok.injEq, Prod.mk.injEq] at e
      exact ⟨eb, e.1.symm, e.2.symm, by by_contra hc; exact hnd (Or.inl hc)⟩
  · cases e

theorem fromFields_ok {m : Meta} {s : Stmt} {t : Nat} (hi : h.Inv) (hf : s.hasFields m = true)
    (hal : ∀ b ∈ s.bases, h.Alive b) (hle : ∀ b ∈ s.bases, m.le (mtOf h.classes b) = true)
    (hw : ∃ b ∈ s.bases, mtOf h.classes b = m) (e : fromFields E h m s = .ok (h', t)) :
    ∃ h1 k, h1.Inv ∧ Ext IsItem (fun _ => False) h h1 ∧ h' = { h1 with classes := h1.classes ++ [k] } ∧
      t = h1.classes.length ∧ Good h1.classes h1.classes.length k ∧ (∀ b ∈ k.bases, b ∉ h1.dead) ∧
      k.origin = (if s.cache then .cached (s.key m) else .stmt) ∧ AttrShape h1.classes h1.classes.length k m s := by
  have hor : ∀ v idx, (if s.cache then Origin.cached (s.key m) else .stmt) = .cached (.item v idx) → False := by
    intro v idx h; split at h <;> simp [Stmt.key] at h
  have hor2 : ∀ m' v, (if s.cache then Origin.cached (s.key m) else .stmt) = .modified m' v → False := by
    intro v idx h; split at h <;> simp at h
  have hor3 : ∀ f bs n ns, (if s.cache then Origin.cached (s.key m) else .stmt) = .cached (.attr f bs n ns) →
      s.key m = .attr f bs n ns := by
    intro f bs n ns h; split at h <;> simp at h ⊢; exact h
  unfold fromFields at e
  dsimp only at e
  split at e
  · rename_i bm idx hbase
    obtain ⟨hbm, hmle⟩ := base_mt hbase
    split at e
    · cases e
    · rename_i b hs
      obtain ⟨⟨h1, d⟩, e1, e⟩ := bind_ok e
      obtain ⟨s1, b0, hb0, s2⟩ := search_ok hs
      have hb := (hi.anc_alive (hal b0 hb0) s2).1
      obtain ⟨i1, x1, l1, r1⟩ := getitem_ok hi (Nat.lt_succ_self b) hb (by rw [s1, hbm]) e1
      obtain ⟨kd, hkd, _, shd⟩ := i1.shape r1
      have hmd : mtOf h1.classes d = bm := by simp only [mtOf, hkd]; rw [shd.mt, hbm]
      have hfd : fieldsOf h1.classes d = some idx.fields := by simp only [fieldsOf, hkd]; exact shd.fields
      have hmne : m ≠ .plain := by
        intro h'; rw [h'] at hf; simp [Stmt.hasFields] at hf
      obtain ⟨fs, u, rfl, rfl, hnd, hpl, hnp⟩ := newClass_ok i1 e
      dsimp only at hpl hnp
      obtain ⟨n1, n2, n3, n4⟩ := hnp hmne
      have hfs : fs = some idx.fields := by
        cases fs with
        | none => have := (n2 rfl).2 d (by simp); rw [hfd] at this; cases this
        | some f => rw [n3 f rfl d (by simp) _ hfd]
      subst hfs
      have hbases : ∀ b ∈ s.bases ++ [d], h1.Alive b := by
        intro b hb
        simp only [List.mem_append, List.mem_singleton] at hb
        rcases hb with hb | rfl
        · exact x1.alive (hal b hb)
        · exact l1
      have hsh : AttrShape h1.classes h1.classes.length
          { mt := m, bases := s.bases ++ [d], fields := some idx.fields, unbound := u, name := some s.name
            body := s.body, origin := if s.cache then .cached (s.key m) else .stmt
            table := if m = .tagged then some s.fields else none } m s :=
        ⟨rfl, rfl, rfl, Or.inl ⟨bm, idx, b, d, hbase, hbm, rfl, by rw [x1.mt hb.1, s1], r1, rfl, b0, hb0, by
            obtain ⟨N, hN⟩ := x1.classes; rw [hN]; exact s2.app N⟩,
          fun h' => by dsimp only; rw [if_pos h']⟩
      refine ⟨h1, _, i1, x1.mono (by rintro k ⟨u, i, h1, _⟩; exact ⟨u, i, h1⟩) (fun _ h => h), rfl, rfl, ?_,
        fun b hb => (hbases b hb).2, rfl, hsh⟩
      refine good_new (k := { mt := m, bases := s.bases ++ [d], name := some s.name
                              body := s.body, origin := if s.cache then .cached (s.key m) else .stmt
                              table := if m = .tagged then some s.fields else none }) hpl
        (fun _ => ⟨n2, fun _ => n3⟩) (fun b hb => (hbases b hb).1) hnd ?_ (fun _ => ?_)
        (fun v i h => (hor v i h).elim) (fun f bs n ns h => ⟨m, s, hor3 _ _ _ _ h, hf, hsh⟩)
        (fun m' v h => (hor2 m' v h).elim) (fun m' v h => (hor2 m' v h).elim)
      · intro b hb
        simp only [List.mem_append, List.mem_singleton] at hb
        rcases hb with hb | rfl
        · rw [x1.mt (hal b hb).1]; exact hle b hb
        · rw [hmd]; exact hmle
      · obtain ⟨b, hb, hbm⟩ := hw
        exact ⟨b, by simp [hb], by rw [x1.mt (hal b hb).1, hbm]⟩
  · rename_i hbase
    have hm := base_none hf hbase
    subst hm
    obtain ⟨eb, rfl, rfl, hnd⟩ := newEnum_ok e
    have hsh : AttrShape h.classes h.classes.length
        { mt := .enum, bases := s.bases, fields := some (.enum h.classes.length), unbound := some eb
          name := some s.name, body := s.body, origin := if s.cache then .cached (s.key .enum) else .stmt
          table := some s.fields } .enum s :=
      ⟨rfl, rfl, rfl, Or.inr ⟨hbase, rfl, rfl, rfl, rfl⟩, nofun⟩
    refine ⟨h, _, hi, Ext.refl _, rfl, rfl, ?_, fun b hb => (hal b hb).2, rfl, hsh⟩
    refine good_new (k := { mt := .enum, bases := s.bases, name := some s.name
                            body := s.body, origin := if s.cache then .cached (s.key .enum) else .stmt
                            table := some s.fields }) nofun
      (fun _ => ⟨nofun, fun h => by obtain ⟨m', v, h'⟩ := h rfl; exact (hor2 m' v h').elim⟩) (fun b hb => (hal b hb).1) hnd hle (fun _ => hw)
      (fun v i h => (hor v i h).elim) (fun f bs n ns h => ⟨.enum, s, hor3 _ _ _ _ h, hf, hsh⟩)
      (fun m' v h => (hor2 m' v h).elim) (fun m' v h => (hor2 m' v h).elim)

/-- Two statements with the same key. -/
theorem key_meta {m m' : Meta} {s s' : Stmt} (hf : s.hasFields m = true) (hf' : s'.hasFields m' = true)
    (e : s.key m = s'.key m') : m = m' := by
  simp only [Stmt.key, Key.attr.injEq] at e
  have e := e.1
  unfold Stmt.hasFields at hf hf'
  cases m <;> cases m' <;> simp at hf hf' ⊢ <;> cases hs : s.fields <;> cases hs' : s'.fields <;>
    simp [hs, hs', fieldsIdx] at hf hf' e

structure Made (h h' : Heap) (m : Meta) (s : Stmt) (t : Nat) : Prop where
  inv : h'.Inv
  ext : Ext (fun key => IsItem key ∨ (s.cache = true ∧ key = s.key m)) (fun _ => False) h h'
  alive : h'.Alive t
  shape : ∃ k s', h'.classes[t]? = some k ∧ AttrShape h'.classes t k m s' ∧ s'.key m = s.key m ∧
    (h.classes.length ≤ t → s' = s) ∧ k.origin = if s.cache then .cached (s.key m) else .stmt
  fresh : s.cache = false → h.classes.length ≤ t

theorem attrNew_ok {m : Meta} {s : Stmt} {t : Nat} (hi : h.Inv) (hf : s.hasFields m = true)
    (hal : ∀ b ∈ s.bases, h.Alive b) (hle : ∀ b ∈ s.bases, m.le (mtOf h.classes b) = true)
    (hw : ∃ b ∈ s.bases, mtOf h.classes b = m) (e : attrNew E h m s = .ok (h', t)) : Made h h' m s t := by
  unfold attrNew at e
  split at e
  · rename_i hc
    split at e
    · rename_i d hfd
      cases e
      obtain ⟨a, b⟩ := hi.find_item hfd
      refine ⟨hi, Ext.refl _, a, ?_, fun h' => by rw [hc] at h'; cases h'⟩
      unfold originOf at b
      cases hk : h.classes[t]? with
      | none => rw [hk] at b; cases b
      | some k =>
        rw [hk] at b
        simp only [Option.some.injEq] at b
        obtain ⟨m', s', k1, k2, k3⟩ := (hi.good t k hk).attr _ _ _ _ b
        have hm := key_meta hf k2 (show s.key m = s'.key m' from k1.symm)
        subst hm
        exact ⟨k, s', rfl, k3, k1, fun hl => absurd (lt_of_get hk) (by omega), by rw [b, if_pos hc]⟩
    · rename_i hfd
      obtain ⟨⟨h1, t'⟩, e1, e⟩ := bind_ok e
      simp only [pure, Except.pure, Except.ok.injEq, Prod.mk.injEq] at e
      obtain ⟨rfl, rfl⟩ := e
      obtain ⟨h2, k, i2, x2, rfl, rfl, g, al, ho, sh⟩ := fromFields_ok hi hf hal hle hw e1
      rw [if_pos hc] at ho
      have hfresh : find h2.cache (s.key m) = none := by
        rw [x2.only, hfd]
        rintro ⟨u, i, hk⟩; simp [Stmt.key] at hk
      have hadd : h2.add k = { h2 with classes := h2.classes ++ [k], cache := (s.key m, h2.classes.length) :: h2.cache } := by
        unfold Heap.add; rw [ho]
      have hI := i2.add g al (by rw [ho]; exact hfresh)
      have hX := ext_add (h := h2) (k := k) (by rw [ho]; exact hfresh)
      rw [hadd] at hI hX
      refine ⟨hI, (x2.mono (fun _ h => Or.inl h) fun _ h => h).trans (hX.mono ?_ ?_), ⟨?_, ?_⟩, ?_, fun h' => by rw [hc] at h'; cases h'⟩
      · intro key hk
        rw [ho] at hk; cases hk
        exact Or.inr ⟨hc, rfl⟩
      · rintro mc hk; rw [ho] at hk; cases hk
      · simp
      · exact fun hd => Nat.lt_irrefl _ (i2.dead_lt _ hd)
      · exact ⟨k, s, by simp, sh.app _, rfl, fun _ => rfl, by rw [ho, if_pos hc]⟩
  · rename_i hc
    have hc : s.cache = false := by simpa using hc
    obtain ⟨h2, k, i2, x2, rfl, rfl, g, al, ho, sh⟩ := fromFields_ok hi hf hal hle hw e
    rw [hc] at ho
    have ho : k.origin = .stmt := ho
    have hadd : h2.add k = { h2 with classes := h2.classes ++ [k] } := by
      unfold Heap.add; rw [ho]
    have hI := i2.add g al (by rw [ho]; trivial)
    have hX := ext_add (h := h2) (k := k) (by rw [ho]; trivial)
    rw [hadd] at hI hX
    refine ⟨hI, (x2.mono (fun _ h => Or.inl h) fun _ h => h).trans (hX.mono ?_ ?_), ⟨?_, ?_⟩, ?_, fun _ => x2.len⟩
    · intro key hk; rw [ho] at hk; cases hk
    · rintro mc hk; rw [ho] at hk; cases hk
    · simp
    · exact fun hd => Nat.lt_irrefl _ (i2.dead_lt _ hd)
    · exact ⟨k, s, by simp, sh.app _, rfl, fun _ => rfl, by rw [ho, hc]; rfl⟩

/-- A class statement: with fields, or without (then the class is new). -/
theorem classStmt_ok {s : Stmt} {t : Nat} (hi : h.Inv) (hal : ∀ b ∈ s.bases, h.Alive b)
    (e : classStmt E h s = .ok (h', t)) :
    ∃ m, h.winner .plain s.bases = .ok m ∧
      ((s.hasFields m = true ∧ Made h h' m s t) ∨
       (s.hasFields m = false ∧ h'.Inv ∧ Ext (fun _ => False) (fun _ => False) h h' ∧ t = h.classes.length ∧
        h'.Alive t ∧ ∃ k, h'.classes[t]? = some k ∧ k.origin = .stmt ∧ k.bases = s.bases ∧ k.mt = m)) := by
  unfold classStmt at e
  obtain ⟨m, em, e⟩ := bind_ok e
  obtain ⟨w1, w2, w3⟩ := winner_ok em
  refine ⟨m, em, ?_⟩
  split at e
  · rename_i hf
    left
    refine ⟨hf, attrNew_ok hi hf hal w2 ?_ e⟩
    rcases w3 with rfl | h'
    · simp [Stmt.hasFields] at hf
    · exact h'
  · rename_i hf
    right
    obtain ⟨fs, u, rfl, rfl, hnd, hpl, hnp⟩ := newClass_ok hi e
    have hgood : Good h.classes h.classes.length
        { mt := m, bases := s.bases, fields := fs, unbound := u, name := some s.name, body := s.body } := by
      refine good_new (k := { mt := m, bases := s.bases, name := some s.name, body := s.body }) (fs := fs) (u := u) hpl
        (fun hp => ⟨(hnp hp).2.1, fun _ => (hnp hp).2.2.1⟩) (fun b hb => (hal b hb).1) hnd w2 ?_ nofun nofun nofun nofun
      intro hp
      rcases w3 with rfl | h'
      · exact absurd rfl hp
      · exact h'
    have hI := hi.add hgood (fun b hb => (hal b hb).2) trivial
    have hX := ext_add (h := h)
      (k := { mt := m, bases := s.bases, fields := fs, unbound := u, name := some s.name, body := s.body }) trivial
    refine ⟨by simpa using hf, hI, hX.mono (by rintro _ ⟨⟩) (by rintro _ ⟨⟩), rfl, ⟨by simp, ?_⟩, _, by simp; rfl, rfl, rfl, rfl⟩
    exact fun hd => Nat.lt_irrefl _ (hi.dead_lt _ hd)

/-! ## Histories -/

theorem Inv.withRoots (hi : h.Inv) {r : List Nat} (hr : ∀ x ∈ r, h.Alive x) : ({ h with roots := r } : Heap).Inv :=
  ⟨hi.pre, hi.good, hi.sound, hi.complete, hi.msound, hi.mcomplete, hi.look, hi.subs, hr, hi.closed, hi.dead_lt⟩

theorem Inv.hold (hi : h.Inv) {t : Nat} (ht : h.Alive t) : (h.hold t).Inv := by
  apply hi.withRoots
  intro x hx
  simp only [List.mem_cons] at hx
  rcases hx with rfl | hx
  · exact ht
  · exact hi.roots x hx

theorem inv_init : init.Inv := by
  refine ⟨⟨[], rfl⟩, ?_, by simp [init], ?_, by simp [init], ?_, ?_, ?_, ?_, by simp [init], by simp [init]⟩
  · intro c k hk
    have hlt := lt_of_get hk
    have : c = 0 ∨ c = 1 ∨ c = 2 ∨ c = 3 ∨ c = 4 ∨ c = 5 ∨ c = 6 := by
      simp only [init, initClasses, List.length_cons, List.length_nil] at hlt; omega
    have hne : k.mt ≠ .plain → c < 7 ∨ ∃ b ∈ k.bases, mtOf init.classes b = k.mt := fun _ => Or.inl (by omega)
    rcases this with rfl | rfl | rfl | rfl | rfl | rfl | rfl <;>
      (simp only [init, initClasses, List.getElem?_cons_zero, List.getElem?_cons_succ, Option.some.injEq] at hk
       subst hk
       exact ⟨by simp, by simp, by decide, hne, by simp, by decide, by simp, nofun, nofun, nofun, nofun⟩)
  · intro d key _ ho
    exfalso
    have hlt := originOf_lt ho
    have : d = 0 ∨ d = 1 ∨ d = 2 ∨ d = 3 ∨ d = 4 ∨ d = 5 ∨ d = 6 := by
      simp only [init, initClasses, List.length_cons, List.length_nil] at hlt; omega
    rcases this with rfl | rfl | rfl | rfl | rfl | rfl | rfl <;> cases ho
  · intro d m c _ ho
    exfalso
    have hlt := originOf_lt ho
    have : d = 0 ∨ d = 1 ∨ d = 2 ∨ d = 3 ∨ d = 4 ∨ d = 5 ∨ d = 6 := by
      simp only [init, initClasses, List.length_cons, List.length_nil] at hlt; omega
    rcases this with rfl | rfl | rfl | rfl | rfl | rfl | rfl <;> cases ho
  · intro d m
    constructor
    · intro h; cases h
    · rintro ⟨_, c, ho⟩
      exfalso
      have hlt := originOf_lt ho
      have : d = 0 ∨ d = 1 ∨ d = 2 ∨ d = 3 ∨ d = 4 ∨ d = 5 ∨ d = 6 := by
        simp only [init, initClasses, List.length_cons, List.length_nil] at hlt; omega
      rcases this with rfl | rfl | rfl | rfl | rfl | rfl | rfl <;> cases ho
  · intro d m
    constructor
    · intro h; cases h
    · rintro ⟨_, c, ho⟩
      exfalso
      have hlt := originOf_lt ho
      have : d = 0 ∨ d = 1 ∨ d = 2 ∨ d = 3 ∨ d = 4 ∨ d = 5 ∨ d = 6 := by
        simp only [init, initClasses, List.length_cons, List.length_nil] at hlt; omega
      rcases this with rfl | rfl | rfl | rfl | rfl | rfl | rfl <;> cases ho
  · intro r hr
    simp only [init, List.mem_cons, List.not_mem_nil, or_false] at hr
    refine ⟨?_, by simp [init]⟩
    simp only [init, initClasses, List.length_cons, List.length_nil]; omega

theorem arg_idx {m : Meta} {a : Arg} {idx : Idx} (e : a.idx m = .ok idx) : m = idx.mt := by
  unfold Arg.idx at e
  split at e <;> cases e <;> rfl

theorem getitem_item {c t : Nat} {a : Arg} (hi : h.Inv) (hc : h.Alive c) (e : h.getitem E c a = .ok (h', t)) :
    ∃ idx, a.idx (h.mt c) = .ok idx ∧ h'.Inv ∧ Ext (Below (c + 1)) (fun _ => False) h h' ∧ h'.Alive t ∧
      ItemOf h'.classes t c idx := by
  unfold Heap.getitem at e
  obtain ⟨idx, e1, e⟩ := bind_ok e
  exact ⟨idx, e1, getitem_ok hi (Nat.lt_succ_self _) hc (arg_idx e1) e⟩

theorem fromFieldsCall_eq {c t : Nat} {n : Name} {f : FArg} {b : Bool}
    (e : h.fromFieldsCall E c n f b = .ok (h', t)) :
    h.classStmt E { fields := f, name := n, bases := [c], cache := b } = .ok (h', t) := by
  unfold fromFieldsCall at e
  split at e
  · cases e
  · split at e
    · cases e
    · exact e

theorem Inv.gc (hi : h.Inv) {D : List Nat} (hlt : ∀ d ∈ D, d < h.classes.length) (hroot : ∀ r ∈ h.roots, r ∉ D)
    (hcl : ∀ c k, h.classes[c]? = some k → c ∉ h.dead → c ∉ D → ∀ b ∈ k.bases, b ∉ D) :
    ({ h with
        dead := D ++ h.dead
        cache := h.cache.filter fun e => ¬ D.contains e.2
        subCache := h.subCache.filter fun e => ¬ D.contains e.2
        subs := h.subs.filter fun e => ¬ D.contains e.2
        lookup := h.lookup.filter fun e => ¬ D.contains e.1 } : Heap).Inv := by
  refine ⟨hi.pre, hi.good, fun e he => ?_, fun d key hd ho => ?_, fun e he => ?_, fun d m c hd ho => ?_,
    fun d m => ?_, fun d m => ?_, fun r hr => ?_, fun c k hc hd b hb => ?_, fun d hd => ?_⟩
  · simp only [List.mem_filter] at he
    obtain ⟨s1, s2⟩ := hi.sound e he.1
    refine ⟨?_, s2⟩
    simp only [List.mem_append, not_or]
    exact ⟨by simpa using he.2, s1⟩
  · simp only [List.mem_append, not_or] at hd
    exact find_filter_val (fun x => decide (¬ D.contains x = true)) (by simpa using hd.1) (hi.complete d key hd.2 ho)
  · simp only [List.mem_filter] at he
    obtain ⟨s1, s2⟩ := hi.msound e he.1
    refine ⟨?_, s2⟩
    simp only [List.mem_append, not_or]
    exact ⟨by simpa using he.2, s1⟩
  · simp only [List.mem_append, not_or] at hd
    exact find_filter_val (fun x => decide (¬ D.contains x = true)) (by simpa using hd.1) (hi.mcomplete d m c hd.2 ho)
  · have hk := find_filter_key (fun x => decide (¬ D.contains x = true)) d h.lookup
    dsimp only
    rw [hk]
    simp only [List.mem_append, not_or]
    by_cases hD : d ∈ D
    · simp [hD]
    · have : decide (¬ D.contains d = true) = true := by simpa using hD
      rw [if_pos this, hi.look d m]
      simp [hD]
  · dsimp only
    rw [List.mem_filter, hi.subs d m]
    simp only [List.mem_append, not_or]
    constructor
    · rintro ⟨⟨h1, h2⟩, h3⟩
      exact ⟨⟨by simpa using h3, h1⟩, h2⟩
    · rintro ⟨⟨h1, h2⟩, h3⟩
      exact ⟨⟨h2, h3⟩, by simpa using h1⟩
  · obtain ⟨r1, r2⟩ := hi.roots r hr
    refine ⟨r1, ?_⟩
    simp only [List.mem_append, not_or]
    exact ⟨hroot r hr, r2⟩
  · simp only [List.mem_append, not_or] at hd ⊢
    exact ⟨hcl c k hc hd.2 hd.1 b hb, hi.closed c k hc hd.2 b hb⟩
  · simp only [List.mem_append] at hd
    rcases hd with hd | hd
    · exact hlt d hd
    · exact hi.dead_lt d hd

/-- One step keeps the invariant and all class objects. -/
theorem Inv.step (hi : h.Inv) (hs : Step E h h') : h'.Inv ∧ ∃ M, h'.classes = h.classes ++ M := by
  cases hs with
  | @stmt h1 s t hne hal hal' e =>
    obtain ⟨m, _, ⟨_, hm⟩ | ⟨_, h1, h2, _, h3, _⟩⟩ := classStmt_ok hi hal e
    · exact ⟨hm.inv.hold hm.alive, hm.ext.classes⟩
    · exact ⟨h1.hold h3, h2.classes⟩
  | @fromFields h1 c n f b t hc hal e =>
    obtain ⟨m, _, ⟨_, hm⟩ | ⟨_, h1, h2, _, h3, _⟩⟩ := classStmt_ok hi (by simpa using hc) (fromFieldsCall_eq e)
    · exact ⟨hm.inv.hold hm.alive, hm.ext.classes⟩
    · exact ⟨h1.hold h3, h2.classes⟩
  | @getitem h1 c t a hc hal e =>
    obtain ⟨idx, _, h1, h2, h3, _⟩ := getitem_item hi hc e
    exact ⟨h1.hold h3, h2.classes⟩
  | @modify h1 m c t hc e =>
    obtain ⟨h1, h2, h3, _⟩ := applyMod_ok hi (Nat.lt_succ_self _) hc e
    exact ⟨h1.hold h3, h2.classes⟩
  | reach ht => exact ⟨hi.hold ht, [], by simp [Heap.hold]⟩
  | release hr => exact ⟨hi.withRoots fun x hx => hi.roots x (hr hx), [], by simp⟩
  | gc h1 h2 h3 => exact ⟨hi.gc h1 h2 fun c k hc hd hD => (h3 c k hc hd hD).1, [], by simp⟩

theorem Inv.steps (hi : h.Inv) (hs : Steps E h h') : h'.Inv ∧ ∃ M, h'.classes = h.classes ++ M := by
  induction hs with
  | refl => exact ⟨hi, [], by simp⟩
  | tail _ s ih =>
    obtain ⟨i1, M, hM⟩ := ih
    obtain ⟨i2, N, hN⟩ := i1.step s
    exact ⟨i2, M ++ N, by rw [hN, hM, List.append_assoc]⟩

end Heap
end HW.Adt.Cache
