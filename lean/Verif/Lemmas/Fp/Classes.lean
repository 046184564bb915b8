import Mathlib.Logic.Encodable.Basic
import Verif.Lemmas.ClassHeap
import Verif.Model.Fp.Classes

/-! # The class heap of floating-point vectors simulates that of bit vectors, with bindings numbered -/

namespace HW.FpCls
open HW.Fp (Mode)

def modeIdx : Mode → Nat
  | .RNE => 0 | .RNA => 1 | .RTP => 2 | .RTN => 3 | .RTZ => 4

/-- A number for each binding. -/
def enc (k : Key) : Int := (Encodable.encode (k.eb, k.mb, modeIdx k.mode, k.ieee) : Nat)

theorem enc_inj {k k' : Key} : enc k = enc k' ↔ k = k' := by
  constructor
  · intro h0
    have h := Encodable.encode_injective (Int.ofNat_inj.1 h0)
    clear h0
    obtain ⟨a, b, m, i⟩ := k
    obtain ⟨a', b', m', i'⟩ := k'
    simp only [Prod.mk.injEq] at h
    obtain ⟨rfl, rfl, hm, rfl⟩ := h
    have : m = m' := by cases m <;> cases m' <;> first | rfl | exact absurd hm (by decide)
    rw [this]
  · rintro rfl; rfl

theorem enc_nonneg (k : Key) : 0 ≤ enc k := Int.natCast_nonneg _

def Class.enc (c : Class) : Cls.Class := ⟨c.isFp, c.bases, c.unbound, c.binding.map FpCls.enc⟩

def Heap.enc (h : Heap) : Cls.Heap :=
  ⟨h.classes.map Class.enc, h.dead, h.cache.map fun e => ((e.1.1, FpCls.enc e.1.2), e.2), h.roots⟩

theorem Class.enc_inj {a b : Class} (h : a.enc = b.enc) : a = b := by
  obtain ⟨a1, a2, a3, a4⟩ := a
  obtain ⟨b1, b2, b3, b4⟩ := b
  simp only [Class.enc, Cls.Class.mk.injEq] at h
  obtain ⟨rfl, rfl, rfl, h⟩ := h
  have : a4 = b4 := Option.map_injective (fun _ _ => FpCls.enc_inj.1) h
  rw [this]

theorem Heap.enc_inj {a b : Heap} (h : a.enc = b.enc) : a = b := by
  obtain ⟨a1, a2, a3, a4⟩ := a
  obtain ⟨b1, b2, b3, b4⟩ := b
  simp only [Heap.enc, Cls.Heap.mk.injEq] at h
  obtain ⟨h1, rfl, h3, rfl⟩ := h
  have e1 : a1 = b1 := List.map_injective_iff.2 (fun _ _ => Class.enc_inj) h1
  have e3 : a3 = b3 := by
    refine List.map_injective_iff.2 ?_ h3
    rintro ⟨⟨x, k⟩, d⟩ ⟨⟨x', k'⟩, d'⟩ e
    simp only [Prod.mk.injEq] at e
    obtain ⟨⟨rfl, e⟩, rfl⟩ := e
    rw [FpCls.enc_inj.1 e]
  rw [e1, e3]

namespace Heap

theorem getElem_enc (h : Heap) (c : Nat) : h.enc.classes[c]? = h.classes[c]?.map Class.enc := by
  simp [Heap.enc]

theorem isVec_enc (h : Heap) (c : Nat) : h.enc.isVec c = h.isFp c := by
  unfold Cls.Heap.isVec isFp
  rw [getElem_enc]
  cases h.classes[c]? <;> rfl

theorem size_enc (h : Heap) (c : Nat) : h.enc.size c = (h.binding c).map FpCls.enc := by
  unfold Cls.Heap.size binding
  rw [getElem_enc]
  cases h.classes[c]? with
  | none => rfl
  | some k => obtain ⟨v, b, u, s⟩ := k; cases v <;> rfl

theorem bases_enc (h : Heap) (c : Nat) : h.enc.bases c = h.bases c := by
  unfold Cls.Heap.bases bases
  rw [getElem_enc]
  cases h.classes[c]? <;> rfl

theorem unsizedT_enc (h : Heap) (c : Nat) : h.enc.unsizedT c = h.unboundT c := by
  unfold Cls.Heap.unsizedT unboundT
  rw [getElem_enc]
  cases h.classes[c]? with
  | none => rfl
  | some k => rfl

theorem alive_enc (h : Heap) (c : Nat) : h.enc.Alive c ↔ h.Alive c := by
  simp [Cls.Heap.Alive, Alive, Heap.enc]

theorem sub_enc {h : Heap} {c d : Nat} : h.enc.Sub c d ↔ h.Sub c d := by
  constructor
  · intro hs
    induction hs with
    | refl => exact .refl _
    | step hb _ ih => exact .step (by rwa [bases_enc] at hb) ih
  · intro hs
    induction hs with
    | refl => exact .refl _
    | step hb _ ih => exact .step (by rwa [bases_enc]) ih

theorem lookup_enc (h : Heap) (c : Nat) (k : Key) : h.enc.lookup c (FpCls.enc k) = h.lookup c k := by
  unfold Cls.Heap.lookup lookup
  simp only [Heap.enc]
  induction h.cache with
  | nil => rfl
  | cons e l ih =>
    obtain ⟨⟨a, k'⟩, d⟩ := e
    simp only [List.map_cons, List.find?_cons]
    by_cases he : (a, k') = (c, k)
    · injection he with h1 h2
      subst h1; subst h2
      simp
    · have he' : ((a, FpCls.enc k') : Nat × Int) ≠ (c, FpCls.enc k) := by
        intro h
        injection h with h1 h2
        exact he (by rw [h1, FpCls.enc_inj.1 h2])
      rw [beq_false_of_ne he, beq_false_of_ne he']
      exact ih

theorem sizeLoop_enc (h : Heap) : ∀ (b : Option Key) (cs : List Nat),
    h.enc.sizeLoop (b.map FpCls.enc) cs = (h.bindLoop b cs).map (·.map FpCls.enc)
  | b, [] => rfl
  | b, c :: cs => by
      unfold Cls.Heap.sizeLoop bindLoop
      rw [size_enc]
      cases h.binding c with
      | none => exact sizeLoop_enc h b cs
      | some n =>
        cases b with
        | none => exact sizeLoop_enc h (some n) cs
        | some m =>
          have hm : (FpCls.enc m ≠ FpCls.enc n) ↔ (m ≠ n) := not_congr FpCls.enc_inj
          simp only [Option.map_some]
          by_cases e : m ≠ n
          · rw [if_pos e, if_pos (hm.2 e)]; rfl
          · rw [if_neg e, if_neg (fun h => e (hm.1 h))]; exact sizeLoop_enc h (some m) cs

theorem newVec_enc (h : Heap) (bs : List Nat) (u : Option Nat) (b : Option Key) :
    h.enc.newVec bs (u, b.map FpCls.enc) = (h.newFp bs (u, b)).map fun r => (r.1.enc, r.2) := by
  unfold Cls.Heap.newVec newFp
  rw [sizeLoop_enc]
  cases h.bindLoop b bs with
  | error e => rfl
  | ok r => cases r <;> simp [Except.map, bind, Except.bind, pure, Except.pure, Heap.enc, Class.enc]

theorem mapBases_enc {f : Heap → Nat → PyM (Heap × Nat)} {g : Cls.Heap → Nat → PyM (Cls.Heap × Nat)}
    (hfg : ∀ h b, g (Heap.enc h) b = (f h b).map fun r => (r.1.enc, r.2)) : ∀ (l : List Nat) (h : Heap),
    Cls.Heap.mapBases g h.enc l = (mapBases f h l).map fun r => (r.1.enc, r.2)
  | [], _ => rfl
  | b :: bs, h => by
      unfold Cls.Heap.mapBases mapBases
      rw [hfg]
      cases f h b with
      | error e => rfl
      | ok r =>
        obtain ⟨h1, d⟩ := r
        simp only [Except.map, bind, Except.bind]
        rw [mapBases_enc hfg bs h1]
        cases mapBases f h1 bs with
        | error e => rfl
        | ok r => rfl

/-- On proper indices the two metaclasses do the same. -/
theorem getitemF_enc {k : Key} (hk : ¬ (k.eb ≤ 0 ∨ k.mb ≤ 0)) : ∀ (fuel : Nat) (h : Heap) (c : Nat),
    Cls.Heap.getitemF fuel h.enc c (.int (FpCls.enc k)) = (getitemF fuel h c (.key k)).map fun r => (r.1.enc, r.2)
  | 0, _, _ => rfl
  | fuel + 1, h, c => by
      unfold Cls.Heap.getitemF getitemF
      simp only [Cls.Heap.lookupIdx, Cls.Index.key?, lookupIdx, Index.key?]
      rw [lookup_enc]
      cases h.lookup c k with
      | some d => rfl
      | none =>
        simp only [size_enc, Option.isSome_map]
        rw [if_neg (not_lt.2 (enc_nonneg k)), if_neg hk]
        split
        · rfl
        · rw [bases_enc, show h.enc.isVec = h.isFp from funext (isVec_enc h),
            mapBases_enc (fun h b => getitemF_enc hk fuel h b)]
          cases mapBases (fun h b => getitemF fuel h b (.key k)) h ((h.bases c).filter h.isFp) with
          | error e => rfl
          | ok r =>
            obtain ⟨h1, bs⟩ := r
            simp only [Except.map, bind, Except.bind]
            rw [show some (FpCls.enc k) = (some k).map FpCls.enc from rfl, newVec_enc]
            cases h1.newFp (c :: bs) (some c, some k) with
            | error e => rfl
            | ok r => rfl

/-- The index of the simulated step. -/
def _root_.HW.FpCls.Index.enc : Index → Cls.Index
  | .key k => .int (FpCls.enc k)
  | .eqKey k => .eqInt (FpCls.enc k)
  | .other => .other

theorem getitem_enc {h h' : Heap} {c t : Nat} {idx : Index} (hg : h.getitem c idx = .ok (h', t)) :
    h.enc.getitem c idx.enc = .ok (h'.enc, t) := by
  cases idx with
  | other =>
    unfold getitem getitemF at hg
    simp only [lookupIdx, Index.key?] at hg
    split at hg <;> cases hg
  | eqKey k =>
    unfold getitem getitemF at hg
    simp only [lookupIdx, Index.key?] at hg
    unfold Cls.Heap.getitem Cls.Heap.getitemF
    simp only [Cls.Heap.lookupIdx, Cls.Index.key?, Index.enc, lookup_enc]
    cases hl : h.lookup c k with
    | none => rw [hl] at hg; dsimp only at hg; split at hg <;> cases hg
    | some d => rw [hl] at hg; dsimp only at hg; cases hg; rfl
  | key k =>
    by_cases hk : k.eb ≤ 0 ∨ k.mb ≤ 0
    · unfold getitem getitemF at hg
      simp only [lookupIdx, Index.key?] at hg
      unfold Cls.Heap.getitem Cls.Heap.getitemF
      simp only [Cls.Heap.lookupIdx, Cls.Index.key?, Index.enc, lookup_enc]
      cases hl : h.lookup c k with
      | none => rw [hl] at hg; dsimp only at hg; rw [if_pos hk] at hg; split at hg <;> cases hg
      | some d => rw [hl] at hg; dsimp only at hg; cases hg; rfl
    · have := getitemF_enc hk (c + 1) h c
      unfold Cls.Heap.getitem Index.enc
      unfold getitem at hg
      dsimp only
      rw [this, hg]
      rfl

theorem getitem_dec {h : Heap} {k : Key} (hk : 0 < k.eb ∧ 0 < k.mb) {c t : Nat} {g : Cls.Heap}
    (hg : h.enc.getitem c (.int (FpCls.enc k)) = .ok (g, t)) :
    ∃ h', g = h'.enc ∧ h.getitem c (.key k) = .ok (h', t) := by
  have := getitemF_enc (k := k) (by omega) (c + 1) h c
  unfold Cls.Heap.getitem at hg
  rw [this] at hg
  unfold getitem
  cases e : getitemF (c + 1) h c (.key k) with
  | error x => rw [e] at hg; cases hg
  | ok r => rw [e] at hg; obtain ⟨h', t'⟩ := r; cases hg; exact ⟨h', rfl, rfl⟩

theorem binding_of_size {h : Heap} {c : Nat} {k : Key} (e : h.enc.size c = some (FpCls.enc k)) : h.binding c = some k := by
  rw [size_enc] at e
  cases hb : h.binding c with
  | none => rw [hb] at e; cases e
  | some k' => rw [hb] at e; injection e with e; rw [FpCls.enc_inj.1 e]

theorem step_enc {a b : Heap} (hs : Step a b) : Cls.Heap.Step a.enc b.enc := by
  cases hs with
  | @fp h' bases t hb hn =>
    have := newVec_enc a bases none none
    rw [hn] at this
    exact Cls.Heap.Step.vec (h' := h'.enc) (t := t) (fun b hm => (alive_enc a b).2 (hb b hm)) this
  | @plain bases hb =>
    have := Cls.Heap.Step.plain (h := a.enc) (bases := bases)
      (fun b hm => ⟨(alive_enc a b).2 (hb b hm).1, by rw [isVec_enc]; exact (hb b hm).2⟩)
    convert this using 1
    simp [Heap.enc, newPlain, Cls.Heap.newPlain, Class.enc]
  | @getitem h' c t idx ha hv hg =>
    exact Cls.Heap.Step.getitem (h' := h'.enc) ((alive_enc a c).2 ha) (by rw [isVec_enc]; exact hv) (getitem_enc hg)
  | @release r hr => exact Cls.Heap.Step.release (h := a.enc) hr
  | @gc D h1 h2 h3 =>
    have := Cls.Heap.Step.gc (h := a.enc) (D := D) (by simpa [Heap.enc] using h1) h2 (by
      intro c k hk
      rw [getElem_enc] at hk
      cases hc : a.classes[c]? with
      | none => rw [hc] at hk; cases hk
      | some k' =>
        rw [hc] at hk
        injection hk with hk
        subst hk
        exact h3 c k' hc)
    convert this using 1
    simp only [Heap.enc, List.filter_map]
    rfl

theorem steps_enc {a b : Heap} (hs : Steps a b) : Cls.Heap.Steps a.enc b.enc := by
  induction hs with
  | refl => exact .refl _
  | tail _ h ih => exact .tail ih (step_enc h)

/-- Every binding in the heap has positive sizes. -/
def Pos (h : Heap) : Prop := ∀ c ∈ h.classes, ∀ k, c.binding = some k → 0 < k.eb ∧ 0 < k.mb

theorem Pos.binding {h : Heap} (hp : h.Pos) {c : Nat} {k : Key} (e : h.binding c = some k) : 0 < k.eb ∧ 0 < k.mb := by
  unfold Heap.binding at e
  split at e
  · rename_i cl hc
    split at e
    · exact hp cl (List.mem_of_getElem? hc) k e
    · cases e
  · cases e

theorem Pos.bindLoop {h : Heap} (hp : h.Pos) : ∀ (cs : List Nat) (b r : Option Key),
    (∀ k, b = some k → 0 < k.eb ∧ 0 < k.mb) → h.bindLoop b cs = .ok r → ∀ k, r = some k → 0 < k.eb ∧ 0 < k.mb
  | [], b, r, hb, e => by cases e; exact hb
  | c :: cs, b, r, hb, e => by
      unfold Heap.bindLoop at e
      cases hc : h.binding c with
      | none => rw [hc] at e; exact hp.bindLoop cs b r hb e
      | some n =>
        rw [hc] at e
        cases b with
        | none => exact hp.bindLoop cs (some n) r (fun k hk => by cases hk; exact hp.binding hc) e
        | some m =>
          dsimp only at e
          split at e
          · cases e
          · exact hp.bindLoop cs (some m) r hb e

theorem Pos.newFp {h h' : Heap} (hp : h.Pos) {bs : List Nat} {i : Option Nat × Option Key} {t : Nat}
    (hi : ∀ k, i.2 = some k → 0 < k.eb ∧ 0 < k.mb) (e : h.newFp bs i = .ok (h', t)) : h'.Pos := by
  unfold Heap.newFp at e
  cases hl : h.bindLoop i.2 bs with
  | error x => rw [hl] at e; cases e
  | ok r =>
    rw [hl] at e
    cases e
    intro c hc k hk
    simp only [List.mem_append, List.mem_singleton] at hc
    rcases hc with hc | rfl
    · exact hp c hc k hk
    · exact hp.bindLoop bs i.2 r hi hl k hk

theorem Pos.mapBases {f : Heap → Nat → PyM (Heap × Nat)}
    (hf : ∀ h b h' t, Heap.Pos h → f h b = .ok (h', t) → Heap.Pos h') : ∀ (l : List Nat) (h h' : Heap) (ts : List Nat),
    h.Pos → Heap.mapBases f h l = .ok (h', ts) → h'.Pos
  | [], h, h', ts, hp, e => by cases e; exact hp
  | b :: bs, h, h', ts, hp, e => by
      unfold Heap.mapBases at e
      cases h1 : f h b with
      | error x => rw [h1] at e; cases e
      | ok r =>
        obtain ⟨g, d⟩ := r
        rw [h1] at e
        simp only [bind, Except.bind] at e
        cases h2 : Heap.mapBases f g bs with
        | error x => rw [h2] at e; cases e
        | ok r =>
          obtain ⟨g', ds⟩ := r
          rw [h2] at e
          cases e
          exact Pos.mapBases hf bs g _ ds (hf h b g d hp h1) h2

theorem Pos.getitemF : ∀ (fuel : Nat) (h : Heap) (c : Nat) (idx : Index) (h' : Heap) (t : Nat), h.Pos →
    Heap.getitemF fuel h c idx = .ok (h', t) → h'.Pos
  | 0, _, _, _, _, _, _, e => by cases e
  | fuel + 1, h, c, idx, h', t, hp, e => by
      unfold Heap.getitemF at e
      split at e
      · cases e; exact hp
      · split at e
        · cases e
        · cases idx with
          | eqKey k => cases e
          | other => cases e
          | key k =>
            dsimp only at e
            split at e
            · cases e
            · rename_i hk
              cases h1 : Heap.mapBases (fun h b => Heap.getitemF fuel h b (.key k)) h ((h.bases c).filter h.isFp) with
              | error x => rw [h1] at e; cases e
              | ok r =>
                obtain ⟨g, bs⟩ := r
                rw [h1] at e
                simp only [bind, Except.bind] at e
                have hg := Pos.mapBases (fun h b h' t => Pos.getitemF fuel h b (.key k) h' t) _ _ _ _ hp h1
                cases h2 : g.newFp (c :: bs) (some c, some k) with
                | error x => rw [h2] at e; cases e
                | ok r =>
                  obtain ⟨g', d⟩ := r
                  rw [h2] at e
                  cases e
                  have := hg.newFp (i := (some c, some k)) (fun k' hk' => by cases hk'; exact ⟨by omega, by omega⟩) h2
                  exact this

theorem Pos.step {h h' : Heap} (hp : h.Pos) (hs : Step h h') : h'.Pos := by
  cases hs with
  | fp _ e =>
    have := hp.newFp (i := (none, none)) (fun k hk => by cases hk) e
    exact this
  | plain _ =>
    intro c hc k hk
    simp only [newPlain, List.mem_append, List.mem_singleton] at hc
    rcases hc with hc | rfl
    · exact hp c hc k hk
    · cases hk
  | getitem _ _ e =>
    have := Pos.getitemF _ _ _ _ _ _ hp e
    exact this
  | release _ => exact hp
  | gc _ _ _ => exact hp

theorem Pos.steps {a b : Heap} (hp : a.Pos) (hs : Steps a b) : b.Pos := by
  induction hs with
  | refl => exact hp
  | tail _ s ih => exact Pos.step ih s

theorem pos_steps {h : Heap} (hs : Steps init h) : h.Pos :=
  Pos.steps (a := init) (fun _ hc => nomatch hc) hs

end Heap
end HW.FpCls
