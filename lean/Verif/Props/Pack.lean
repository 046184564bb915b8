import Verif.Model.Pack
import Verif.Props.BitVectorStruct
import Verif.Lemmas.Canonical
import Verif.Lemmas.CircuitFamilies

/-! # Property C133: packed records -/

namespace HW
open Spec Circuit

/-- The bits of the fields, first field first. -/
def allBits (xs : List BVal) : List Bool := (xs.map fun x => toBits x.size x.value).flatten

def widths (xs : List BVal) : List Nat := xs.map (·.size)

theorem length_allBits (xs : List BVal) : (allBits xs).length = (widths xs).sum := by
  induction xs with
  | nil => rfl
  | cons x xs ih =>
    simp only [allBits, widths, List.map_cons, List.flatten_cons, List.length_append, length_toBits, List.sum_cons] at ih ⊢
    rw [ih]

theorem BVal.eq_of_bits {x y : BVal} (hx : x.WF) (hy : y.WF) (hk : x.kind = y.kind) (hs : x.size = y.size)
    (hb : toBits x.size x.value = toBits y.size y.value) : x = y := by
  have := congrArg ofBits hb
  rw [ofBits_toBits, ofBits_toBits, hx.mod_eq, hy.mod_eq] at this
  cases x; cases y
  simp_all

theorem slice_bits (x : BVal) {a b : Nat} (hab : a ≤ b) (hb : b ≤ x.size) :
    x.getSlice ⟨some (a : Int), some (b : Int), none⟩ = .ok ⟨x.kind, b - a, (x.value / 2 ^ a) % 2 ^ (b - a)⟩ ∧
    toBits (b - a) ((x.value / 2 ^ a) % 2 ^ (b - a)) = ((toBits x.size x.value).drop a).take (b - a) := by
  refine ⟨C15_slice_arith x a b hab hb, ?_⟩
  apply List.ext_getElem?
  intro i
  rw [List.getElem?_take, List.getElem?_drop, getElem?_toBits, getElem?_toBits, ibit_emod, ibit_div]
  by_cases h : i < b - a
  · rw [if_pos h, if_pos h, if_pos (show a + i < x.size by omega)]
    simp [h]
  · rw [if_neg h, if_neg h]

/-- **C133** (layout).  Packing vectors of one class gives a vector of that class whose bits are the bits of the
fields, first field lowest. -/
theorem C133_layout {x : BVal} {xs : List BVal} (hw : ∀ y ∈ x :: xs, y.WF ∧ y.kind = x.kind) :
    ∃ p : BVal, pack concrete x xs = .ok p ∧ p.WF ∧ p.kind = x.kind ∧ p.size = (widths (x :: xs)).sum ∧
      toBits p.size p.value = allBits (x :: xs) := by
  induction xs generalizing x with
  | nil => exact ⟨x, rfl, (hw x (by simp)).1, rfl, by simp [widths], by simp [allBits]⟩
  | cons y ys ih =>
    have hx := (hw x (by simp)).1
    obtain ⟨hy, hk⟩ := hw y (by simp)
    have hc := C14_concat hx hy
    rw [if_pos (by rw [hk]; exact Kind.isSub_refl _)] at hc
    have hb := C14_bits hx hy hc
    have hzw : (⟨x.kind, x.size + y.size, x.value + y.value * 2 ^ x.size⟩ : BVal).WF := post_concat x y _ hc
    obtain ⟨p, h1, h2, h3, h4, h5⟩ := ih (x := ⟨x.kind, x.size + y.size, x.value + y.value * 2 ^ x.size⟩) (by
      intro z hz
      rcases List.mem_cons.1 hz with rfl | hz
      · exact ⟨hzw, rfl⟩
      · exact hw z (by simp [hz]))
    refine ⟨p, ?_, h2, h3, ?_, ?_⟩
    · show (x.concat y >>= fun z => pack concrete z ys) = _
      rw [hc]; exact h1
    · rw [h4]; simp [widths]; omega
    · rw [h5]
      have hb' := congrArg (List.map truthy) hb
      rw [bits_eq, bits_eq, bits_eq, ← List.map_append, map_truthy_b2i, map_truthy_b2i] at hb'
      simp only [allBits, List.map_cons, List.flatten_cons] at hb' ⊢
      rw [hb', List.append_assoc]

theorem unpack_fields {p : BVal} {k : Kind} (hk : p.kind = k) : ∀ (xs : List BVal) (off : Nat),
    (∀ y ∈ xs, y.WF ∧ y.kind = k) → off + (widths xs).sum ≤ p.size →
    ((toBits p.size p.value).drop off).take (widths xs).sum = allBits xs →
    unpack concrete p off (widths xs) = .ok xs
  | [], _, _, _, _ => rfl
  | x :: xs, off, hw, hs, hb => by
    obtain ⟨hx, hxk⟩ := hw x (by simp)
    simp only [widths, List.map_cons, List.sum_cons] at hs hb ⊢
    have hsl := slice_bits p (a := off) (b := off + x.size) (by omega) (by omega)
    rw [show off + x.size - off = x.size by omega] at hsl
    have hlen : (toBits x.size x.value).length = x.size := length_toBits _ _
    have hx' : ((toBits p.size p.value).drop off).take x.size = toBits x.size x.value := by
      have := congrArg (List.take x.size) hb
      rw [List.take_take, Nat.min_eq_left (by omega)] at this
      rw [this]
      simp only [allBits, List.map_cons, List.flatten_cons]
      rw [List.take_left' hlen]
    have hrest : ((toBits p.size p.value).drop (off + x.size)).take (widths xs).sum = allBits xs := by
      have := congrArg (List.drop x.size) hb
      rw [List.drop_take, List.drop_drop] at this
      simp only [allBits, List.map_cons, List.flatten_cons] at this ⊢
      rw [List.drop_left' hlen] at this
      rw [← this]
      congr 1
      simp only [widths]; omega
    have ih := unpack_fields hk xs (off + x.size) (fun y hy => hw y (by simp [hy])) (by simp only [widths]; omega) hrest
    have hval : (p.value / 2 ^ off) % 2 ^ x.size = x.value := by
      have := congrArg ofBits (hsl.2.trans hx')
      rwa [ofBits_toBits, ofBits_toBits, hx.mod_eq, Int.emod_emod] at this
    show (p.getSlice ⟨some (off : Int), some ((off : Int) + (x.size : Int)), none⟩ >>= fun a => _) = _
    rw [show ((off : Int) + (x.size : Int)) = ((off + x.size : Nat) : Int) by push_cast; rfl, hsl.1]
    show (unpack concrete p (off + x.size) (List.map (·.size) xs) >>= fun r => _) = _
    rw [show List.map (·.size) xs = widths xs from rfl, ih]
    show Except.ok (_ :: xs) = _
    rw [hval, hk, ← hxk]
    rfl

/-- **C133** (fields).  Slicing a packed record at the offsets of its fields returns exactly the fields. -/
theorem C133_fields {x : BVal} {xs : List BVal} (hw : ∀ y ∈ x :: xs, y.WF ∧ y.kind = x.kind) {p : BVal}
    (hp : pack concrete x xs = .ok p) : unpack concrete p 0 (widths (x :: xs)) = .ok (x :: xs) := by
  obtain ⟨q, h1, h2, h3, h4, h5⟩ := C133_layout hw
  rw [h1] at hp
  cases hp
  exact unpack_fields h3 (x :: xs) 0 hw (by omega) (by
    rw [List.drop_zero, h5, ← length_allBits, List.take_length])

theorem unpack_ok (x : BVal) : ∀ (ws : List Nat) (off : Nat), off + ws.sum ≤ x.size →
    ∃ l : List BVal, unpack concrete x off ws = .ok l ∧ widths l = ws ∧ (∀ y ∈ l, y.WF ∧ y.kind = x.kind) ∧
      allBits l = ((toBits x.size x.value).drop off).take ws.sum
  | [], _, _ => ⟨[], rfl, rfl, by simp, by simp only [List.sum_nil, List.take_zero]; rfl⟩
  | w :: ws, off, hs => by
    simp only [List.sum_cons] at hs
    obtain ⟨l, h1, h2, h3, h4⟩ := unpack_ok x ws (off + w) (by omega)
    have hsl := slice_bits x (a := off) (b := off + w) (by omega) (by omega)
    rw [show off + w - off = w by omega] at hsl
    refine ⟨⟨x.kind, w, (x.value / 2 ^ off) % 2 ^ w⟩ :: l, ?_, ?_, ?_, ?_⟩
    · show (x.getSlice ⟨some (off : Int), some ((off : Int) + (w : Int)), none⟩ >>= fun a => _) = _
      rw [show ((off : Int) + (w : Int)) = ((off + w : Nat) : Int) by push_cast; rfl, hsl.1]
      show (unpack concrete x (off + w) ws >>= fun r => _) = _
      rw [h1]; rfl
    · simp only [widths, List.map_cons] at h2 ⊢; rw [h2]
    · intro y hy
      rcases List.mem_cons.1 hy with rfl | hy
      · exact ⟨mod_WF _ _ _, rfl⟩
      · exact h3 y hy
    · simp only [allBits, List.map_cons, List.flatten_cons] at h4 ⊢
      rw [h4, hsl.2, List.sum_cons, ← List.drop_drop, ← List.take_add]

/-- **C133** (cutting up).  A vector cut into consecutive slices of any widths is their concatenation. -/
theorem C133_repack {x : BVal} (hx : x.WF) {w : Nat} {ws : List Nat} (hs : (w :: ws).sum = x.size) :
    ∃ (f : BVal) (fs : List BVal), unpack concrete x 0 (w :: ws) = .ok (f :: fs) ∧ widths (f :: fs) = w :: ws ∧ pack concrete f fs = .ok x := by
  obtain ⟨l, h1, h2, h3, h4⟩ := unpack_ok x (w :: ws) 0 (by omega)
  cases l with
  | nil => cases h2
  | cons f fs =>
    have hf := h3 f (by simp)
    obtain ⟨p, g1, g2, g3, g4, g5⟩ := C133_layout (x := f) (xs := fs) fun y hy => ⟨(h3 y hy).1, (h3 y hy).2.trans hf.2.symm⟩
    refine ⟨f, fs, h1, h2, ?_⟩
    rw [g1]
    congr 1
    refine BVal.eq_of_bits g2 hx (g3.trans hf.2) (by rw [g4, h2, hs]) ?_
    rw [g5, h4, List.drop_zero, hs]
    rw [List.take_of_length_le (by rw [length_toBits])]

/-- **C133** (field update).  Replacing the bits `lo..hi` changes those bits and no others. -/
theorem C133_update {x y : BVal} (hy : y.WF) (hk : y.kind = x.kind) {lo hi : Nat} (hlo : lo ≤ hi)
    (hhi : hi ≤ x.size) (hs : y.size = hi - lo) :
    ∃ z : BVal, update concrete x lo hi y = .ok z ∧ z.WF ∧ z.kind = x.kind ∧ z.size = x.size ∧
      ∀ k, k < x.size → ibit z.value k = if lo ≤ k ∧ k < hi then ibit y.value (k - lo) else ibit x.value k := by
  have h1 := slice_bits x (a := 0) (b := lo) (by omega) (by omega)
  have h2 := slice_bits x (a := hi) (b := x.size) (by omega) (by omega)
  rw [Nat.sub_zero] at h1
  obtain ⟨p, g1, g2, g3, g4, g5⟩ := C133_layout (x := ⟨x.kind, lo, (x.value / 2 ^ 0) % 2 ^ lo⟩)
    (xs := [y, ⟨x.kind, x.size - hi, (x.value / 2 ^ hi) % 2 ^ (x.size - hi)⟩]) (by
      intro z hz
      simp only [List.mem_cons, List.not_mem_nil, or_false] at hz
      rcases hz with rfl | rfl | rfl
      · exact ⟨mod_WF _ _ _, rfl⟩
      · exact ⟨hy, hk⟩
      · exact ⟨mod_WF _ _ _, rfl⟩)
  have hsz : p.size = x.size := by rw [g4]; simp [widths, hs]; omega
  refine ⟨p, ?_, g2, g3, hsz, fun k hkx => ?_⟩
  · show (x.getSlice ⟨some ((0 : Nat) : Int), some (lo : Int), none⟩ >>= fun a => a.concat y >>= fun b =>
      x.getSlice ⟨some (hi : Int), some (x.size : Int), none⟩ >>= fun c => b.concat c) = _
    rw [h1.1]
    show (BVal.concat _ y >>= fun b => x.getSlice ⟨some (hi : Int), some (x.size : Int), none⟩ >>= fun c => b.concat c) = _
    rw [h2.1, ← g1]
    show _ = (BVal.concat _ y >>= fun b => b.concat _ >>= fun z => Except.ok z)
    cases BVal.concat ⟨x.kind, lo, (x.value / 2 ^ 0) % 2 ^ lo⟩ y with
    | error e => rfl
    | ok b =>
      show BVal.concat _ _ = (BVal.concat _ _ >>= Except.ok)
      cases BVal.concat b _ <;> rfl
  · have := congrArg (·[k]?) g5
    simp only [getElem?_toBits, allBits, List.map_cons, List.map_nil, List.flatten_cons, List.flatten_nil, List.append_nil,
      hsz, hkx, if_true] at this
    rw [List.getElem?_append, List.getElem?_append, length_toBits, length_toBits, getElem?_toBits, getElem?_toBits,
      getElem?_toBits, ibit_emod, ibit_emod, ibit_div, ibit_div] at this
    by_cases c1 : k < lo
    · rw [if_pos c1, if_pos c1] at this
      rw [if_neg (by omega), Option.some.inj this]
      simp [c1]
    · rw [if_neg c1, hs] at this
      by_cases c2 : k < hi
      · rw [if_pos (by omega), if_pos (by omega)] at this
        rw [if_pos ⟨by omega, c2⟩, Option.some.inj this]
      · rw [if_neg (by omega), if_pos (by omega)] at this
        rw [if_neg (by omega), Option.some.inj this, show hi + (k - lo - (hi - lo)) = k by omega]
        simp only [Bool.and_eq_right_iff_imp, decide_eq_true_eq]
        omega

/-! ## The symbolic families -/

namespace Circuit.Sim

variable {F G : Family} {E : PyErr → PyErr → Prop} {RV : F.V → G.V → Prop} {RB : F.B → G.B → Prop}

theorem pack_rel (H : Sim F G E RV RB) {xs : List F.V} {ys : List G.V} (hs : List.Forall₂ RV xs ys) :
    ∀ {x : F.V} {y : G.V}, RV x y → RelP E RV (pack F x xs) (pack G y ys) := by
  induction hs with
  | nil => intro x y h; exact h
  | cons hr _ ih =>
    intro x y h
    exact RelP.bind (H.concat h hr) fun a b hab => ih hab

theorem unpack_rel (H : Sim F G E RV RB) {x : F.V} {y : G.V} (h : RV x y) : ∀ (ws : List Nat) (off : Nat),
    (∀ w ∈ ws, 0 < w) → off + ws.sum ≤ G.size y →
    RelP E (List.Forall₂ RV) (unpack F x off ws) (unpack G y off ws)
  | [], _, _, _ => .nil
  | w :: ws, off, hw, hs => by
    have h0 := hw w (by simp)
    simp only [List.sum_cons] at hs
    refine RelP.bind (H.slice h (by omega) (by omega) (by omega)) fun a b hab => ?_
    exact RelP.bind (unpack_rel H h ws (off + w) (fun v hv => hw v (by simp [hv])) (by omega))
      fun l m hlm => .cons hab hlm

theorem update_rel (H : Sim F G E RV RB) {x x' : F.V} {y y' : G.V} (h : RV x y) (h' : RV x' y') {lo hi : Nat}
    (h0 : 0 < lo) (hlo : lo ≤ hi) (hhi : hi < G.size y) : RelP E RV (update F x lo hi x') (update G y lo hi y') := by
  refine RelP.bind (H.slice h (by omega) (by omega) (by omega)) fun a b hab => ?_
  refine RelP.bind (H.concat hab h') fun c d hcd => ?_
  rw [H.size h]
  exact RelP.bind (H.slice h (by omega) (by omega) (by omega)) fun e f hef => H.concat hcd hef

end Circuit.Sim

/-- A family whose vectors stand for (non-empty) concrete ones packs and unpacks as the concrete one does. -/
theorem Circuit.Sim.roundtrip {F : Family} {E : PyErr → PyErr → Prop} {RV : F.V → BVal → Prop} {RB : F.B → Bool → Prop}
    (H : Sim F concrete E RV RB) (hpos : ∀ s x, RV s x → x.WF ∧ 0 < x.size) {s : F.V} {ss : List F.V} {x : BVal}
    {xs : List BVal} (hs : RV s x) (hss : List.Forall₂ RV ss xs) (hk : ∀ y ∈ xs, y.kind = x.kind) :
    ∃ (P : F.V) (p : BVal) (rs : List F.V), pack F s ss = .ok P ∧ pack concrete x xs = .ok p ∧ RV P p ∧
      unpack F P 0 (widths (x :: xs)) = .ok rs ∧ List.Forall₂ RV rs (x :: xs) := by
  have hall : ∀ y ∈ x :: xs, y.WF ∧ 0 < y.size := by
    intro y hyx
    rcases List.mem_cons.1 hyx with rfl | hy
    · exact hpos s _ hs
    · clear hk hyx
      revert hy
      induction hss with
      | nil => exact fun h => (List.not_mem_nil h).elim
      | cons hr _ ih =>
        intro hy
        rcases List.mem_cons.1 hy with rfl | hy
        · exact hpos _ _ hr
        · exact ih hy
  have hw : ∀ y ∈ x :: xs, y.WF ∧ y.kind = x.kind := by
    intro y hy
    refine ⟨(hall y hy).1, ?_⟩
    rcases List.mem_cons.1 hy with rfl | hy
    · rfl
    · exact hk y hy
  obtain ⟨p, h1, h2, h3, h4, h5⟩ := C133_layout hw
  obtain ⟨P, g1, g2⟩ := RelP.ok_right (H.pack_rel (ys := xs) hss (y := x) hs) h1
  obtain ⟨rs, r1, r2⟩ := RelP.ok_right (H.unpack_rel (y := p) g2 (widths (x :: xs)) 0 (by
    intro w hw'
    obtain ⟨y, hy, rfl⟩ := List.mem_map.1 hw'
    exact (hall y hy).2) (by rw [Nat.zero_add]; exact h4.ge)) (C133_fields hw h1)
  exact ⟨P, p, rs, g1, h1, g2, r1, r2⟩

/-- **C133** (pysmt).  Symbolic fields that stand for `x, xs` under an assignment pack to a vector that stands for the
packed record, and unpack to vectors that stand for the same fields. -/
theorem C133_smt (S : Smt.Simplifier) (e : Smt.Env) {s : Smt.SBV} {ss : List Smt.SBV} {x : BVal} {xs : List BVal}
    (hs : SVec e s x) (hss : List.Forall₂ (SVec e) ss xs) (hk : ∀ y ∈ xs, y.kind = x.kind) :
    ∃ (P : Smt.SBV) (p : BVal) (rs : List Smt.SBV), pack (smt S) s ss = .ok P ∧ pack concrete x xs = .ok p ∧ SVec e P p ∧
      unpack (smt S) P 0 (widths (x :: xs)) = .ok rs ∧ List.Forall₂ (SVec e) rs (x :: xs) :=
  (smt_sim e S).roundtrip (fun _ _ h => ⟨h.1.WF, by rw [h.1.2.1]; exact h.2.2⟩) hs hss hk

/-- **C133** (z3). -/
theorem C133_z3 (e : Z3.Env) {s : Z3.ZBV} {ss : List Z3.ZBV} {x : BVal} {xs : List BVal}
    (hs : Z3.Den e s x) (hss : List.Forall₂ (Z3.Den e) ss xs) (hk : ∀ y ∈ xs, y.kind = x.kind) :
    ∃ (P : Z3.ZBV) (p : BVal) (rs : List Z3.ZBV), pack z3 s ss = .ok P ∧ pack concrete x xs = .ok p ∧ Z3.Den e P p ∧
      unpack z3 P 0 (widths (x :: xs)) = .ok rs ∧ List.Forall₂ (Z3.Den e) rs (x :: xs) :=
  (z3_sim e).roundtrip (fun _ _ h => ⟨h.WF, by rw [h.2.1]; exact h.2.2.1⟩) hs hss hk

/-- **C133** (field update, both symbolic families): the updated vector stands for the updated one. -/
theorem C133_update_symbolic {x y : BVal} (hk : y.kind = x.kind) {lo hi : Nat} (h0 : 0 < lo) (hlo : lo ≤ hi)
    (hhi : hi < x.size) (hs : y.size = hi - lo) :
    (∀ (S : Smt.Simplifier) (e : Smt.Env) (s t : Smt.SBV), SVec e s x → SVec e t y →
      ∃ (r : Smt.SBV) (z : BVal), update (smt S) s lo hi t = .ok r ∧ update concrete x lo hi y = .ok z ∧ SVec e r z) ∧
    (∀ (e : Z3.Env) (s t : Z3.ZBV), Z3.Den e s x → Z3.Den e t y →
      ∃ (r : Z3.ZBV) (z : BVal), update z3 s lo hi t = .ok r ∧ update concrete x lo hi y = .ok z ∧ Z3.Den e r z) := by
  constructor
  · intro S e s t hs1 ht
    obtain ⟨z, hz, _⟩ := C133_update (x := x) ht.1.WF hk hlo (by omega) hs
    obtain ⟨r, hr, hd⟩ := RelP.ok_right ((smt_sim e S).update_rel hs1 ht h0 hlo hhi) hz
    exact ⟨r, z, hr, hz, hd⟩
  · intro e s t hs1 ht
    obtain ⟨z, hz, _⟩ := C133_update (x := x) ht.WF hk hlo (by omega) hs
    obtain ⟨r, hr, hd⟩ := RelP.ok_right ((z3_sim e).update_rel hs1 ht h0 hlo hhi) hz
    exact ⟨r, z, hr, hz, hd⟩

/-- The fields must be of one class: after a signed field, a plain one is refused, and after a plain field a signed
one comes back as a plain one, so that a comparison made after unpacking is the unsigned one. -/
theorem C133_mixed_refuted :
    (pack concrete (⟨.root .sint, 2, 1⟩ : BVal) [⟨.root .bv, 2, 1⟩] = .error .typeError) ∧
    ∃ p : BVal, pack concrete (⟨.root .bv, 2, 1⟩ : BVal) [⟨.root .sint, 2, 3⟩] = .ok p ∧
      unpack concrete p 0 [2, 2] = .ok [⟨.root .bv, 2, 1⟩, ⟨.root .bv, 2, 3⟩] :=
  ⟨rfl, ⟨.root .bv, 4, 13⟩, rfl, rfl⟩

/-! ### Examples -/

example := C133_layout (x := ⟨.root .bv, 3, 5⟩) (xs := [⟨.root .bv, 0, 0⟩, ⟨.root .bv, 4, 9⟩])
  (by intro y hy; simp at hy; rcases hy with rfl | rfl | rfl <;> exact ⟨by decide, rfl⟩)
example : pack concrete (⟨.root .bv, 3, 5⟩ : BVal) [⟨.root .bv, 1, 0⟩, ⟨.root .bv, 4, 9⟩] = .ok ⟨.root .bv, 8, 149⟩ := by rfl
example := C133_repack (x := ⟨.root .uint, 8, 149⟩) (by decide) (w := 3) (ws := [1, 4]) rfl
example : unpack concrete (⟨.root .uint, 8, 149⟩ : BVal) 0 [3, 1, 4] =
    .ok [⟨.root .uint, 3, 5⟩, ⟨.root .uint, 1, 0⟩, ⟨.root .uint, 4, 9⟩] := by rfl
example := C133_update (x := ⟨.root .bv, 8, 149⟩) (y := ⟨.root .bv, 2, 3⟩) (by decide) rfl (lo := 3) (hi := 5) (by decide)
  (by decide) rfl
example : update concrete (⟨.root .bv, 8, 149⟩ : BVal) 3 5 ⟨.root .bv, 2, 3⟩ = .ok ⟨.root .bv, 8, 157⟩ := by rfl

/-- A record of two symbolic fields. -/
example (S : Smt.Simplifier) (e : Smt.Env) : ∃ x y : BVal,
    SVec e ⟨.root .bv, 4, .sym ['a'] (.bv 4)⟩ x ∧ SVec e ⟨.root .bv, 2, .sym ['b'] (.bv 2)⟩ y ∧
    ∃ P p rs, pack (smt S) ⟨.root .bv, 4, .sym ['a'] (.bv 4)⟩ [⟨.root .bv, 2, .sym ['b'] (.bv 2)⟩] = .ok P ∧
      pack concrete x [y] = .ok p ∧ SVec e P p ∧ unpack (smt S) P 0 [4, 2] = .ok rs ∧ List.Forall₂ (SVec e) rs [x, y] := by
  have hx : SVec e ⟨.root .bv, 4, .sym ['a'] (.bv 4)⟩ ⟨.root .bv, 4, (e.bv ['a'] 4).toNat⟩ :=
    ⟨⟨rfl, rfl, _, rfl, rfl⟩, ⟨_, rfl⟩, by decide⟩
  have hy : SVec e ⟨.root .bv, 2, .sym ['b'] (.bv 2)⟩ ⟨.root .bv, 2, (e.bv ['b'] 2).toNat⟩ :=
    ⟨⟨rfl, rfl, _, rfl, rfl⟩, ⟨_, rfl⟩, by decide⟩
  exact ⟨_, _, hx, hy, C133_smt S e hx (.cons hy .nil) (fun y h => by rw [List.mem_singleton.1 h])⟩

end HW
