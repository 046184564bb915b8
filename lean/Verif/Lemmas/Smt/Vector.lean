import Verif.Spec.Smt
import Verif.Lemmas.Smt.Term
import Verif.Props.BitVectorStruct
import Mathlib.Data.List.Forall2

/-! The symbolic operations and the concrete ones. -/

namespace HW.Smt
open HW.Spec

variable {e : Env} {S : Simplifier}

theorem RelM.bind {α β α' β' : Type} {R : α → β → Prop} {R' : α' → β' → Prop} {m : PyM α} {M : PyM β}
    {f : α → PyM α'} {F : β → PyM β'} (h : RelM R m M) (hf : ∀ a b, R a b → RelM R' (f a) (F b)) :
    RelM R' (m >>= f) (M >>= F) := by
  cases m <;> cases M <;> simp only [RelM] at h
  · subst h; rfl
  · exact hf _ _ h

theorem RelM.mono {α β : Type} {R R' : α → β → Prop} {m : PyM α} {M : PyM β}
    (h : RelM R m M) (hf : ∀ a b, R a b → R' a b) : RelM R' m M := by
  cases m <;> cases M <;> simp only [RelM] at h ⊢
  · exact h
  · exact hf _ _ h

theorem SKind.At.base : ∀ {k : SKind} {K : Kind}, k.At e K → K.base = k.base
  | .root _, _, h => by cases h; rfl
  | .poly _ t f _, _, h => by
    obtain ⟨T, F, b, ht, hf, _, rfl⟩ := h
    simp [Kind.base, SKind.base, ht.base, hf.base]

theorem SKind.At.unique : ∀ {k : SKind} {K K' : Kind}, k.At e K → k.At e K' → K = K'
  | .root _, _, _, h, h' => by cases h; cases h'; rfl
  | .poly _ t f _, _, _, h, h' => by
    obtain ⟨T, F, b, ht, hf, hb, rfl⟩ := h
    obtain ⟨T', F', b', ht', hf', hb', rfl⟩ := h'
    rw [hb] at hb'; cases hb'
    rw [ht.unique ht', hf.unique hf']

theorem SKind.isSub_refl (k : SKind) : k.isSub k = true := by
  cases k <;> simp [SKind.isSub, Root.isSub_refl, SKind.base]

theorem bvF_den {k : SKind} {K : Kind} {n : Nat} {t : Term} {b : BitVec n} (hk : k.At e K)
    (h : t.eval e = some (.bv n b)) :
    ∃ s, bvF S k n t = .ok s ∧ s.size = n ∧ s.kind = k ∧ Den e s ⟨K, n, toI b⟩ := by
  refine ⟨⟨k, n, S.run t⟩, by simp [bvF, eval_ty h, Val.ty], rfl, rfl, hk, rfl, b, S.eval _ _ _ h, rfl⟩

theorem bvF_rel {k : SKind} {K : Kind} {n : Nat} {t : Term} {b : BitVec n} {v : Int} (hk : k.At e K)
    (h : t.eval e = some (.bv n b)) (hv : toI b = v) : RelM (Den e) (bvF S k n t) (.ok ⟨K, n, v⟩) := by
  obtain ⟨s, h1, _, _, h2⟩ := bvF_den (S := S) hk h
  rw [h1]; subst hv; exact h2

theorem bitF_rel {t : Term} {b : Bool} (h : t.eval e = some (.bool b)) :
    RelM (DenBit e) (bitF S t) (.ok b) := by
  simp [bitF, eval_ty h, Val.ty, RelM, DenBit, S.eval _ _ _ h]

theorem Den.WF {x : SBV} {X : BVal} (h : Den e x X) : X.WF := by
  obtain ⟨_, h2, b, _, h4⟩ := h
  unfold BVal.WF
  rw [h4, h2]
  exact toI_bounds b

/-- Explicit form of `Den`. -/
theorem Den.cases {x : SBV} {X : BVal} (h : Den e x X) :
    ∃ k K n t b, x = ⟨k, n, t⟩ ∧ X = ⟨K, n, toI b⟩ ∧ k.At e K ∧ t.eval e = some (.bv n b) := by
  obtain ⟨k, n, t⟩ := x
  obtain ⟨K, N, v⟩ := X
  obtain ⟨h1, h2, b, h3, h4⟩ := h
  dsimp only at *
  subst h2
  exact ⟨k, K, N, t, b, rfl, by rw [h4]; rfl, h1, h3⟩

theorem mkBV_ok {v : Int} {n : Nat} (h0 : 0 ≤ v) (h1 : v < 2 ^ n) :
    ∃ t, mkBV v n = .ok t ∧ ∀ e, ∃ b : BitVec n, t.eval e = some (.bv n b) ∧ toI b = v := by
  have hv : (v.toNat : Int) = v := Int.toNat_of_nonneg h0
  have hlt : v.toNat < 2 ^ n := by
    have : (v.toNat : Int) < ((2 ^ n : Nat) : Int) := by rw [hv]; exact_mod_cast h1
    exact_mod_cast this
  refine ⟨.bvC v.toNat n, by rw [mkBV, if_neg (by omega), if_neg (by omega)], fun e => ⟨BitVec.ofNat n v.toNat, ?_, ?_⟩⟩
  · simp [Term.eval, hlt]
  · rw [toI_ofNat hlt, hv]

/-- `T[n](int)` with a value in range. -/
theorem mkInt_rel {k : SKind} {K : Kind} {n : Nat} {v : Int} (hk : k.At e K) (h0 : 0 ≤ v) (h1 : v < 2 ^ n) :
    RelM (Den e) (do bvF S k n (← mkBV v n)) (.ok ⟨K, n, v⟩) := by
  obtain ⟨t, ht, hev⟩ := mkBV_ok h0 h1
  obtain ⟨b, hb, hv⟩ := hev e
  simp only [ht, bind, Except.bind]
  exact bvF_rel hk hb hv

theorem iteBit_rel {k : SKind} {K : Kind} {n : Nat} {t : Term} {c : Bool} (hn : 0 < n) (hk : k.At e K)
    (h : DenBit e t c) :
    RelM (Den e) (do bvF S k n (← node (.ite t (← mkBV 1 n) (← mkBV 0 n)))) (.ok ⟨K, n, b2i c⟩) := by
  have hp : (1 : Int) < 2 ^ n := by
    have : (2 : Int) ^ 1 ≤ 2 ^ n := pow_le_pow_right₀ (by omega) hn
    omega
  obtain ⟨t1, ht1, hev1⟩ := mkBV_ok (n := n) (v := 1) (by omega) hp
  obtain ⟨t0, ht0, hev0⟩ := mkBV_ok (n := n) (v := 0) (by omega) (by omega)
  obtain ⟨b1, hb1, hv1⟩ := hev1 e
  obtain ⟨b0, hb0, hv0⟩ := hev0 e
  have hev : (Term.ite t t1 t0).eval e = some (.bv n (if c then b1 else b0)) := by
    have hc : t.eval e = some (.bool c) := h
    cases c <;> simp [Term.eval, hc, hb1, hb0, Val.ty]
  simp only [ht1, ht0, bind, Except.bind, node_ok hev]
  apply bvF_rel hk hev
  cases c <;> simp [hv1, hv0, b2i]

theorem concat_rel' {k : SKind} {x y : SBV} {X Y : BVal} (hx : Den e x X) (hy : Den e y Y)
    (hk : x.kind = k) (hk' : y.kind.isSub k = true) :
    RelM (fun s V => Den e s V ∧ s.kind = k ∧ s.size = x.size + y.size) (x.concat S y)
      (.ok ⟨X.kind, X.size + Y.size, X.value + Y.value * 2 ^ X.size⟩) := by
  obtain ⟨k, K, n, t, b, rfl, rfl, hkK, ht⟩ := hx.cases
  obtain ⟨k', K', m, u, c, rfl, rfl, hkK', hu⟩ := hy.cases
  dsimp only at hk hk' ⊢
  subst hk
  have hev : (Term.bin .bvconcat u t).eval e = some (.bv (m + n) (c ++ b)) := by
    simp [Term.eval, ht, hu, BOp.eval]
  have hev' : (Term.bin .bvconcat u t).eval e = some (.bv (n + m) ((c ++ b).cast (Nat.add_comm m n))) := by
    rw [hev]
    have : ∀ {w w' : Nat} (h : w = w') (v : BitVec w), some (Val.bv w v) = some (Val.bv w' (v.cast h)) := by
      intro w w' h v; subst h; rfl
    exact this _ _
  obtain ⟨s, h1, h2, h3, h4⟩ := bvF_den (S := S) hkK hev'
  simp only [SBV.concat, hk', not_true, if_false, bind, Except.bind, node_ok hev, h1, RelM]
  refine ⟨?_, h3, h2⟩
  have : toI ((c ++ b).cast (Nat.add_comm m n)) = toI b + toI c * 2 ^ n := by
    unfold toI
    rw [BitVec.toNat_cast, BitVec.toNat_append, Nat.shiftLeft_eq, Nat.or_comm, ]
    have h1 := pyOr_add (x := (b.toNat : Int)) (y := (c.toNat : Int)) (n := n) (by omega) (by exact_mod_cast b.isLt)
    have h2 : ((c.toNat : Int) * 2 ^ n) = ((c.toNat * 2 ^ n : Nat) : Int) := by push_cast; rfl
    rw [h2] at h1 ⊢
    rw [← h1]
    apply ibit_ext; intro i
    rw [ibit_pyOr]
    simp only [← Int.ofNat_eq_natCast, ibit_ofNat, Nat.testBit_or]
  rw [this] at h4
  exact h4

theorem mkElem_rel {k : SKind} {K : Kind} {el : SElem} {c : Bool} (hk : k.At e K) (h : DenElem e el c)
    (hf : ∀ v, el = .int v → v = 0 ∨ v = 1) :
    RelM (fun s V => Den e s V ∧ s.kind = k ∧ s.size = 1) (mkElem S k el) (.ok ⟨K, 1, b2i c⟩) := by
  have key : ∀ m : PyM SBV, RelM (Den e) m (.ok ⟨K, 1, b2i c⟩) → (∀ s, m = .ok s → s.kind = k ∧ s.size = 1) →
      RelM (fun s V => Den e s V ∧ s.kind = k ∧ s.size = 1) m (.ok ⟨K, 1, b2i c⟩) := by
    intro m h h'
    cases m with
    | error => exact h
    | ok s => exact ⟨h, h' s rfl⟩
  have hbv : ∀ t s, bvF S k 1 t = .ok s → s.kind = k ∧ s.size = 1 := by
    intro t s h; unfold bvF at h; split at h <;> cases h; exact ⟨rfl, rfl⟩
  cases h with
  | bit h =>
    apply key
    · have := iteBit_rel (S := S) (n := 1) (by omega) hk h
      simpa [mkElem, mkBV, bind, Except.bind] using this
    · intro s hs
      simp only [mkElem, bind, Except.bind] at hs
      split at hs
      · cases hs
      · exact hbv _ _ hs
  | bool =>
    apply key
    · simp only [mkElem]
      rw [Int.emod_eq_of_lt (by cases c <;> simp [b2i]) (by cases c <;> simp [b2i])]
      exact mkInt_rel hk (by cases c <;> simp [b2i]) (by cases c <;> simp [b2i])
    · intro s hs
      simp only [mkElem, bind, Except.bind] at hs
      split at hs
      · cases hs
      · exact hbv _ _ hs
  | @int v =>
    apply key
    · simp only [mkElem]
      rcases hf v rfl with rfl | rfl
      · exact mkInt_rel hk (by simp) (by simp)
      · exact mkInt_rel hk (by simp) (by simp)
    · intro s hs
      simp only [mkElem, bind, Except.bind] at hs
      split at hs
      · cases hs
      · exact hbv _ _ hs

theorem concatElems_rel {k : SKind} {K : Kind} (hk : k.At e K) : ∀ {l : List SElem} {L : List Bool},
    List.Forall₂ (DenElem e) l L → (∀ v, SElem.int v ∈ l → v = 0 ∨ v = 1) →
    ∀ {x : SBV} {m : Nat} {v : Int}, Den e x ⟨K, m, v⟩ → x.kind = k →
    RelM (Den e) (concatElems S k x l) (.ok ⟨K, m + L.length, v + ofBits L * 2 ^ m⟩)
  | [], [], _, _, x, m, v, hx, _ => by simpa [concatElems, RelM, ofBits] using hx
  | el :: l, c :: L, .cons h1 h2, hf, x, m, v, hx, hxk => by
    have he := mkElem_rel (S := S) hk h1 (fun v hv => hf v (by simp [hv]))
    rw [concatElems]
    cases hm : mkElem S k el with
    | error => rw [hm] at he; exact he.elim
    | ok y =>
      rw [hm] at he
      obtain ⟨hy, hyk, hys⟩ := he
      have hc := concat_rel' (S := S) hx hy hxk (by rw [hyk]; exact SKind.isSub_refl _)
      simp only [bind, Except.bind]
      cases hcc : x.concat S y with
      | error => rw [hcc] at hc; exact hc.elim
      | ok z =>
        rw [hcc] at hc
        obtain ⟨hz, hzk, hzs⟩ := hc
        have := concatElems_rel hk h2 (fun v hv => hf v (by simp [hv])) hz hzk
        simp only [List.length_cons, ofBits]
        have e1 : m + (L.length + 1) = m + 1 + L.length := by omega
        have e2 : v + ((if c then 1 else 0) + 2 * ofBits L) * 2 ^ m = v + b2i c * 2 ^ m + ofBits L * 2 ^ (m + 1) := by
          rw [Int.pow_succ, b2i]; ring
        dsimp only at this
        convert this using 3

theorem bvF_ty {k : SKind} {n : Nat} {t : Term} {s : SBV} (h : bvF S k n t = .ok s) :
    s.kind = k ∧ s.size = n := by
  unfold bvF at h; split at h <;> cases h; exact ⟨rfl, rfl⟩

theorem RelM.ok_right {α β : Type} {R : α → β → Prop} {m : PyM α} {b : β} (h : RelM R m (.ok b)) :
    ∃ a, m = .ok a ∧ R a b := by
  cases m with
  | error => exact h.elim
  | ok a => exact ⟨a, rfl, h⟩

theorem seq_rel {k : SKind} {K : Kind} {l : List SElem} {L : List Bool} (hk : k.At e K)
    (h : List.Forall₂ (DenElem e) l L) (hl : 0 < l.length) (hf : ∀ v, SElem.int v ∈ l → v = 0 ∨ v = 1) :
    RelM (Den e) (mkSBV S k l.length (.seq l)) (.ok ⟨K, L.length, ofBits L⟩) := by
  cases h with
  | nil => simp at hl
  | @cons el c l L h1 h2 =>
    obtain ⟨x, hx, hxd, hxk, hxs⟩ := (mkElem_rel (S := S) hk h1 (fun v hv => hf v (by simp [hv]))).ok_right
    obtain ⟨y, hy, hyd⟩ := (concatElems_rel (S := S) hk h2 (fun v hv => hf v (by simp [hv])) hxd hxk).ok_right
    have hlen := h2.length_eq
    simp only [mkSBV, ne_eq, not_true, if_false, hx, hy, bind, Except.bind]
    obtain ⟨_, h2', b, h3, h4⟩ := hyd
    dsimp only at h2' h4
    have e1 : y.size = (el :: l).length := by simp; omega
    have e2 : (c :: L).length = (el :: l).length := by simp [hlen]
    rw [e2]
    have hb : y.term.eval e = some (.bv (el :: l).length (e1 ▸ b)) := by
      rw [h3]
      have : ∀ {w w' : Nat} (h : w = w') (v : BitVec w), some (Val.bv w v) = some (Val.bv w' (h ▸ v)) := by
        intro w w' h v; subst h; rfl
      exact this _ _
    refine bvF_rel hk hb ?_
    rw [toI_cast]
    unfold toI
    rw [← h4]
    simp only [ofBits, b2i]; ring

/-! ### slices, indices, extension -/

theorem zext_rel {x : SBV} {X : BVal} (h : Den e x X) (k : Int) :
    RelM (fun s V => Den e s V ∧ s.kind = x.kind) (x.zext S k) (X.zext k) := by
  rw [C17_zext h.WF]
  unfold SBV.zext
  split
  · rfl
  · obtain ⟨kk, K, n, t, b, rfl, rfl, hkK, ht⟩ := h.cases
    have hev : (Term.un (.zext k.toNat) t).eval e = some (.bv (n + k.toNat) (b.zeroExtend _)) := by
      simp [Term.eval, ht, UOp.eval]
    obtain ⟨s, h1, h2, h3, h4⟩ := bvF_den (S := S) hkK hev
    simp only [node_ok hev, bind, Except.bind, h1, RelM]
    refine ⟨?_, h3⟩
    have : toI (b.zeroExtend (n + k.toNat)) = toI b := by
      unfold toI
      rw [BitVec.toNat_setWidth, Nat.mod_eq_of_lt]
      exact lt_of_lt_of_le b.isLt (Nat.pow_le_pow_right (by omega) (by omega))
    rwa [this] at h4

/-- Bounds as the symbolic `__getitem__` normalises them. -/
def normStart (n : Nat) (s : Option Int) : Int :=
  match s with
  | none => 0
  | some b => if b < 0 then n + b else b
def normStop (n : Nat) (s : Option Int) : Int :=
  min (match s with | none => (n : Int) | some b => if b < 0 then n + b else b) n

theorem toI_extract {n lo hi : Nat} (b : BitVec n) :
    toI (b.extractLsb hi lo) = (toI b / 2 ^ lo) % 2 ^ (hi - lo + 1) := by
  unfold toI
  rw [BitVec.extractLsb, BitVec.extractLsb'_toNat, Nat.shiftRight_eq_div_pow]
  push_cast; rfl

theorem getSlice_concrete (X : BVal) (sa sb : Option Int) (h0 : 0 ≤ normStart X.size sa)
    (h1 : normStart X.size sa < normStop X.size sb) :
    X.getSlice ⟨sa, sb, none⟩ = .ok ⟨X.kind, (normStop X.size sb - normStart X.size sa).toNat,
      (X.value / 2 ^ (normStart X.size sa).toNat) % 2 ^ (normStop X.size sb - normStart X.size sa).toNat⟩ := by
  have hb : normStop X.size sb ≤ X.size := by unfold normStop; omega
  obtain ⟨a, ha⟩ : ∃ a : Nat, normStart X.size sa = a := ⟨_, (Int.toNat_of_nonneg h0).symm⟩
  obtain ⟨c, hc⟩ : ∃ c : Nat, normStop X.size sb = c := ⟨_, (Int.toNat_of_nonneg (by omega)).symm⟩
  have key := C15_slice_arith X a c (by omega) (by omega)
  have hl := length_toBits X.size X.value
  rw [getSlice_eq, pySliceList_step1] at key ⊢
  rw [hl] at key ⊢
  have e1 : (sa.map (slicePos X.size)).getD 0 = a := by
    cases sa with
    | none => simp [normStart] at ha ⊢; omega
    | some v => simp only [normStart] at ha h0; simp only [Option.map_some, Option.getD_some, slicePos]; split <;> simp_all
  have e2 : ((toBits X.size X.value).take ((sb.map (slicePos X.size)).getD X.size)) =
      (toBits X.size X.value).take c := by
    cases sb with
    | none => simp [normStop] at hc; simp [hc]
    | some v =>
      simp only [normStop] at hc
      simp only [Option.map_some, Option.getD_some, slicePos]
      by_cases hv : v < 0
      · simp only [hv, if_true] at hc ⊢; congr 1; omega
      · simp only [hv, if_false] at hc ⊢
        by_cases hvn : v ≤ X.size
        · congr 1; omega
        · rw [List.take_of_length_le (by omega), List.take_of_length_le (by omega)]
  rw [e1, e2]
  have e3 : ((normStop X.size sb - normStart X.size sa).toNat) = c - a := by omega
  have e4 : (normStart X.size sa).toNat = a := by omega
  rw [e3, e4]
  have e5 (m : Nat) : slicePos X.size (m : Int) = m := by simp [slicePos]
  simpa only [Option.map_some, Option.getD_some, e5] using key

theorem sgetSlice_def (x : SBV) (sa sb : Option Int) :
    x.getSlice S ⟨sa, sb, none⟩ = (bvExtract x.term (normStart x.size sa) (normStop x.size sb - 1) >>= fun v =>
      match v.ty? with
      | some (.bv w) => bvF S x.kind w v
      | _ => .error .typeError) := by
  cases sa <;> cases sb <;> rfl

theorem slice_term {k : SKind} {K : Kind} {n : Nat} {t : Term} {b : BitVec n} (hk : k.At e K)
    (ht : t.eval e = some (.bv n b)) (sa sb : Option Int) (h0 : 0 ≤ normStart n sa)
    (h1 : normStart n sa < normStop n sb) :
    ∃ s, SBV.getSlice S ⟨k, n, t⟩ ⟨sa, sb, none⟩ = .ok s ∧ s.kind = k ∧
      Den e s ⟨K, (normStop n sb - normStart n sa).toNat,
        (toI b / 2 ^ (normStart n sa).toNat) % 2 ^ (normStop n sb - normStart n sa).toNat⟩ := by
  have hb : normStop n sb ≤ n := by unfold normStop; omega
  rw [sgetSlice_def]
  have hlo : (normStart n sa).toNat ≤ (normStop n sb - 1).toNat := by omega
  have hhi : (normStop n sb - 1).toNat < n := by omega
  have hx : bvExtract t (normStart n sa) (normStop n sb - 1) =
      .ok (.un (.extract (normStart n sa).toNat (normStop n sb - 1).toNat) t) := by
    simp only [bvExtract, eval_ty ht, Val.ty]
    rw [if_pos (by omega)]
  have hev : (Term.un (.extract (normStart n sa).toNat (normStop n sb - 1).toNat) t).eval e =
      some (.bv _ (b.extractLsb (normStop n sb - 1).toNat (normStart n sa).toNat)) := by
    rw [Term.eval, ht, Option.bind_some, UOp.eval, if_pos ⟨hlo, hhi⟩]
  simp only [hx, bind, Except.bind, eval_ty hev, Val.ty]
  obtain ⟨s, g1, g2, g3, g4⟩ := bvF_den (S := S) hk hev
  refine ⟨s, g1, g3, ?_⟩
  rw [toI_extract] at g4
  have e3 : (normStop n sb - 1).toNat - (normStart n sa).toNat + 1 = (normStop n sb - normStart n sa).toNat := by
    omega
  rwa [e3] at g4

theorem getSlice_rel {x : SBV} {X : BVal} (h : Den e x X) (sa sb : Option Int) :
    if 0 ≤ normStart x.size sa ∧ normStart x.size sa < normStop x.size sb then
      RelM (fun s V => Den e s V ∧ s.kind = x.kind) (x.getSlice S ⟨sa, sb, none⟩) (X.getSlice ⟨sa, sb, none⟩)
    else x.getSlice S ⟨sa, sb, none⟩ = .error .assertionError := by
  obtain ⟨k, K, n, t, b, rfl, rfl, hkK, ht⟩ := h.cases
  dsimp only
  split
  · rename_i hc
    rw [getSlice_concrete _ _ _ hc.1 hc.2]
    obtain ⟨s, h1, h2, h3⟩ := slice_term (S := S) hkK ht sa sb hc.1 hc.2
    rw [h1]; exact ⟨h3, h2⟩
  · rename_i hc
    rw [sgetSlice_def]
    have : bvExtract t (normStart n sa) (normStop n sb - 1) = .error .assertionError := by
      simp only [bvExtract, eval_ty ht, Val.ty]
      rw [if_neg (by omega)]
    simp [this, bind, Except.bind]

theorem getIdx_rel {x : SBV} {X : BVal} (h : Den e x X) (i : Int) :
    RelM (DenBit e) (x.getIdx S i) (X.getIdx i) := by
  obtain ⟨k, K, n, t, b, rfl, rfl, hkK, ht⟩ := h.cases
  unfold SBV.getIdx
  rw [getIdx_eq]
  dsimp only
  generalize hj : (if i < 0 then (n : Int) + i else i) = j
  by_cases hr : 0 ≤ j ∧ j < n
  · have hp : pyIndex? n i = some j.toNat := by
      unfold pyIndex?; split at hj
      · rw [if_neg (by omega), if_pos (by omega)]; congr 1; omega
      · rw [if_pos (by omega)]; congr 1; omega
    rw [hp]
    have hx : bvExtract t j j = .ok (.un (.extract j.toNat j.toNat) t) := by
      simp only [bvExtract, eval_ty ht, Val.ty]
      rw [if_pos (by omega)]
    have hlt : j.toNat < n := by omega
    have hev : (Term.bin .equals (.un (.extract j.toNat j.toNat) t) (.bvC 1 1)).eval e =
        some (.bool (ibit (toI b) j.toNat)) := by
      have h1 : (Term.un (.extract j.toNat j.toNat) t).eval e = some (.bv (j.toNat - j.toNat + 1) (b.extractLsb j.toNat j.toNat)) := by
        simp [Term.eval, ht, UOp.eval, hlt]
      have h2 : (Term.bvC 1 1).eval e = some (.bv 1 (1#1)) := by simp [Term.eval]
      have h3 : (some (Val.bv (j.toNat - j.toNat + 1) (b.extractLsb j.toNat j.toNat)) : Option Val) =
          some (.bv 1 ((b.extractLsb j.toNat j.toNat).cast (by simp))) := by
        have : ∀ {w w' : Nat} (h : w = w') (v : BitVec w), some (Val.bv w v) = some (Val.bv w' (v.cast h)) := by
          intro w w' h v; subst h; rfl
        exact this _ _
      rw [h3] at h1
      rw [Term.eval, h1, h2, Option.bind_some, Option.bind_some]
      simp only [BOp.eval, BOp.bv?, BOp.rel?, reduceCtorEq, if_false, dite_true, Option.some.injEq, Val.bool.injEq]
      have hA : toI ((b.extractLsb j.toNat j.toNat).cast (by simp) : BitVec 1) = (toI b / 2 ^ j.toNat) % 2 := by
        have := toI_extract (lo := j.toNat) (hi := j.toNat) b
        simpa [toI] using this
      rw [Bool.eq_iff_iff, beq_iff_eq, ← toI_inj, hA, ibit, decide_eq_true_eq]
      rfl
    simp only [hr, and_self, not_true, if_false, hx, bind, Except.bind, node_ok hev]
    exact bitF_rel hev
  · have hp : pyIndex? n i = none := by
      unfold pyIndex?; split at hj
      · rw [if_neg (by omega), if_neg (by omega)]
      · rw [if_neg (by omega), if_neg (by omega)]
    rw [hp]
    simp [hr, RelM]

end HW.Smt
