import Verif.Lemmas.Smt.Fp

/-!
# C99-C106: `SMTFPVector`

Every method is an uninterpreted function, so what a solver can say is what holds in *every* interpretation.
The properties are about what that means for the concrete class `FPVector`, whose methods are one of the
interpretations.
-/

namespace HW.SmtFp
open HW.Fp
open HW.Smt (Name split_last)

/-- An IEEE format of 5 bits and another one. -/
def f22 : Fmt := ⟨2, 2, .RNE, true⟩
def f31 : Fmt := ⟨3, 1, .RNE, true⟩

/-- A constant object. -/
def konst (c : Cls) (n : Nat) : SFP := ⟨c, ⟨c.fmt.size, fun _ => BitVec.ofNat _ n⟩⟩

/-! ### C99 The concrete methods are an interpretation of the symbolic ones -/

/-- For any classes whose formats are determined by their names there is one interpretation of all function
symbols in which every method call that returns reads as the concrete one, which returns too. -/
theorem C99_sound (N : Name → Fmt) (o : Fmt → Meth → Mpfr → List Mpfr → Bool) (vars : Name → (w : Nat) → BitVec w) :
    ∃ e : Interp, e.bv = vars ∧
      (∀ (x : SFP) (ys : List SFP) (v : Mpfr) (ws : List Mpfr) (m : Meth) (s : SRes),
        N x.cls.name = x.cls.fmt → x.cls.fmt.Ok → 2 ≤ x.cls.fmt.eb → (∀ y ∈ ys, y.cls = x.cls) →
        x.cls.fmt.Object v → (∀ w ∈ ws, x.cls.fmt.Object w) → Reads e x v → List.Forall₂ (Reads e) ys ws →
        call m x (ys.map .fp) = .ok s →
        ∃ r, concrete m x.cls.fmt (o x.cls.fmt m v ws) v ws = .ok r ∧ ReadsRes e x.cls s r) ∧
      (∀ (x : SFP) (v : Mpfr) (size : Nat) (b : BVal), N x.cls.name = x.cls.fmt → Reads e x v →
        toUBV v size = .ok b →
        ∃ t : Tm, x.toUbv size = .ok t ∧ t.w = b.size ∧ ((t.den e).toNat : Int) = b.value) :=
  ⟨⟨vars, interpUF N o⟩, rfl, fun _ _ _ _ _ _ hN hf h2 hys hv hws hx hy hs => call_sound hN hf h2 hys hv hws hx hy hs,
    fun _ _ _ _ hN hx hr => toUbv_reads hN hx hr⟩

/-- All classes `SMTFPVector[eb, mb, mode, ieee]` at once: their names determine them. -/
theorem C99_std (o : Fmt → Meth → Mpfr → List Mpfr → Bool) (vars : Name → (w : Nat) → BitVec w) :
    ∃ e : Interp, e.bv = vars ∧
      ∀ (f : Fmt) (x : SFP) (ys : List SFP) (v : Mpfr) (ws : List Mpfr) (m : Meth) (s : SRes),
        f.Ok → 2 ≤ f.eb → x.cls = std f → (∀ y ∈ ys, y.cls = std f) →
        f.Object v → (∀ w ∈ ws, f.Object w) → Reads e x v → List.Forall₂ (Reads e) ys ws →
        call m x (ys.map .fp) = .ok s →
        ∃ r, concrete m f (o f m v ws) v ws = .ok r ∧ ReadsRes e (std f) s r := by
  classical
  let N : Name → Fmt := fun n => if h : ∃ f, stdName f = n then h.choose else f22
  have hN : ∀ f, N (std f).name = f := fun f => by
    have h : ∃ g, stdName g = (std f).name := ⟨f, rfl⟩
    simp only [N, dif_pos h]
    exact stdName_inj h.choose_spec
  obtain ⟨e, he, h, -⟩ := C99_sound N o vars
  refine ⟨e, he, fun f x ys v ws m s hf h2 hx hys hv hws hr hrs hs => ?_⟩
  have := h x ys v ws m s (by rw [hx]; exact hN f) (by rw [hx]; exact hf) (by rw [hx]; exact h2)
    (by rw [hx]; exact hys) (by rw [hx]; exact hv) (by rw [hx]; exact hws) hr hrs hs
  rw [hx] at this
  exact this

/-- Two classes of one name and one width share their function symbols: no interpretation fits both.
(`class F(SMTFPVector[2, 2, RNE, True])` in one module, `class F(SMTFPVector[3, 1, RNE, True])` in another.) -/
theorem C99_same_name (n : Name) :
    ¬ ∃ e : Interp, ∀ (f : Fmt) (x : SFP) (v : Mpfr) (s : SRes), f = f22 ∨ f = f31 → x.cls = ⟨n, f⟩ → f.Object v →
        Reads e x v → call .isInfinite x [] = .ok s →
        ∃ r, concrete .isInfinite f false v [] = .ok r ∧ ReadsRes e ⟨n, f⟩ s r := by
  rintro ⟨e, h⟩
  have d1 : f22.fromBV ⟨.root .bv, 5, 12⟩ = .ok (.inf false) := by decide +kernel
  have d2 : f31.fromBV ⟨.root .bv, 5, 12⟩ = .ok (.fin false 2 2) := by decide +kernel
  obtain ⟨r, hr, hb⟩ := h f22 (konst ⟨n, f22⟩ 12) (.inf false) _ (.inl rfl) rfl (.bits (by decide) d1) ⟨rfl, d1⟩ rfl
  obtain ⟨r', hr', hb'⟩ := h f31 (konst ⟨n, f31⟩ 12) (.fin false 2 2) _ (.inr rfl) rfl (.bits (by decide) d2) ⟨rfl, d2⟩ rfl
  cases hr
  cases hr'
  exact absurd (hb.symm.trans hb') (by decide)

/-- Non-triviality: constants read as the concrete objects of their patterns, and `x + y` is a call that
returns. -/
example (e : Interp) : Reads e (konst (std f22) 5) (.fin false 5 (-2)) ∧
    ∃ s, call .add (konst (std f22) 5) [.fp (konst (std f22) 4)] = .ok s :=
  ⟨⟨rfl, by
    show f22.fromBV ⟨.root .bv, 5, 5⟩ = .ok (.fin false 5 (-2))
    decide +kernel⟩, _, rfl⟩

/-! ### C100 What a solver proves holds of the concrete class -/

/-- If a formula over named symbolic vectors is built without an exception and holds in every interpretation,
then in the concrete class it evaluates to true for all objects, whatever the signs of NaN results. -/
theorem C100_valid {f : Fmt} (hf : f.Ok) (h2 : 2 ≤ f.eb) {n : Nat → Name} (hn : n.Injective) (p : Fm) {b : BTm}
    (h : p.sym (fun i => named (std f) (n i)) = .ok b) (hvalid : ∀ e, b e = true)
    (o : Meth → Mpfr → List Mpfr → Bool) {vs : Nat → Mpfr} (hv : ∀ i, f.Object (vs i)) :
    p.conc f o vs = .ok true := by
  classical
  choose k hk _ hb using fun i => asBV_reads hf h2 (hv i)
  let bv : Name → (w : Nat) → BitVec w := fun m w => if h : ∃ i, n i = m then BitVec.ofNat w (k h.choose) else 0
  have hbv : ∀ i, bv (n i) f.size = BitVec.ofNat _ (k i) := fun i => by
    have h : ∃ j, n j = n i := ⟨i, rfl⟩
    simp only [bv, dif_pos h]
    rw [hn h.choose_spec]
  have hr : ∀ i, Reads ⟨bv, interpUF (fun _ => f) (fun _ => o)⟩ (named (std f) (n i)) (vs i) := fun i => by
    refine ⟨rfl, ?_⟩
    simp only [named, std]
    rw [hbv, BitVec.toNat_ofNat, Nat.mod_eq_of_lt (hk i)]
    exact hb i
  have := p.sound (c := std f) (o := fun _ => o) rfl hf h2 (fun _ => rfl) hv hr h
  rwa [hvalid] at this

/-- `~(x < y) | (x < y)` and a formula with arithmetic are built without an exception. -/
example : ∃ b, (Fm.or (.not (.rel .lt (.var 0) (.app2 .add (.var 0) (.var 1))))
    (.rel .lt (.var 0) (.app2 .add (.var 0) (.var 1)))).sym (fun i => named (std f22) (Nat.toDigits 10 i)) = .ok b ∧
    ∀ e, b e = true :=
  ⟨_, rfl, fun e => by simp only [Bool.not_or_self]⟩

/-! ### C101 Every method of the interface can be called -/

/-- Every method but `fp_min` and `fp_max` returns for operands of the class: a vector of the class, or a bit. -/
theorem C101_returns_partial {m : Meth} (h1 : m ≠ .min) (h2 : m ≠ .max) {x : SFP} {ys : List SFP}
    (hl : ys.length = m.arity) (hx : x.val.w = x.cls.fmt.size)
    (hy : ∀ y ∈ ys, y.cls = x.cls ∧ y.val.w = y.cls.fmt.size) :
    (∃ z : SFP, call m x (ys.map .fp) = .ok (.fp z) ∧ z.cls = x.cls ∧ z.val.w = z.cls.fmt.size ∧ m.sig.2 = false) ∨
    (∃ b, call m x (ys.map .fp) = .ok (.bit b) ∧ m.sig.2 = true) := by
  have hca := checkArgs_ok (f := x.cls.fmt) (xs := x :: ys) (k := m.sig.1) (by rw [sig_arity h1 h2, ← hl]; rfl)
    (fun y hy' => by
      rcases List.mem_cons.1 hy' with rfl | hy'
      · exact hx
      · rw [(hy y hy').2, (hy y hy').1])
  rw [call_eq hl]
  cases hk : m.sig.2 with
  | false =>
    refine .inl ⟨⟨x.cls, ⟨x.cls.fmt.size, fun e => BitVec.ofNat _ (e.uf (x.cls.sym m.name)
      (nums e ((x :: ys).map SFP.val)))⟩⟩, ?_, rfl, rfl, rfl⟩
    rw [if_neg (by simp), fpMethod, Cls.symTy, hca]
    simp only [bind, Except.bind, mkF, if_true]; rfl
  | true => exact .inr ⟨_, by rw [if_pos rfl, bitMethod, Cls.symTy, hca]; rfl, rfl⟩

/-- `fp_min` and `fp_max` raise for every operand: their symbols have one parameter and get two. -/
theorem C101_minmax_refuted (x : SFP) (y : SArg) :
    (∃ err, x.fpMin y = .error err) ∧ (∃ err, x.fpMax y = .error err) ∧
    (∀ z : SFP, x.fpMin (.fp z) = .error .valueError ∧ x.fpMax (.fp z) = .error .valueError) := by
  refine ⟨?_, ?_, fun z => ⟨rfl, rfl⟩⟩ <;> cases y <;> exact ⟨_, rfl⟩

/-- `to_sbv` raises `KeyError` for every vector and size; `to_ubv` returns a vector of the size. -/
theorem C101_to_sbv_refuted (x : SFP) (hx : x.val.w = x.cls.fmt.size) (n : Nat) :
    x.toSbv n = .error .keyError ∧ ∃ t : Tm, x.toUbv n = .ok t ∧ t.w = n := by
  refine ⟨by rw [SFP.toSbv, SFP.toVec, if_neg (by decide)], ?_⟩
  have hca := checkArgs_ok (f := x.cls.fmt) (xs := [x]) (k := 1) rfl (by simpa using hx)
  exact ⟨_, by rw [SFP.toUbv, SFP.toVec, if_pos (by decide)]; erw [hca]; rfl, rfl⟩

example : ∃ z, call .fma (konst (std f22) 5) [.fp (konst (std f22) 4), .fp (konst (std f22) 1)] = .ok (.fp z) := ⟨_, rfl⟩

/-! ### C102 The relations between the operators -/

/-- `x != y` is the negation of `x == y` and raises when that does. -/
theorem C102_ne_partial (x : SFP) (y : SArg) :
    (∀ b, call .eq x [y] = .ok (.bit b) → ∃ b', x.ne y = .ok b' ∧ ∀ e, b' e = !b e) ∧
    (∀ err, call .eq x [y] = .error err → x.ne y = .error err) := by
  simp only [call, SFP.ne]
  cases hq : x.fpEq y with
  | error err => exact ⟨fun b h => (by cases h), fun _ h => (by cases h; rfl)⟩
  | ok b => exact ⟨fun b' h => (by cases h; exact ⟨_, rfl, fun _ => rfl⟩), fun _ h => (by cases h)⟩

/-- Equal operands give equal results: of one class, with the same bits in an interpretation. -/
theorem C102_congruence_partial {m : Meth} {x x' : SFP} {ys ys' : List SFP} {e : Interp} (hc : x.cls = x'.cls)
    (hx : (x.val.den e).toNat = (x'.val.den e).toNat)
    (hy : List.Forall₂ (fun y y' : SFP => (y.val.den e).toNat = (y'.val.den e).toNat) ys ys') :
    (∀ b b', call m x (ys.map .fp) = .ok (.bit b) → call m x' (ys'.map .fp) = .ok (.bit b') → b e = b' e) ∧
    (∀ z z', call m x (ys.map .fp) = .ok (.fp z) → call m x' (ys'.map .fp) = .ok (.fp z') →
      z.cls = z'.cls ∧ (z.val.den e).toNat = (z'.val.den e).toNat) := by
  have hn : nums e ((x :: ys).map SFP.val) = nums e ((x' :: ys').map SFP.val) := by
    simp only [nums, List.map_map, List.map_cons, Function.comp_def, hx, List.cons.injEq, true_and]
    induction hy with
    | nil => rfl
    | cons h _ ih => simp only [List.map_cons, h, ih]
  have key : ∀ {params : List Nat} {zs : List SFP} {l : List Tm},
      checkArgs params (zs.map fun y => some y.val) = .ok l → l = zs.map SFP.val := by
    intro params zs l h
    unfold checkArgs at h
    split at h
    · cases h
    split at h
    · cases h
    cases h
    clear * -
    induction zs with
    | nil => rfl
    | cons z zs ih => simp
  constructor
  · intro b b' h h'
    have hl := (call_ok h).1
    have hl' := (call_ok h').1
    rw [List.length_map] at hl hl'
    rw [call_eq hl] at h
    rw [call_eq hl'] at h'
    cases hk : m.sig.2 with
    | false =>
      rw [hk, if_neg (by simp)] at h
      revert h
      cases fpMethod x.cls m ((x :: ys).map fun y => some y.val) <;> exact fun h => nomatch h
    | true =>
      rw [hk, if_pos rfl] at h h'
      unfold bitMethod at h h'
      cases h1 : checkArgs (x.cls.symTy m).1 ((x :: ys).map fun y => some y.val) with
      | error => rw [h1] at h; cases h
      | ok l =>
        cases h2 : checkArgs (x'.cls.symTy m).1 ((x' :: ys').map fun y => some y.val) with
        | error => rw [h2] at h'; cases h'
        | ok l' =>
          rw [h1] at h; rw [h2] at h'
          cases h; cases h'
          dsimp only
          rw [key h1, key h2, hn, hc]
  · intro z z' h h'
    have hl := (call_ok h).1
    have hl' := (call_ok h').1
    rw [List.length_map] at hl hl'
    rw [call_eq hl] at h
    rw [call_eq hl'] at h'
    cases hk : m.sig.2 with
    | true =>
      rw [hk, if_pos rfl] at h
      revert h
      cases bitMethod x.cls m ((x :: ys).map fun y => some y.val) <;> exact fun h => nomatch h
    | false =>
      rw [hk, if_neg (by simp)] at h h'
      unfold fpMethod at h h'
      cases h1 : checkArgs (x.cls.symTy m).1 ((x :: ys).map fun y => some y.val) with
      | error => rw [h1] at h; cases h
      | ok l =>
        cases h2 : checkArgs (x'.cls.symTy m).1 ((x' :: ys').map fun y => some y.val) with
        | error => rw [h2] at h'; cases h'
        | ok l' =>
          rw [h1] at h; rw [h2] at h'
          simp only [bind, Except.bind, mkF, if_true] at h h'
          cases h; cases h'
          refine ⟨hc, ?_⟩
          dsimp only
          rw [key h1, key h2, hn, hc]

/-- Nothing else relates the methods: for any functions on patterns, one for each method, there is an
interpretation in which every call returns their values. -/
theorem C102_free (c : Cls) (F : Meth → List Nat → Nat) (vars : Name → (w : Nat) → BitVec w) :
    ∃ e : Interp, e.bv = vars ∧ ∀ (m : Meth) (x : SFP) (ys : List SFP), x.cls = c →
      (∀ b, call m x (ys.map .fp) = .ok (.bit b) →
        b e = decide (F m ((x :: ys).map fun y => (y.val.den e).toNat) % 2 = 1)) ∧
      (∀ z, call m x (ys.map .fp) = .ok (.fp z) →
        (z.val.den e).toNat = F m ((x :: ys).map fun y => (y.val.den e).toNat) % 2 ^ c.fmt.size) := by
  classical
  let uf : Name → List Nat → Nat := fun n l =>
    if h : ∃ m : Meth, n = c.sym m.name then F h.choose l else 0
  have huf : ∀ m : Meth, uf (c.sym m.name) = F m := fun m => by
    have h : ∃ m' : Meth, c.sym m.name = c.sym m'.name := ⟨m, rfl⟩
    funext l
    simp only [uf, dif_pos h]
    have := h.choose_spec
    simp only [Cls.sym] at this
    rw [← Meth.name_inj _ _ (split_last m.dot h.choose.dot this).2]
  have key : ∀ {params : List Nat} {zs : List SFP} {l : List Tm},
      checkArgs params (zs.map fun y => some y.val) = .ok l → l = zs.map SFP.val := by
    intro params zs l h
    unfold checkArgs at h
    split at h
    · cases h
    split at h
    · cases h
    cases h
    clear * -
    induction zs with
    | nil => rfl
    | cons z zs ih => simp
  refine ⟨⟨vars, uf⟩, rfl, fun m x ys hx => ⟨fun b h => ?_, fun z h => ?_⟩⟩
  · have hl := (call_ok h).1
    rw [List.length_map] at hl
    rw [call_eq hl] at h
    cases hk : m.sig.2 with
    | false =>
      rw [hk, if_neg (by simp)] at h
      revert h
      cases fpMethod x.cls m ((x :: ys).map fun y => some y.val) <;> exact fun h => nomatch h
    | true =>
      rw [hk, if_pos rfl] at h
      unfold bitMethod at h
      cases h1 : checkArgs (x.cls.symTy m).1 ((x :: ys).map fun y => some y.val) with
      | error => rw [h1] at h; cases h
      | ok l =>
        rw [h1] at h
        cases h
        rw [key h1, hx]
        simp only [huf, nums, List.map_map, Function.comp_def]
  · have hl := (call_ok h).1
    rw [List.length_map] at hl
    rw [call_eq hl] at h
    cases hk : m.sig.2 with
    | true =>
      rw [hk, if_pos rfl] at h
      revert h
      cases bitMethod x.cls m ((x :: ys).map fun y => some y.val) <;> exact fun h => nomatch h
    | false =>
      rw [hk, if_neg (by simp)] at h
      unfold fpMethod at h
      cases h1 : checkArgs (x.cls.symTy m).1 ((x :: ys).map fun y => some y.val) with
      | error => rw [h1] at h; cases h
      | ok l =>
        rw [h1] at h
        simp only [bind, Except.bind, mkF, if_true] at h
        cases h
        rw [key h1]
        subst hx
        simp only [huf, nums, List.map_map, Function.comp_def, BitVec.toNat_ofNat]

/-- So a solver finds "counterexamples" to what every concrete vector satisfies: `x < y` without `y > x`,
`x < y` without `x <= y`, `x == y` without `y == x`, `x + y` other than `y + x`. -/
theorem C102_laws_refuted (c : Cls) (x y : SFP) (hx : x.cls = c) (hy : y.cls = c) (wx : x.val.w = c.fmt.size)
    (wy : y.val.w = c.fmt.size) (vars : Name → (w : Nat) → BitVec w)
    (hne : ∀ e : Interp, e.bv = vars → (x.val.den e).toNat ≠ (y.val.den e).toNat) :
    ∃ e : Interp, e.bv = vars ∧ ∃ lt gt le eq eq' : BTm, ∃ a a' : SFP,
      x.fpLt (.fp y) = .ok lt ∧ y.fpGt (.fp x) = .ok gt ∧ x.fpLeq (.fp y) = .ok le ∧
      x.fpEq (.fp y) = .ok eq ∧ y.fpEq (.fp x) = .ok eq' ∧ x.fpAdd (.fp y) = .ok a ∧ y.fpAdd (.fp x) = .ok a' ∧
      lt e = true ∧ gt e = false ∧ le e = false ∧ eq e ≠ eq' e ∧ (a.val.den e).toNat ≠ (a'.val.den e).toNat := by
  let F : Meth → List Nat → Nat := fun m l => match m with
    | .lt => 1
    | .eq | .add => if (l.getD 0 0) < (l.getD 1 0) then 1 else 0
    | _ => 0
  obtain ⟨e, he, h⟩ := C102_free c F vars
  have ne := hne e he
  have hxy : ∀ z ∈ [y], z.cls = x.cls ∧ z.val.w = z.cls.fmt.size := by simp [hx, hy, wy]
  have hyx : ∀ z ∈ [x], z.cls = y.cls ∧ z.val.w = z.cls.fmt.size := by simp [hx, hy, wx]
  have wx' : x.val.w = x.cls.fmt.size := by rw [hx, wx]
  have wy' : y.val.w = y.cls.fmt.size := by rw [hy, wy]
  have bit : ∀ {m : Meth}, m ≠ .min → m ≠ .max → m.sig.2 = true → m.arity = 1 →
      (∃ b, call m x [.fp y] = .ok (.bit b)) ∧ ∃ b, call m y [.fp x] = .ok (.bit b) := by
    intro m h1 h2 hk ha
    constructor
    · rcases C101_returns_partial h1 h2 (ys := [y]) ha.symm wx' hxy with ⟨_, _, _, _, hk'⟩ | ⟨b, hb, _⟩
      · rw [hk] at hk'; cases hk'
      · exact ⟨b, hb⟩
    · rcases C101_returns_partial h1 h2 (ys := [x]) ha.symm wy' hyx with ⟨_, _, _, _, hk'⟩ | ⟨b, hb, _⟩
      · rw [hk] at hk'; cases hk'
      · exact ⟨b, hb⟩
  have inv : ∀ {p : PyM BTm} {b : BTm}, p.map SRes.bit = .ok (.bit b) → p = .ok b := by
    intro p b h
    cases p <;> cases h
    rfl
  have invF : ∀ {p : PyM SFP} {b : SFP}, p.map SRes.fp = .ok (.fp b) → p = .ok b := by
    intro p b h
    cases p <;> cases h
    rfl
  obtain ⟨⟨lt, hlt⟩, -⟩ := bit (m := .lt) nofun nofun rfl rfl
  obtain ⟨-, gt, hgt⟩ := bit (m := .gt) nofun nofun rfl rfl
  obtain ⟨⟨le, hle⟩, -⟩ := bit (m := .leq) nofun nofun rfl rfl
  obtain ⟨⟨eq, heq⟩, eq', heq'⟩ := bit (m := .eq) nofun nofun rfl rfl
  obtain ⟨a, ha⟩ : ∃ a, call .add x [.fp y] = .ok (.fp a) := by
    rcases C101_returns_partial (m := .add) nofun nofun (ys := [y]) rfl wx' hxy with ⟨a, h, _⟩ | ⟨_, _, hk⟩
    · exact ⟨a, h⟩
    · cases hk
  obtain ⟨a', ha'⟩ : ∃ a, call .add y [.fp x] = .ok (.fp a) := by
    rcases C101_returns_partial (m := .add) nofun nofun (ys := [x]) rfl wy' hyx with ⟨a, h, _⟩ | ⟨_, _, hk⟩
    · exact ⟨a, h⟩
    · cases hk
  have e1 := (h .lt x [y] hx).1 lt hlt
  have e2 := (h .gt y [x] hy).1 gt hgt
  have e3 := (h .leq x [y] hx).1 le hle
  have e4 := (h .eq x [y] hx).1 eq heq
  have e5 := (h .eq y [x] hy).1 eq' heq'
  have e6 := (h .add x [y] hx).2 a ha
  have e7 := (h .add y [x] hy).2 a' ha'
  have one : 1 % 2 ^ c.fmt.size = 1 := Nat.mod_eq_of_lt (Nat.one_lt_two_pow (by simp [Fmt.size]))
  refine ⟨e, he, lt, gt, le, eq, eq', a, a', inv hlt, inv hgt, inv hle, inv heq, inv heq', invF ha, invF ha',
    by rw [e1]; rfl, by rw [e2]; rfl, by rw [e3]; rfl, ?_, ?_⟩
  · rw [e4, e5]
    simp only [F, List.map_cons, List.map_nil, List.getD_cons_zero, List.getD_cons_succ]
    rcases Nat.lt_or_gt_of_ne ne with hlt | hgt
    · rw [if_pos hlt, if_neg (by omega)]; decide
    · rw [if_neg (by omega), if_pos hgt]; decide
  · rw [e6, e7]
    simp only [F, List.map_cons, List.map_nil, List.getD_cons_zero, List.getD_cons_succ]
    rcases Nat.lt_or_gt_of_ne ne with hlt | hgt
    · rw [if_pos hlt, if_neg (by omega), one]; simp
    · rw [if_neg (by omega), if_pos hgt, one]; simp

/-- Two different constants. -/
example (vars : Name → (w : Nat) → BitVec w) (e : Interp) (_ : e.bv = vars) :
    ((konst (std f22) 5).val.den e).toNat ≠ ((konst (std f22) 4).val.den e).toNat := by
  show (BitVec.ofNat 5 5).toNat ≠ (BitVec.ofNat 5 4).toNat
  decide

/-! ### C103 Operands of another type -/

/-- The concrete class refuses a vector of another format, whatever the method. -/
theorem C103_concrete (f g : Fmt) (hg : g ≠ f) (o : Bool) (v w : Mpfr) :
    f.fpAdd o v (.fp g w) = .error .typeError ∧ f.fpMul o v (.fp g w) = .error .typeError ∧
    f.fpLt v (.fp g w) = .error .typeError ∧ f.fpEq v (.fp g w) = .error .typeError := by
  simp [Fmt.fpAdd, Fmt.fpMul, Fmt.fpLt, Fmt.fpEq, Fmt.coerce, hg, bind, Except.bind]

/-- The symbolic class refuses vectors of another width and what is not a vector. -/
theorem C103_refused_partial (x y : SFP) (m : Meth) (hm : m.arity = 1)
    (h1 : m ≠ .min) (h2 : m ≠ .max) :
    (y.val.w ≠ x.cls.fmt.size → call m x [.fp y] = .error .typeError) ∧
    (∀ t : Tm, t.w ≠ x.cls.fmt.size → call m x [.bv t] = .error .typeError) ∧
    call m x [.otherTerm] = .error .typeError ∧ call m x [.plain] = .error .attributeError := by
  have bad : ∀ o : Option Tm, o.map Tm.w ≠ some x.cls.fmt.size →
      checkArgs [x.cls.fmt.size, x.cls.fmt.size] [some x.val, o] = .error .typeError := by
    intro o ho
    unfold checkArgs
    rw [if_neg (by simp), if_pos (by simp [ho])]
  have ht : ∀ t : Tm, t.w ≠ x.cls.fmt.size →
      checkArgs [x.cls.fmt.size, x.cls.fmt.size] [some x.val, some t] = .error .typeError :=
    fun t h => bad _ (by simpa using h)
  have hn := bad none (by simp)
  refine ⟨fun h => ?_, fun t h => ?_, ?_, ?_⟩
  · have := ht _ h
    cases m <;> first | (cases hm; done) | exact absurd rfl h1 | exact absurd rfl h2 |
      (simp only [call, SFP.fpAdd, SFP.fpSub, SFP.fpMul, SFP.fpDiv, SFP.fpRem, SFP.fpLeq, SFP.fpLt, SFP.fpGeq,
        SFP.fpGt, SFP.fpEq, SFP.bin, SFP.rel, SArg.value, fpMethod, bitMethod, Cls.symTy, Meth.sig,
        List.replicate, bind, Except.bind, this]; rfl)
  · have := ht _ h
    cases m <;> first | (cases hm; done) | exact absurd rfl h1 | exact absurd rfl h2 |
      (simp only [call, SFP.fpAdd, SFP.fpSub, SFP.fpMul, SFP.fpDiv, SFP.fpRem, SFP.fpLeq, SFP.fpLt, SFP.fpGeq,
        SFP.fpGt, SFP.fpEq, SFP.bin, SFP.rel, SArg.value, fpMethod, bitMethod, Cls.symTy, Meth.sig,
        List.replicate, bind, Except.bind, this]; rfl)
  · cases m <;> first | (cases hm; done) | exact absurd rfl h1 | exact absurd rfl h2 |
      (simp only [call, SFP.fpAdd, SFP.fpSub, SFP.fpMul, SFP.fpDiv, SFP.fpRem, SFP.fpLeq, SFP.fpLt, SFP.fpGeq,
        SFP.fpGt, SFP.fpEq, SFP.bin, SFP.rel, SArg.value, fpMethod, bitMethod, Cls.symTy, Meth.sig,
        List.replicate, bind, Except.bind, hn]; rfl)
  · cases m <;> first | (cases hm; done) | exact absurd rfl h1 | exact absurd rfl h2 | rfl

/-- A vector of another format of the same width is taken, and so is a bit vector; the result is what the
format of the left operand makes of the bits. -/
theorem C103_format_refuted (x y : SFP) (hx : x.val.w = x.cls.fmt.size) (hy : y.val.w = x.cls.fmt.size) (m : Meth)
    (hm : m.arity = 1) (h1 : m ≠ .min) (h2 : m ≠ .max) :
    (∃ s, call m x [.fp y] = .ok s) ∧ call m x [.bv y.val] = call m x [.fp y] ∧
      call m x [.fp ⟨x.cls, y.val⟩] = call m x [.fp y] := by
  have e1 : call m x [.bv y.val] = call m x [.fp y] := by
    cases m <;> first | (cases hm; done) | rfl
  have e2 : call m x [.fp ⟨x.cls, y.val⟩] = call m x [.fp y] := by
    cases m <;> first | (cases hm; done) | rfl
  refine ⟨?_, e1, e2⟩
  rw [← e2]
  rcases C101_returns_partial h1 h2 (ys := [⟨x.cls, y.val⟩]) hm.symm hx (by simp [hy]) with ⟨z, h, _⟩ | ⟨b, h, _⟩
  · exact ⟨_, h⟩
  · exact ⟨_, h⟩

/-- `SMTFPVector[2,2,RNE,True](5) < SMTFPVector[3,1,RNE,True](4)` returns; the concrete one raises. -/
example : (∃ b, (konst (std f22) 5).fpLt (.fp (konst (std f31) 4)) = .ok b) ∧
    f22.fpLt (.zero false) (.fp f31 (.zero false)) = .error .typeError :=
  ⟨⟨_, rfl⟩, (C103_concrete f22 f31 (by decide) false (.zero false) (.zero false)).2.2.1⟩

/-! ### C104 `SMTFPVector[..](n)` for an `int` -/

/-- The integer is the bit pattern; it has to fit. -/
theorem C104_int (subs : Subs) (c : Cls) (n : Int) :
    (0 ≤ n → n < 2 ^ c.fmt.size → ∃ x, mk subs c (.int n) = .ok x ∧ x.cls = c ∧ x.val.w = c.fmt.size ∧
      ∀ e, ((x.val.den e).toNat : Int) = n) ∧
    (n < 0 ∨ 2 ^ c.fmt.size ≤ n → mk subs c (.int n) = .error .valueError) := by
  constructor
  · intro h0 h1
    refine ⟨_, by rw [mk, if_pos ⟨h0, h1⟩], rfl, rfl, fun e => ?_⟩
    simp only [BitVec.toNat_ofInt]
    rw [Int.emod_eq_of_lt h0 (by exact_mod_cast h1), Int.toNat_of_nonneg h0]
  · intro h
    rw [mk, if_neg]
    omega

/-- A pysmt term of the right width is taken as it is; any other width, and a Bool term, is refused. -/
theorem C104_term (subs : Subs) (c : Cls) (t : Tm) :
    (t.w = c.fmt.size → ∃ x, mk subs c (.fnode t) = .ok x ∧ x.cls = c ∧ x.asBV = .ok t) ∧
    (t.w ≠ c.fmt.size → mk subs c (.fnode t) = .error .typeError) ∧
    mk subs c .boolNode = .error .typeError := by
  refine ⟨fun h => ⟨⟨c, t⟩, by rw [mk, if_pos h], rfl, ?_⟩, fun h => by rw [mk, if_neg h], rfl⟩
  simp only [SFP.asBV, h, if_true]

/-- A vector of the same class, or of a subclass, is taken over with its bits; one of any other class, and any other
object, is refused. -/
theorem C104_copy (subs : Subs) (c : Cls) (x : SFP) :
    (x.cls = c ∨ subs c x.cls = true → ∃ y, mk subs c (.fp x) = .ok y ∧ y.cls = c ∧ y.val = x.val) ∧
    (x.cls ≠ c → subs c x.cls = false → mk subs c (.fp x) = .error .typeError) ∧
    mk subs c .other = .error .typeError := by
  refine ⟨fun h => ⟨⟨c, x.val⟩, by rw [mk, if_pos h], rfl, rfl⟩, fun h h' => ?_, rfl⟩
  rw [mk, if_neg]
  simp [h, h']

/-- Neither of two formats of the same width is taken for the other. -/
example : mk (fun _ _ => false) (std f22) (.fp (konst (std f31) 4)) = .error .typeError :=
  (C104_copy _ _ _).2.1 (by decide) rfl

/-- So `SMTFPVector[..](1)` does not stand for `FPVector[..](1)`: its pattern is that of the least subnormal. -/
theorem C104_number_refuted (subs : Subs) :
    ∃ x, mk subs (std f22) (.int 1) = .ok x ∧
      (∀ e, ¬ Reads e x (f22.ofRat 1 false)) ∧ (∀ e, Reads e x (.fin false 4 (-4))) := by
  refine ⟨_, rfl, fun e h => ?_, fun e => ⟨rfl, ?_⟩⟩
  · have h := h.bits
    have h1 : f22.fromBV ⟨.root .bv, 5, 1⟩ = .ok (.fin false 4 (-4)) := by decide +kernel
    have h2 : (f22.ofRat 1 false) = .fin false 4 (-2) := by decide +kernel
    rw [h2] at h
    exact absurd (h1.symm.trans h) (by decide)
  · show f22.fromBV ⟨.root .bv, 5, 1⟩ = .ok (.fin false 4 (-4))
    decide +kernel

example : ∃ x, mk (fun _ _ => false) (std f22) (.int 31) = .ok x := ⟨_, rfl⟩

example : ((konst (std f22) 14).val.w = (std f22).fmt.size) ∧ (konst (std f22) 14).val.w ≠ (std ⟨3, 2, .RNE, true⟩).fmt.size := by
  decide

/-! ### C105 Class statements -/

/-- A sequence of class statements below `SMTFPVector`. -/
def declare : SymTab → List (Name × Fmt) → PyM SymTab
  | t, [] => .ok t
  | t, (n, f) :: l => do
      let (t, _) ← initSubclass t n (some f)
      declare t l

/-- What a table holds after some class statements. -/
structure TabOf (ds : List (Name × Fmt)) (t : SymTab) : Prop where
  has : ∀ d ∈ ds, ∀ m : Meth, (⟨d.1, d.2⟩ : Cls).sym m.name ∈ t.map Prod.fst
  only : ∀ p ∈ t, ∃ d ∈ ds, ∃ m : Meth, p = ((⟨d.1, d.2⟩ : Cls).sym m.name, (⟨d.1, d.2⟩ : Cls).symTy m)

theorem sym_inj {c c' : Cls} {m m' : Meth} (h : c.sym m.name = c'.sym m'.name) : c.name = c'.name ∧ m = m' := by
  obtain ⟨h1, h2⟩ := split_last m.dot m'.dot h
  exact ⟨h1, Meth.name_inj _ _ h2⟩

theorem symTy_eq {c c' : Cls} (h : c.fmt.size = c'.fmt.size) (m : Meth) : c.symTy m = c'.symTy m := by
  simp only [Cls.symTy, h]

theorem symTy_ne {c c' : Cls} (h : c.fmt.size ≠ c'.fmt.size) (m : Meth) : c.symTy m ≠ c'.symTy m := by
  intro he
  have := congrArg (fun p : SymTy => p.1.head?) he
  cases m <;> simp [Cls.symTy, Meth.sig, List.replicate, h] at this

theorem Meth.mem_all (m : Meth) : m ∈ Meth.all := by cases m <;> decide

/-- One declaration against a table of class statements. -/
theorem symbols_ok {ds : List (Name × Fmt)} {c : Cls}
    (hc : ∀ d ∈ ds, d.1 = c.name → d.2.size = c.fmt.size) (ms : List Meth) :
    ∀ (t : SymTab), (∀ p ∈ t, (∃ d ∈ ds, ∃ m : Meth, p = ((⟨d.1, d.2⟩ : Cls).sym m.name, (⟨d.1, d.2⟩ : Cls).symTy m)) ∨
        ∃ m : Meth, p = (c.sym m.name, c.symTy m)) →
      ∃ t', symbols c t ms = .ok t' ∧ (∀ m ∈ ms, c.sym m.name ∈ t'.map Prod.fst) ∧ (∀ p ∈ t, p ∈ t') ∧
        ∀ p ∈ t', p ∈ t ∨ ∃ m : Meth, p = (c.sym m.name, c.symTy m) := by
  induction ms with
  | nil => exact fun t _ => ⟨t, rfl, by simp, fun _ h => h, fun _ h => .inl h⟩
  | cons m ms ih =>
    intro t ht
    unfold symbols symbol
    cases hf : t.find? (fun d => d.1 = c.sym m.name) with
    | some p =>
      have hp := List.mem_of_find?_eq_some hf
      have hn : p.1 = c.sym m.name := by simpa using List.find?_some hf
      have hty : p.2 = c.symTy m := by
        rcases ht p hp with ⟨d, hd, m', rfl⟩ | ⟨m', rfl⟩
        · obtain ⟨h1, rfl⟩ := sym_inj hn
          exact symTy_eq (hc d hd h1) _
        · obtain ⟨-, rfl⟩ := sym_inj hn
          rfl
      simp only [hty, if_true, bind, Except.bind]
      obtain ⟨t', h1, h2, h3, h4⟩ := ih t ht
      refine ⟨t', h1, ?_, h3, h4⟩
      intro m' hm'
      rcases List.mem_cons.1 hm' with rfl | hm'
      · rw [← hn]; exact List.mem_map_of_mem (h3 p hp)
      · exact h2 m' hm'
    | none =>
      simp only [bind, Except.bind]
      obtain ⟨t', h1, h2, h3, h4⟩ := ih ((c.sym m.name, c.symTy m) :: t) (fun p hp => by
        rcases List.mem_cons.1 hp with rfl | hp
        · exact .inr ⟨m, rfl⟩
        · exact ht p hp)
      refine ⟨t', h1, ?_, fun p hp => h3 p (List.mem_cons_of_mem _ hp), ?_⟩
      · intro m' hm'
        rcases List.mem_cons.1 hm' with rfl | hm'
        · exact List.mem_map_of_mem (f := Prod.fst) (h3 (c.sym m'.name, c.symTy m') (by simp))
        · exact h2 m' hm'
      · intro p hp
        rcases h4 p hp with h | h
        · rcases List.mem_cons.1 h with rfl | h
          · exact .inr ⟨m, rfl⟩
          · exact .inl h
        · exact .inr h

theorem symbol_conflict {ds : List (Name × Fmt)} {t : SymTab} (ht : TabOf ds t) {d : Name × Fmt} (hd : d ∈ ds) {c : Cls}
    (hn : d.1 = c.name) (hs : d.2.size ≠ c.fmt.size)
    (huniq : ∀ d' ∈ ds, d'.1 = c.name → d'.2.size = d.2.size) :
    initSubclass t c.name (some c.fmt) = .error .typeError := by
  have hm := ht.has d hd .abs
  have h0 : symbol t (c.sym Meth.abs.name) (c.symTy .abs) = .error .typeError := by
    unfold symbol
    cases hf : t.find? (fun p => p.1 = c.sym Meth.abs.name) with
    | none =>
      obtain ⟨p, hp, hpn⟩ := List.mem_map.1 hm
      have := List.find?_eq_none.1 hf p hp
      simp only [decide_eq_true_eq] at this
      exact absurd (hpn.trans (by simp only [Cls.sym, hn])) this
    | some p =>
      have hp := List.mem_of_find?_eq_some hf
      have hpn : p.1 = c.sym Meth.abs.name := by simpa using List.find?_some hf
      obtain ⟨d', hd', m', rfl⟩ := ht.only p hp
      obtain ⟨h1, rfl⟩ := sym_inj hpn
      have : d'.2.size ≠ c.fmt.size := by rw [huniq d' hd' h1]; exact hs
      simp only [symTy_ne (c := ⟨d'.1, d'.2⟩) (c' := c) this, if_false]
  have h1 : symbols c t Meth.all = .error .typeError := by
    unfold Meth.all symbols
    rw [h0]
    rfl
  show (symbols c t Meth.all >>= fun t' => pure (t', c)) = _
  rw [h1]
  rfl

/-- Class statements with bindings all succeed exactly when classes of one name have one width. -/
theorem C105_declare (ds : List (Name × Fmt)) :
    (∃ t, declare [] ds = .ok t) ↔ ∀ d ∈ ds, ∀ d' ∈ ds, d.1 = d'.1 → d.2.size = d'.2.size := by
  suffices h : ∀ (done todo : List (Name × Fmt)) (t : SymTab), TabOf done t →
      (∀ d ∈ done, ∀ d' ∈ done, d.1 = d'.1 → d.2.size = d'.2.size) →
      ((∃ t', declare t todo = .ok t') ↔
        ∀ d ∈ done ++ todo, ∀ d' ∈ done ++ todo, d.1 = d'.1 → d.2.size = d'.2.size) by
    exact h [] ds [] ⟨by simp, by simp⟩ (by simp)
  intro done todo
  induction todo generalizing done with
  | nil => intro t _ hd; simpa [declare] using hd
  | cons a todo ih =>
    obtain ⟨n, f⟩ := a
    intro t ht hd
    by_cases hc : ∀ d ∈ done, d.1 = n → d.2.size = f.size
    · obtain ⟨t', h1, h2, h3, h4⟩ := symbols_ok (c := ⟨n, f⟩) hc Meth.all t (fun p hp => .inl (ht.only p hp))
      have hinit : initSubclass t n (some f) = .ok (t', ⟨n, f⟩) := by
        simp only [initSubclass, h1, bind, Except.bind, pure, Except.pure]
      have ht' : TabOf (done ++ [(n, f)]) t' := by
        constructor
        · intro d hdm m
          rcases List.mem_append.1 hdm with hdm | hdm
          · obtain ⟨p, hp, hpn⟩ := List.mem_map.1 (ht.has d hdm m)
            rw [← hpn]; exact List.mem_map_of_mem (h3 p hp)
          · rw [List.mem_singleton.1 hdm]; exact h2 m m.mem_all
        · intro p hp
          rcases h4 p hp with h | ⟨m, h⟩
          · obtain ⟨d, hd, m, hm⟩ := ht.only p h
            exact ⟨d, List.mem_append_left _ hd, m, hm⟩
          · exact ⟨(n, f), by simp, m, h⟩
      have hd' : ∀ d ∈ done ++ [(n, f)], ∀ d' ∈ done ++ [(n, f)], d.1 = d'.1 → d.2.size = d'.2.size := by
        intro d hdm d' hdm' he
        rcases List.mem_append.1 hdm with h | h <;> rcases List.mem_append.1 hdm' with h' | h'
        · exact hd d h d' h' he
        · cases List.mem_singleton.1 h'; exact hc d h he
        · cases List.mem_singleton.1 h; exact (hc d' h' he.symm).symm
        · cases List.mem_singleton.1 h; cases List.mem_singleton.1 h'; rfl
      have := ih (done ++ [(n, f)]) t' ht' hd'
      rw [List.append_assoc, List.singleton_append] at this
      simp only [declare, hinit, bind, Except.bind]
      exact this
    · push Not at hc
      obtain ⟨d, hdm, hn, hs⟩ := hc
      have := symbol_conflict ht hdm (c := ⟨n, f⟩) hn hs
        (fun d' hd' h => hd d' hd' d hdm (h.trans hn.symm))
      constructor
      · rintro ⟨t', h⟩
        simp only [declare] at h
        rw [this] at h
        cases h
      · intro h
        exact absurd (h d (List.mem_append_left _ hdm) (n, f) (by simp) hn) hs

/-- The classes `SMTFPVector[..]` never stand in each other's way, in any order and number. -/
theorem C105_std (fs : List Fmt) : ∃ t, declare [] (fs.map fun f => (stdName f, f)) = .ok t := by
  rw [C105_declare]
  intro d hd d' hd' h
  obtain ⟨f, -, rfl⟩ := List.mem_map.1 hd
  obtain ⟨f', -, rfl⟩ := List.mem_map.1 hd'
  rw [stdName_inj h]

/-- A subclass of the unbound `SMTFPVector` cannot be written. -/
theorem C105_unbound (t : SymTab) (n : Name) : initSubclass t n none = .error .attributeError := rfl

/-- Two user classes of one name, 5 and 16 bits. -/
example : ¬ ∃ t, declare [] [(['F'], f22), (['F'], ⟨5, 10, .RNE, true⟩)] = .ok t := by
  rw [C105_declare]
  intro h
  exact absurd (h (['F'], f22) (by simp) (['F'], ⟨5, 10, .RNE, true⟩) (by simp) rfl) (by decide)

/-! ### C106 Reinterpretation -/

/-- `reinterpret_as_bv` and `reinterpret_from_bv` are inverse to each other on the bits, NaN payloads included,
and a vector of another width is refused. -/
theorem C106_roundtrip (x : SFP) (hx : x.val.w = x.cls.fmt.size) (c : Cls) (t : Tm) :
    (x.asBV >>= fromBV x.cls) = .ok x ∧
    (t.w = c.fmt.size → (fromBV c t >>= SFP.asBV) = .ok t) ∧
    (t.w ≠ c.fmt.size → fromBV c t = .error .typeError) := by
  refine ⟨?_, fun h => ?_, fun h => ?_⟩
  · simp only [SFP.asBV, fromBV, mkF, hx, if_true, bind, Except.bind]
  · simp only [SFP.asBV, fromBV, mkF, h, if_true, bind, Except.bind]
  · simp only [fromBV, mkF, h, if_false]

/-- The concrete class forgets payloads: the patterns of two NaNs decode to one object. -/
theorem C106_concrete_payload : f22.fromBV ⟨.root .bv, 5, 13⟩ = f22.fromBV ⟨.root .bv, 5, 14⟩ := by decide +kernel

example : (konst (std f22) 14).val.w = (konst (std f22) 14).cls.fmt.size := rfl

end HW.SmtFp
