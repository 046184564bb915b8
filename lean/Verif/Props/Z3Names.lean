import Verif.Lemmas.Z3.Names

/-!
# Properties C97 and C98: names of symbolic z3 values
-/

namespace HW
open Z3

/-- The tables after a history of constructor calls and deaths of objects. -/
def zAfter (h : List Z3.NameCmd) : Names := (Names.init.run h).1

/-- The calls of a history with their outcomes. -/
def zOutcomes (h : List Z3.NameCmd) : List (Z3.NameCmd × PyM (Option Z3.Name)) := (Names.init.run h).2

/-- A symbolic constructor call without `name=`. -/
abbrev zAuto (ty : Sort') : Z3.NameCmd := .create ty true .automatic

/-- A symbolic constructor call with `name=n`. -/
abbrev zNamed (ty : Sort') (n : Z3.Name) : Z3.NameCmd := .create ty true (.str n)

theorem zAfter_inv (h : List Z3.NameCmd) : NamesInv (zAfter h) (zOutcomes h) := by
  simpa [zAfter, zOutcomes] using NamesInv.init.run h

theorem zAuto_step {s : Names} {tr} (hi : NamesInv s tr) {ty : Sort'} (hty : ty ≠ .vec 0) :
    ∃ j, s.counter ≤ j ∧ s.has (vName j) = false ∧ s.step (zAuto ty) =
      (⟨j + 1, (vName j, s.next) :: s.table, (s.next, vName j, ty) :: s.objs, (vName j, ty) :: s.consts, s.next + 1⟩,
        .ok (some (vName j))) := by
  obtain ⟨j, hj, hh, hg⟩ := s.gen_spec
  refine ⟨j, hj, hh, ?_⟩
  have hst : s.step (zAuto ty) = ({ s with counter := j + 1 } : Names).enter (vName j) ty := by
    simp [Names.step, Names.create, hg]
  rw [hst, (Names.enter_spec (s := { s with counter := j + 1 }) hh hi.ids hi.objs ty).1 hty]

/-- **C97** an automatic name always comes about (except for vectors of width 0, which z3 does not have). -/
theorem C97_total (h : List Z3.NameCmd) {ty : Sort'} (hty : ty ≠ .vec 0) :
    ∃ n, ((zAfter h).step (zAuto ty)).2 = .ok (some n) ∧
      ((zAfter h).next, n, ty) ∈ ((zAfter h).step (zAuto ty)).1.objs := by
  obtain ⟨j, -, -, hc⟩ := zAuto_step (zAfter_inv h) hty
  rw [hc]
  exact ⟨_, rfl, List.mem_cons_self⟩

/-- **C97** it is not the name of any live symbolic value and was never before chosen automatically. -/
theorem C97_fresh (h : List Z3.NameCmd) {ty : Sort'} {n : Z3.Name}
    (hn : ((zAfter h).step (zAuto ty)).2 = .ok (some n)) :
    (∀ id ty', (id, n, ty') ∉ (zAfter h).objs) ∧ ∀ ty', (zAuto ty', .ok (some n)) ∉ zOutcomes h := by
  have hi := zAfter_inv h
  have hty : ty ≠ .vec 0 := by
    rintro rfl
    obtain ⟨j, hj, hh, hg⟩ := (zAfter h).gen_spec
    have hst : (zAfter h).step (zAuto (.vec 0)) = ({ zAfter h with counter := j + 1 } : Names).enter (vName j) (.vec 0) := by
      simp [Names.step, Names.create, hg]
    rw [hst, (Names.enter_spec (s := { zAfter h with counter := j + 1 }) hh hi.ids hi.objs _).2 rfl] at hn
    cases hn
  obtain ⟨j, hj, hh, hc⟩ := zAuto_step hi hty
  rw [hc] at hn
  cases hn
  constructor
  · intro id ty' hm
    exact Names.has_false.1 hh id ((hi.objs _ _).2 ⟨ty', hm⟩)
  · intro ty' hm
    obtain ⟨k, h1, h2⟩ := hi.auto ty' _ hm
    have := vName_inj h1
    omega

/-- **C97** no two live symbolic values, bits or vectors of whatever width, have the same name. -/
theorem C97_distinct (h : List Z3.NameCmd) : ((zAfter h).objs.map fun o => o.2.1).Nodup := (zAfter_inv h).names

theorem lookup_of_mem {α β : Type} [BEq α] [LawfulBEq α] : ∀ {l : List (α × β)} {a : α} {b : β},
    (l.map Prod.fst).Nodup → (a, b) ∈ l → l.lookup a = some b
  | (c, d) :: l, a, b, hn, hm => by
    simp only [List.map_cons, List.nodup_cons] at hn
    simp only [List.mem_cons, Prod.mk.injEq] at hm
    rcases hm with ⟨rfl, rfl⟩ | hm
    · simp [List.lookup]
    · have hne : a ≠ c := by
        rintro rfl
        exact hn.1 (List.mem_map.2 ⟨_, hm, rfl⟩)
      rw [List.lookup_cons, show (a == c) = false from by simpa using hne]
      exact lookup_of_mem hn.2 hm

/-- **C97** live symbolic values are independent: for every choice of values there is an assignment in
which each of them reads the chosen one. -/
theorem C97_independent (h : List Z3.NameCmd) (val : Nat → Int) :
    ∃ e : Env, ∀ id n ty, (id, n, ty) ∈ (zAfter h).objs → reading e n ty = match ty with
      | .bit => if val id % 2 = 1 then 1 else 0
      | .vec w => val id % 2 ^ w := by
  let t : List (Z3.Name × Nat) := (zAfter h).objs.map fun o => (o.2.1, o.1)
  have ht : (t.map Prod.fst).Nodup := by
    have := C97_distinct h
    simpa [t, Function.comp_def] using this
  refine ⟨⟨fun n => decide (val ((t.lookup n).getD 0) % 2 = 1), fun n w => BitVec.ofInt w (val ((t.lookup n).getD 0))⟩, ?_⟩
  intro id n ty hm
  have hl : t.lookup n = some id := lookup_of_mem ht (List.mem_map.2 ⟨_, hm, rfl⟩)
  cases ty with
  | bit => simp [reading, hl]
  | vec w =>
    have h2 : 0 ≤ val id % 2 ^ w := Int.emod_nonneg _ (Int.pow_ne_zero (by decide))
    simpa [reading, hl, BitVec.toNat_ofInt] using h2

/-- **C97** asking for the name of a live symbolic value raises `ValueError` and changes nothing, even for
another sort. -/
theorem C97_live_name (h : List Z3.NameCmd) (ty ty' : Sort') (n : Z3.Name) (id : Nat)
    (hl : (id, n, ty') ∈ (zAfter h).objs) :
    (zAfter h).step (zNamed ty n) = (zAfter h, .error .valueError) := by
  have := ((zAfter h).has_iff n).2 ⟨id, ((zAfter_inv h).objs _ _).2 ⟨ty', hl⟩⟩
  simp [Names.step, Names.create, this]

/-- **C97** every other name is granted, whatever sort it was used with before (pysmt refuses, C40). -/
theorem C97_explicit (h : List Z3.NameCmd) {ty : Sort'} (hty : ty ≠ .vec 0) (n : Z3.Name)
    (hl : ∀ id ty', (id, n, ty') ∉ (zAfter h).objs) :
    ((zAfter h).step (zNamed ty n)).2 = .ok (some n) ∧
    ((zAfter h).next, n, ty) ∈ ((zAfter h).step (zNamed ty n)).1.objs := by
  have hi := zAfter_inv h
  have hh : (zAfter h).has n = false := Names.has_false.2 fun id hm => by
    obtain ⟨ty', h'⟩ := (hi.objs _ _).1 hm
    exact hl id ty' h'
  have hst : (zAfter h).step (zNamed ty n) = (zAfter h).enter n ty := by
    simp [Names.step, Names.create, hh]
  rw [hst, (Names.enter_spec hh hi.ids hi.objs ty).1 hty]
  exact ⟨rfl, List.mem_cons_self⟩

/-- **C97** a value that is not symbolic cannot be named, a name must be a string: `TypeError`. -/
theorem C97_bad_arguments (s : Names) (ty : Sort') (name : Smt.NameArg) (h : name ≠ .automatic) :
    s.step (.create ty false name) = (s, .error .typeError) ∧
    s.step (.create ty true .other) = (s, .error .typeError) := by
  simp [Names.step, Names.create, h]

/-- **C97** a vector class of width 0 has no symbolic values, and the failed call does not take the name. -/
theorem C97_width0 (h : List Z3.NameCmd) (n : Z3.Name) (hl : ∀ id ty, (id, n, ty) ∉ (zAfter h).objs) :
    ((zAfter h).step (zNamed (.vec 0) n)).2 = .error .z3Exception ∧
    ((zAfter h).step (zNamed (.vec 0) n)).1.objs = (zAfter h).objs ∧
    ((zAfter h).step (zNamed (.vec 0) n)).1.has n = false := by
  have hi := zAfter_inv h
  have hh : (zAfter h).has n = false := Names.has_false.2 fun id hm => by
    obtain ⟨ty', h'⟩ := (hi.objs _ _).1 hm
    exact hl id ty' h'
  have hst : (zAfter h).step (zNamed (.vec 0) n) = (zAfter h).enter n (.vec 0) := by
    simp [Names.step, Names.create, hh]
  rw [hst, (Names.enter_spec hh hi.ids hi.objs _).2 rfl]
  exact ⟨rfl, rfl, hh⟩

/-- The explicit name `V_1` is skipped; a name can come back with another sort after its object died. -/
example : (zOutcomes [zAuto .bit, zNamed (.vec 8) ['V', '_', '1'], zAuto (.vec 4), zNamed .bit ['V', '_', '1'],
      .drop 1, zNamed .bit ['V', '_', '1'], zAuto .bit, zAuto (.vec 0), zAuto .bit]).map Prod.snd =
    [.ok (some ['V', '_', '0']), .ok (some ['V', '_', '1']), .ok (some ['V', '_', '2']), .error .valueError,
     .ok none, .ok (some ['V', '_', '1']), .ok (some ['V', '_', '3']), .error .z3Exception,
     .ok (some ['V', '_', '5'])] := by decide

/-! ## C98 -/

/-- **C98 (partial)**: full claim: a new automatically named value is a constant that no earlier expression
mentions.  Proved for histories in which no explicit name looks like an automatic one. -/
theorem C98_new_constant_partial (h : List Z3.NameCmd) {ty : Sort'} (hty : ty ≠ .vec 0)
    (hx : ∀ k ty', zNamed ty' (vName k) ∉ h) :
    ∃ n, ((zAfter h).step (zAuto ty)).2 = .ok (some n) ∧ ∀ ty', (n, ty') ∉ (zAfter h).consts := by
  have hi := zAfter_inv h
  obtain ⟨j, hj, hh, hc⟩ := zAuto_step hi hty
  rw [hc]
  refine ⟨_, rfl, fun ty' hm => ?_⟩
  rcases hi.decl _ _ hm with ⟨k, h1, h2⟩ | h1
  · have := vName_inj h1
    omega
  · exact hx _ _ (Names.run_mem _ _ _ h1)

/-- **C98** what the constant of a live value reads is untouched by later calls: its entry stays. -/
theorem C98_live_kept (h : List Z3.NameCmd) (c : Z3.NameCmd) {id : Nat} {n : Z3.Name} {ty : Sort'}
    (hl : (id, n, ty) ∈ (zAfter h).objs) (hd : c ≠ .drop id) :
    (id, n, ty) ∈ ((zAfter h).step c).1.objs := by
  have hi := zAfter_inv h
  cases c with
  | drop i =>
    have : id ≠ i := fun e => hd (by rw [e])
    simp [Names.step, Names.kill, hl, this]
  | create ty' sy name =>
    have key : ∀ {s : Names} {m : Z3.Name}, s.objs = (zAfter h).objs → s.table = (zAfter h).table →
        s.next = (zAfter h).next → s.has m = false → (id, n, ty) ∈ (s.enter m ty').1.objs := by
      intro s m h1 h2 h3 hm
      obtain ⟨g1, g2⟩ := Names.enter_spec hm (by rw [h2, h3]; exact hi.ids) (by rw [h1, h2]; exact hi.objs) ty'
      by_cases h0 : ty' = .vec 0
      · rw [g2 h0]; dsimp only; rw [h1]; exact hl
      · rw [g1 h0]; dsimp only; rw [h1]; exact List.mem_cons_of_mem _ hl
    simp only [Names.step, Names.create]
    split
    · exact hl
    · cases name with
      | other => exact hl
      | str m =>
        dsimp only
        split
        · exact hl
        · rename_i hm
          exact key rfl rfl rfl (by simpa using hm)
      | automatic =>
        dsimp only
        split
        · obtain ⟨j, -, hh, hg⟩ := (zAfter h).gen_spec
          rw [hg]
          exact key (s := { zAfter h with counter := j + 1 }) rfl rfl rfl hh
        · exact hl

/-- **C98 refuted**: after a value explicitly named `V_0` has died, the first automatic value of the same
sort is the same z3 constant again; expressions built from the first one mention it. -/
theorem C98_refuted :
    let h := [zNamed (.vec 8) ['V', '_', '0'], .drop 0]
    ((zAfter h).step (zAuto (.vec 8))).2 = .ok (some ['V', '_', '0']) ∧
    (['V', '_', '0'], Sort'.vec 8) ∈ (zAfter h).consts ∧
    ((zAfter h).step (zAuto .bit)).2 = .ok (some ['V', '_', '0']) := by decide

example : ∀ k ty', zNamed ty' (vName k) ∉ [zAuto .bit, zNamed (.vec 8) ['x'], .drop 0] := by
  intro k ty' h
  simp only [List.mem_cons, NameCmd.create.injEq, reduceCtorEq, and_false, Smt.NameArg.str.injEq, List.not_mem_nil,
    or_false, false_or] at h
  have := h.2.2
  simp [vName, Smt.autoName] at this

end HW
