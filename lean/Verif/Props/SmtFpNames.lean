import Verif.Lemmas.Smt.FpNames

/-! # C108: the variables of symbolic floats -/

namespace HW
open Smt

/-- The tables of both modules after a history of constructor calls and deaths, from the start of the program. -/
def jafter (h : List JCmd) : JState := JState.init.run h

theorem jafter_inv (h : List JCmd) : JInv (jafter h) := JInv.init.run h

/-- The names of the variables of all live symbolic values, floats and others. -/
def Smt.JState.live (s : JState) : List Name := s.b.objs.map Prod.snd ++ s.fobjs.map Prod.snd

/-- **C108** a symbolic float made without a name is a variable that no value made before, live or dead, of any
SMT class, mentions. -/
theorem C108_fresh (h : List JCmd) (w : Nat) :
    ∃ n, ((jafter h).step (.fp w true .automatic)).2 = .ok (some n) ∧ (∀ ty, (n, ty) ∉ (jafter h).b.syms) ∧
      n ∉ (jafter h).live := by
  have hi := jafter_inv h
  obtain ⟨tr, hb⟩ := hi.bits
  generalize jafter h = s at *
  cases hf : freshGo s.b.syms s.guess (s.b.syms.length + 1) with
  | none => exact (freshGo_total _ _ hf).elim
  | some k =>
    obtain ⟨-, hk⟩ := freshGo_spec hf
    refine ⟨fvName k, ?_, fun ty hm => hk (List.mem_map.2 ⟨_, hm, rfl⟩), fun hm => hk ?_⟩
    · have hs := symbol_new (ty := .bv w) hk (by simp [fvName])
      simp [JState.step, JState.mkFp, hf, hs]
    · rcases List.mem_append.1 hm with hm | hm <;> obtain ⟨⟨i, n⟩, h1, h2⟩ := List.mem_map.1 hm <;> dsimp only at h2
      · rw [← h2]; exact hb.syms _ _ ((hb.objs _ _).2 h1)
      · rw [← h2]; exact hi.syms _ _ h1

/-- **C108** two live floats are the same variable only if its name is of the form `FV<k>`. -/
theorem C108_named_partial (h : List JCmd) {i j : Nat} {n : Name} (hi : (i, n) ∈ (jafter h).fobjs)
    (hj : (j, n) ∈ (jafter h).fobjs) (hn : ∀ k, n ≠ fvName k) : i = j := by
  have inv := jafter_inv h
  have hi' := (inv.kinds _ _ hi).resolve_right fun ⟨k, e⟩ => hn k e
  have hj' := (inv.kinds _ _ hj).resolve_right fun ⟨k, e⟩ => hn k e
  have key : ∀ l : List (Name × Nat), (l.map Prod.fst).Nodup → (n, i) ∈ l → (n, j) ∈ l → i = j := by
    intro l
    induction l with
    | nil => intro _ h; cases h
    | cons e l ih =>
      intro hd h1 h2
      simp only [List.map_cons, List.nodup_cons] at hd
      rcases List.mem_cons.1 h1 with h1 | h1 <;> rcases List.mem_cons.1 h2 with h2 | h2
      · rw [← h1] at h2; injection h2 with _ h2; exact h2.symm
      · exact (hd.1 (List.mem_map.2 ⟨_, h2, by rw [← h1]⟩)).elim
      · exact (hd.1 (List.mem_map.2 ⟨_, h1, by rw [← h2]⟩)).elim
      · exact ih hd.2 h1 h2
  exact key _ inv.keys hi' hj'

/-- **C108** the name of a live float that was given a name is refused. -/
theorem C108_live_name (h : List JCmd) (w : Nat) {i : Nat} {n : Name} (hi : (i, n) ∈ (jafter h).fobjs)
    (hn : ∀ k, n ≠ fvName k) : (jafter h).step (.fp w true (.str n)) = (jafter h, .error .valueError) := by
  have hi' := ((jafter_inv h).kinds _ _ hi).resolve_right fun ⟨k, e⟩ => hn k e
  have : n ∈ (jafter h).ftable.map Prod.fst := List.mem_map.2 ⟨_, hi', rfl⟩
  simp only [JState.step, JState.mkFp, not_true, and_false, if_false, if_pos this]

/-- Names are used with care: those in `P` are for floats only, and nobody asks for a name `FV<k>`. -/
structure Polite (P : Name → Prop) (h : List JCmd) : Prop where
  fp : ∀ w sy n, JCmd.fp w sy (.str n) ∈ h → P n ∧ ∀ k, n ≠ fvName k
  bits : ∀ ty sy n pre, JCmd.bits (.create ty sy (.str n) pre) ∈ h → ¬ P n ∧ ∀ k, n ≠ fvName k
  auto : ∀ ty sy pre, JCmd.bits (.create ty sy .automatic pre) ∈ h → ∀ k, ¬ P (autoName (pre.getD ['V']) k)

/-- What holds while names are used with care. -/
structure PInv (P : Name → Prop) (s : JState) : Prop where
  inv : JInv s
  nodup : (s.fobjs.map Prod.snd).Nodup
  fsep : ∀ i n, (i, n) ∈ s.fobjs → P n ∨ ∃ k, n = fvName k
  bsep : ∀ i n, (i, n) ∈ s.b.objs → ¬ P n ∧ ∀ k, n ≠ fvName k

theorem PInv.step {P : Name → Prop} {s : JState} (h : PInv P s) {c : JCmd} (hc : Polite P [c]) : PInv P (s.step c).1 := by
  have hi := h.inv.step c
  obtain ⟨tr, hb⟩ := h.inv.bits
  cases c with
  | bits c =>
    refine ⟨hi, h.nodup, h.fsep, fun i n hm => ?_⟩
    rcases (bits_step hb c).2 i n hm with h' | ⟨ty, sy, pre, rfl⟩ | ⟨ty, sy, pre, k, rfl, rfl⟩
    · exact h.bsep i n h'
    · exact hc.bits _ _ _ _ List.mem_cons_self
    · exact ⟨hc.auto _ _ _ List.mem_cons_self k, fun j => (fvName_ne_auto j _ _).symm⟩
  | fpDrop id =>
    exact ⟨hi, (List.filter_sublist.map _).nodup h.nodup, fun i n hm => h.fsep i n (List.mem_filter.1 hm).1, h.bsep⟩
  | fp w sy name =>
    revert hi
    simp only [JState.step, JState.mkFp]
    split
    · exact fun _ => h
    cases name with
    | other => exact fun _ => h
    | str n =>
      obtain ⟨hp, hv⟩ := hc.fp _ _ _ List.mem_cons_self
      dsimp only
      split
      · exact fun _ => h
      · rename_i hn
        cases hs : s.b.symbol n (.bv w) with
        | error e => exact fun hi => ⟨hi, h.nodup, h.fsep, h.bsep⟩
        | ok b =>
          obtain ⟨-, -, sy', rfl, -⟩ := symbol_ok hs
          refine fun hi => ⟨hi, ?_, ?_, h.bsep⟩
          · simp only [List.map_cons, List.nodup_cons]
            refine ⟨fun hm => ?_, h.nodup⟩
            obtain ⟨⟨i, m⟩, h1, h2⟩ := List.mem_map.1 hm
            dsimp only at h2; subst h2
            rcases h.inv.kinds _ _ h1 with h' | ⟨k, e⟩
            · exact hn (List.mem_map.2 ⟨_, h', rfl⟩)
            · exact hv k e
          · intro i m hm
            rcases List.mem_cons.1 hm with hm | hm
            · injection hm with e1 e2; subst e2; exact .inl hp
            · exact h.fsep i m hm
    | automatic =>
      dsimp only
      split
      · split
        · rename_i k hk
          obtain ⟨-, hk⟩ := freshGo_spec hk
          cases hs : s.b.symbol (fvName k) (.bv w) with
          | error e => exact fun _ => h
          | ok b =>
            obtain ⟨-, -, sy', rfl, -⟩ := symbol_ok hs
            refine fun hi => ⟨hi, ?_, ?_, h.bsep⟩
            · simp only [List.map_cons, List.nodup_cons]
              refine ⟨fun hm => ?_, h.nodup⟩
              obtain ⟨⟨i, m⟩, h1, h2⟩ := List.mem_map.1 hm
              dsimp only at h2; subst h2
              exact hk (h.inv.syms _ _ h1)
            · intro i m hm
              rcases List.mem_cons.1 hm with hm | hm
              · injection hm with e1 e2; subst e2; exact .inr ⟨k, rfl⟩
              · exact h.fsep i m hm
        · exact fun _ => h
      · exact fun _ => h

theorem PInv.run {P : Name → Prop} {s : JState} (h : PInv P s) : ∀ {l : List JCmd}, Polite P l → PInv P (s.run l)
  | [], _ => h
  | c :: l, hl => PInv.run (h.step (c := c)
      ⟨fun w sy n hm => hl.fp w sy n (by rw [List.mem_singleton.1 hm]; exact List.mem_cons_self),
       fun ty sy n pre hm => hl.bits ty sy n pre (by rw [List.mem_singleton.1 hm]; exact List.mem_cons_self),
       fun ty sy pre hm => hl.auto ty sy pre (by rw [List.mem_singleton.1 hm]; exact List.mem_cons_self)⟩)
      ⟨fun w sy n hm => hl.fp w sy n (List.mem_cons_of_mem _ hm),
       fun ty sy n pre hm => hl.bits ty sy n pre (List.mem_cons_of_mem _ hm),
       fun ty sy pre hm => hl.auto ty sy pre (List.mem_cons_of_mem _ hm)⟩

/-- **C108** if floats and other values are given names of disjoint sets, and none of the form `FV<k>`, then all
live symbolic values are different variables. -/
theorem C108_independent_partial {P : Name → Prop} {h : List JCmd} (hp : Polite P h) : (jafter h).live.Nodup := by
  have hi : PInv P (jafter h) := PInv.run
    (s := .init) ⟨.init, by simp [JState.init], by simp [JState.init], by simp [JState.init, NameState.init]⟩ hp
  obtain ⟨tr, hb⟩ := hi.inv.bits
  refine List.nodup_append.2 ⟨hb.names, hi.nodup, ?_⟩
  intro n hn m hm e
  subst e
  obtain ⟨⟨i, a⟩, h1, h2⟩ := List.mem_map.1 hn
  obtain ⟨⟨j, b⟩, h3, h4⟩ := List.mem_map.1 hm
  dsimp only at h2 h4
  subst h4; subst h2
  obtain ⟨h5, h6⟩ := hi.bsep _ _ h1
  rcases hi.fsep _ _ h3 with h7 | ⟨k, h7⟩
  · exact h5 h7
  · exact h6 k h7

/-- **C108 refuted**: `SMTFPVector[..]()` is the variable `FV0`, and `SMTFPVector[..](name='FV0')` is accepted and is the
same variable. -/
theorem C108_automatic_refuted :
    let s := (jafter [.fp 16 true .automatic])
    (s.step (.fp 16 true (.str ['F', 'V', '0']))).2 = .ok (some ['F', 'V', '0']) ∧ ['F', 'V', '0'] ∈ s.live ∧
    ((s.step (.fp 16 true (.str ['F', 'V', '0']))).1.live = [['F', 'V', '0'], ['F', 'V', '0']]) := by decide

/-- **C108 refuted**: `SMTBitVector[16](name='x')` and `SMTFPVector[..](name='x')` of 16 bits are the same variable. -/
theorem C108_families_refuted :
    (jafter [.bits (.create (.bv 16) true (.str ['x']) none), .fp 16 true (.str ['x'])]).live = [['x'], ['x']] := by decide

/-- **C108 refuted**: with another width the second call raises `TypeError`, though no float has the name. -/
theorem C108_width_refuted :
    ((jafter [.bits (.create (.bv 8) true (.str ['x']) none)]).step (.fp 16 true (.str ['x']))).2 = .error .typeError := by decide

/-- A careful history: floats are called `x`, the other values get automatic names. -/
example : Polite (· = ['x']) [.fp 16 true (.str ['x']), .bits (.create (.bv 8) true .automatic none), .fp 16 true .automatic] where
  fp w sy n hm := by
    simp only [List.mem_cons, JCmd.fp.injEq, NameArg.str.injEq, reduceCtorEq, and_false, List.not_mem_nil, or_false] at hm
    obtain ⟨-, -, rfl⟩ := hm
    exact ⟨rfl, fun k h => by simp [fvName] at h⟩
  bits ty sy n pre hm := by simp at hm
  auto ty sy pre hm k h := by
    have : '_' ∈ autoName (pre.getD ['V']) k := by simp [autoName]
    rw [h] at this
    exact absurd this (by decide)
example : (jafter [.fp 16 true (.str ['x']), .bits (.create (.bv 8) true .automatic none), .fp 16 true .automatic]).live =
    [['V', '_', '0'], ['F', 'V', '0'], ['x']] := by decide

end HW
