import Verif.Model.Dict
import Verif.Props.Canonical
import Verif.Props.Operators

/-!
# Property C125: dictionaries with vectors as keys
-/

namespace HW
open Machine Spec

/-! ### The specification: a function on values -/

/-- A machine with a function from values to what is stored under them. -/
structure MapMachine where
  mach : Machine
  map : BVal → Option Int

namespace MapMachine

def exec (s : MapMachine) : DInstr → PyM (MapMachine × Option Int)
  | .op c => return ({ s with mach := ← s.mach.exec c }, none)
  | .put k v => do
      let (_, x) ← s.mach.objAt k
      return ({ s with map := fun y => if y = x then some v else s.map y }, none)
  | .get k => do
      let (_, x) ← s.mach.objAt k
      if s.map x = none then .error .keyError else return (s, s.map x)
  | .del k => do
      let (_, x) ← s.mach.objAt k
      if s.map x = none then .error .keyError
      else return ({ s with map := fun y => if y = x then none else s.map y }, none)

def outputs (s : MapMachine) : List DInstr → List (PyM (Option Int))
  | [] => []
  | c :: p => match s.exec c with
    | .ok (s', o) => .ok o :: outputs s' p
    | .error e => .error e :: outputs s p

end MapMachine

namespace DictMachine

/-- The instruction assigns to no object which is a key now. -/
def KeysKept (s : DictMachine) : DInstr → Prop
  | .op (.setitem r _ _) => ∀ a, s.mach.regs[r]? = some (.ref a) → a ∉ s.dict.map (·.key)
  | _ => True

/-- The register a dictionary operation takes its key from. -/
def keyReg : DInstr → Option Nat
  | .op _ => none
  | .put k _ => some k
  | .get k => some k
  | .del k => some k

/-- Throughout the run, keys satisfy `P` and are not assigned to while they are in the dictionary. -/
def Disciplined (H : List Char → Int) (P : BVal → Prop) (s : DictMachine) : List DInstr → Prop
  | [] => True
  | c :: p => KeysKept s c ∧ (∀ k a x, keyReg c = some k → s.mach.objAt k = .ok (a, x) → P x) ∧
      match s.exec H c with
      | .ok (s', _) => Disciplined H P s' p
      | .error _ => Disciplined H P s p

/-! ### Lists of keys and values -/

def look (D : List (Option BVal × Int)) (x : BVal) : Option Int := (D.find? fun p => decide (p.1 = some x)).map (·.2)

theorem look_none {D : List (Option BVal × Int)} {x : BVal} (h : D.findIdx? (fun p => decide (p.1 = some x)) = none) :
    look D x = none ∧ some x ∉ D.map (·.1) := by
  rw [List.findIdx?_eq_none_iff] at h
  constructor
  · unfold look
    rw [List.find?_eq_none.2]
    · rfl
    · intro p hp; simpa using h p hp
  · intro hm
    obtain ⟨p, hp, he⟩ := List.mem_map.1 hm
    simpa [he] using h p hp

theorem look_append (D : List (Option BVal × Int)) (x : BVal) (v : Int) (h : look D x = none) (y : BVal) :
    look (D ++ [(some x, v)]) y = if y = x then some v else look D y := by
  unfold look at *
  rw [List.find?_append]
  by_cases hy : y = x
  · subst hy
    have : D.find? (fun p => decide (p.1 = some y)) = none := by simpa using h
    simp [this]
  · have hn : ¬ x = y := fun e => hy e.symm
    cases hf : D.find? (fun p => decide (p.1 = some y)) <;> simp [hn, hy]

theorem look_some {D : List (Option BVal × Int)} {x : BVal} {i : Nat}
    (h : D.findIdx? (fun p => decide (p.1 = some x)) = some i) :
    look D x = D[i]?.map (·.2) ∧ look D x ≠ none ∧
    (∀ v y, look (D.modify i fun p => (p.1, v)) y = if y = x then some v else look D y) ∧
    ((D.map (·.1)).Nodup → ∀ y, look (D.eraseIdx i) y = if y = x then none else look D y) := by
  induction D generalizing i with
  | nil => simp at h
  | cons q D ih =>
    rw [List.findIdx?_cons] at h
    by_cases hq : q.1 = some x
    · simp only [hq, decide_true, if_true, Option.some.injEq] at h
      subst h
      refine ⟨by simp [look, hq], by simp [look, hq], fun v y => ?_, fun hd y => ?_⟩
      · by_cases hy : y = x
        · subst hy; simp [look, hq]
        · have hn : ¬ x = y := fun e => hy e.symm
          simp [look, hq, hy, hn]
      · by_cases hy : y = x
        · subst hy
          simp only [List.map_cons, List.nodup_cons, hq] at hd
          simp only [List.eraseIdx_zero, List.tail_cons, if_true]
          unfold look
          rw [List.find?_eq_none.2]
          · rfl
          · intro p hp e
            exact hd.1 (List.mem_map.2 ⟨p, hp, by simpa using e⟩)
        · have hn : ¬ x = y := fun e => hy e.symm
          simp [look, hq, hy, hn]
    · simp only [hq, decide_false, Bool.false_eq_true, if_false, Option.map_eq_some_iff] at h
      obtain ⟨j, hj, rfl⟩ := h
      obtain ⟨h1, h2, h3, h4⟩ := ih hj
      have hl : ∀ (D' : List (Option BVal × Int)) y, look (q :: D') y = if q.1 = some y then some q.2 else look D' y := by
        intro D' y
        unfold look
        rw [List.find?_cons]
        by_cases hy : q.1 = some y <;> simp [hy]
      refine ⟨by rw [hl, if_neg hq]; simpa using h1, by rw [hl, if_neg hq]; exact h2, fun v y => ?_, fun hd y => ?_⟩
      · rw [List.modify_succ_cons, hl, hl, h3 v y]
        by_cases hy : y = x
        · subst hy; simp [hq]
        · simp [hy]
      · rw [List.eraseIdx_cons_succ, hl, hl, h4 (by simpa using (List.nodup_cons.1 hd).2) y]
        by_cases hy : y = x
        · subst hy; simp [hq]
        · simp [hy]

theorem eraseIdx_map {α β : Type} (f : α → β) (l : List α) (i : Nat) : (l.map f).eraseIdx i = (l.eraseIdx i).map f := by
  induction l generalizing i with
  | nil => rfl
  | cons a l ih => cases i <;> simp [ih]

/-! ### The invariant -/

/-- Keys with their current values. -/
def pairs (m : Machine) (d : List Entry) : List (Option BVal × Int) := d.map fun e => (m.cells[e.key]?, e.val)

structure Inv (H : List Char → Int) (P : BVal → Prop) (s : DictMachine) (t : MapMachine) : Prop where
  mach : t.mach = s.mach
  canon : s.mach.Canon
  map : ∀ x, t.map x = look (pairs s.mach s.dict) x
  keys : ∀ e ∈ s.dict, ∃ x, s.mach.cells[e.key]? = some x ∧ e.hash = H x.hashKey ∧ P x
  nodup : ((pairs s.mach s.dict).map (·.1)).Nodup

/-- When hashes of two keys agree, `==` says whether they are the same. -/
def Decides (H : List Char → Int) (P : BVal → Prop) : Prop :=
  ∀ x y : BVal, x.WF → y.WF → P x → P y → H y.hashKey = H x.hashKey → eqBool y x = .ok (decide (y = x))

theorem find_ok {H : List Char → Int} {P : BVal → Prop} (hP : Decides H P) {m : Machine} (hm : m.Canon) {a : Nat} {x : BVal}
    (ha : m.cells[a]? = some x) (hx : P x) (d : List Entry)
    (hk : ∀ e ∈ d, ∃ x, m.cells[e.key]? = some x ∧ e.hash = H x.hashKey ∧ P x) :
    find H m a x d = .ok ((pairs m d).findIdx? fun p => decide (p.1 = some x)) := by
  induction d with
  | nil => rfl
  | cons e d ih =>
    obtain ⟨y, hy, hh, hPy⟩ := hk e List.mem_cons_self
    have ih := ih fun e he => hk e (List.mem_cons_of_mem _ he)
    unfold find
    unfold pairs at *
    rw [List.map_cons, List.findIdx?_cons]
    dsimp only
    rw [hy, ih]
    by_cases hyx : y = x
    · subst hyx
      by_cases hka : e.key = a
      · simp [hh, hka, pure, Except.pure]
      · have hw := hm.cells y (List.mem_of_getElem? ha)
        simp [hh, hka, hP y y hw hw hx hPy rfl, pure, Except.pure, bind, Except.bind]
    · have hn : ¬ some y = some x := fun e => hyx (Option.some.inj e)
      have hka : e.key ≠ a := fun e' => by rw [e', ha] at hy; exact hyx (Option.some.inj hy).symm
      by_cases hc : H y.hashKey = H x.hashKey
      · have h1 := hm.cells y (List.mem_of_getElem? hy)
        have h2 := hm.cells x (List.mem_of_getElem? ha)
        simp [hh, hc, hka, hP x y h2 h1 hx hPy hc, hyx, pure, Except.pure, bind, Except.bind]
      · simp [hh, hc, hyx, pure, Except.pure, bind, Except.bind]

/-- Only an assignment changes an existing object, and only its own. -/
theorem cells_kept {m m' : Machine} {c : Instr} (h : m.exec c = .ok m') {a : Nat} {x : BVal} (ha : m.cells[a]? = some x)
    (hs : ∀ r i v, c = .setitem r i v → m.regs[r]? ≠ some (.ref a)) : m'.cells[a]? = some x := by
  have hlt : a < m.cells.length := (List.getElem?_eq_some_iff.1 ha).1
  have put : ∀ (s : Machine) (o : Obj), s.cells[a]? = some x → (s.put o).cells[a]? = some x := by
    intro s o h
    have hlt : a < s.cells.length := (List.getElem?_eq_some_iff.1 h).1
    cases o <;> simp only [Machine.put] <;> first | exact h | (rw [List.getElem?_append_left hlt]; exact h)
  cases hc : isSet c with
  | false =>
    obtain ⟨i, ho⟩ := outcome m c hc m' h
    generalize m.sharesReg c = sh at ho
    cases sh with
    | some r => subst ho; unfold Machine.share; dsimp only; split <;> exact ha
    | none =>
      rcases ho with ⟨o, rfl⟩ | ⟨o, o', rfl, -⟩
      · exact put _ _ ha
      · exact put _ _ (put _ _ ha)
  | true =>
    cases c with
    | setitem r i v =>
      have hr := hs r i v rfl
      simp only [Machine.exec, bind, Except.bind] at h
      split at h
      · cases h
      · split at h
        · cases h
        · split at h
          · cases h
          · split at h
            · rename_i b hb
              cases h
              dsimp only
              rw [List.getElem?_set_ne]
              · exact ha
              · rintro rfl; exact hr hb
            · cases h
    | _ => cases hc

theorem objAt_ok {m : Machine} {r a : Nat} {x : BVal} (h : m.objAt r = .ok (a, x)) : m.cells[a]? = some x := by
  unfold Machine.objAt at h
  split at h
  · split at h
    · cases h; assumption
    · cases h
  · cases h
  · cases h

/-- Steps of the dictionary and of the function agree. -/
theorem exec_inv {H : List Char → Int} {P : BVal → Prop} (hP : Decides H P) {s : DictMachine} {t : MapMachine}
    (h : Inv H P s t) (c : DInstr) (hc : KeysKept s c)
    (hk : ∀ k a x, keyReg c = some k → s.mach.objAt k = .ok (a, x) → P x) :
    match s.exec H c, t.exec c with
    | .ok (s', o), .ok (t', o') => o = o' ∧ Inv H P s' t'
    | .error e, .error e' => e = e'
    | _, _ => False := by
  obtain ⟨m0, d⟩ := s
  obtain ⟨m, f⟩ := t
  obtain ⟨rfl, hcan, hf, hkeys, hnd⟩ := h
  dsimp only at *
  cases c with
  | op c =>
    simp only [DictMachine.exec, MapMachine.exec]
    cases he : m.exec c with
    | error e => simp [bind, Except.bind]
    | ok m' =>
      simp only [bind, Except.bind, pure, Except.pure, true_and]
      have kept : ∀ e ∈ d, m'.cells[e.key]? = m.cells[e.key]? := by
        intro e hed
        obtain ⟨x, hx, -⟩ := hkeys e hed
        rw [hx]
        refine cells_kept he hx fun r i v hcs hr => ?_
        subst hcs
        exact hc _ hr (List.mem_map.2 ⟨e, hed, rfl⟩)
      have hp : pairs m' d = pairs m d := by
        unfold pairs
        exact List.map_congr_left fun e hed => by rw [kept e hed]
      refine ⟨rfl, hcan.exec c _ he, ?_, ?_, ?_⟩
      · intro x; dsimp only; rw [hp]; exact hf x
      · intro e hed; dsimp only; rw [kept e hed]; exact hkeys e hed
      · dsimp only; rw [hp]; exact hnd
  | put k v =>
    simp only [DictMachine.exec, MapMachine.exec]
    cases ho : m.objAt k with
    | error e => simp [bind, Except.bind]
    | ok ax =>
      obtain ⟨a, x⟩ := ax
      have hax := objAt_ok ho
      have hPx := hk k a x rfl ho
      simp only [bind, Except.bind]
      rw [find_ok hP hcan hax hPx d hkeys]
      cases hi : (pairs m d).findIdx? (fun p => decide (p.1 = some x)) with
      | none =>
        obtain ⟨h1, h2⟩ := look_none hi
        simp only [pure, Except.pure, true_and]
        have hp : pairs m (d ++ [⟨H x.hashKey, a, v⟩]) = pairs m d ++ [(some x, v)] := by simp [pairs, hax]
        refine ⟨rfl, hcan, ?_, ?_, ?_⟩
        · intro y; dsimp only; rw [hp, look_append _ _ _ h1, hf]
        · intro e he
          rcases List.mem_append.1 he with he | he
          · exact hkeys e he
          · simp only [List.mem_singleton] at he; subst he; exact ⟨x, hax, rfl, hPx⟩
        · dsimp only; rw [hp, List.map_append]
          refine List.nodup_append.2 ⟨hnd, by simp, ?_⟩
          intro y hy z hz hyz
          simp only [List.map_cons, List.map_nil, List.mem_singleton] at hz
          subst hz; subst hyz; exact h2 hy
      | some i =>
        obtain ⟨-, -, h3, -⟩ := look_some hi
        simp only [pure, Except.pure, true_and]
        have hp : pairs m (d.modify i fun e => { e with val := v }) = (pairs m d).modify i fun p => (p.1, v) := by
          unfold pairs
          apply List.ext_getElem?
          intro j
          simp only [List.getElem?_map, List.getElem?_modify]
          by_cases hij : i = j
          · simp only [hij, if_true]; cases d[j]? <;> rfl
          · simp [hij]
        have hfst : ((pairs m d).modify i fun p => (p.1, v)).map (·.1) = (pairs m d).map (·.1) := by
          apply List.ext_getElem?
          intro j
          simp only [List.getElem?_map, List.getElem?_modify]
          by_cases hij : i = j
          · simp only [hij, if_true]; cases (pairs m d)[j]? <;> rfl
          · simp [hij]
        refine ⟨rfl, hcan, ?_, ?_, ?_⟩
        · intro y; dsimp only; rw [hp, h3, hf]
        · intro e he
          dsimp only at he ⊢
          obtain ⟨j, hj⟩ := List.getElem?_of_mem he
          rw [List.getElem?_modify] at hj
          cases hdj : d[j]? with
          | none => simp [hdj] at hj
          | some e' =>
            have := hkeys e' (List.mem_of_getElem? hdj)
            rw [hdj] at hj
            by_cases hij : i = j
            · simp [hij] at hj; subst hj; exact this
            · simp [hij] at hj; subst hj; exact this
        · dsimp only; rw [hp, hfst]; exact hnd
  | get k =>
    simp only [DictMachine.exec, MapMachine.exec]
    cases ho : m.objAt k with
    | error e => simp [bind, Except.bind]
    | ok ax =>
      obtain ⟨a, x⟩ := ax
      simp only [bind, Except.bind]
      rw [find_ok hP hcan (objAt_ok ho) (hk k a x rfl ho) d hkeys, hf]
      cases hi : (pairs m d).findIdx? (fun p => decide (p.1 = some x)) with
      | none => simp [(look_none hi).1]
      | some i =>
        obtain ⟨h1, h2, -, -⟩ := look_some hi
        rw [if_neg h2]
        simp only [pure, Except.pure]
        refine ⟨?_, ⟨rfl, hcan, hf, hkeys, hnd⟩⟩
        rw [h1]
        simp [pairs, Function.comp_def]
  | del k =>
    simp only [DictMachine.exec, MapMachine.exec]
    cases ho : m.objAt k with
    | error e => simp [bind, Except.bind]
    | ok ax =>
      obtain ⟨a, x⟩ := ax
      simp only [bind, Except.bind]
      rw [find_ok hP hcan (objAt_ok ho) (hk k a x rfl ho) d hkeys, hf]
      cases hi : (pairs m d).findIdx? (fun p => decide (p.1 = some x)) with
      | none => simp [(look_none hi).1]
      | some i =>
        obtain ⟨-, h2, -, h4⟩ := look_some hi
        rw [if_neg h2]
        simp only [pure, Except.pure, true_and]
        have hp : pairs m (d.eraseIdx i) = (pairs m d).eraseIdx i := by simp [pairs, eraseIdx_map]
        refine ⟨rfl, hcan, ?_, ?_, ?_⟩
        · intro y; dsimp only; rw [hp, h4 hnd, hf]
        · intro e he; exact hkeys e (List.mem_of_mem_eraseIdx he)
        · dsimp only; rw [hp, ← eraseIdx_map]; exact hnd.sublist (List.eraseIdx_sublist ..)

theorem outputs_eq {H : List Char → Int} {P : BVal → Prop} (hP : Decides H P) (p : List DInstr) :
    ∀ {s : DictMachine} {t : MapMachine}, Inv H P s t → Disciplined H P s p → s.outputs H p = t.outputs p := by
  induction p with
  | nil => intros; rfl
  | cons c p ih =>
    intro s t h hd
    have hx := exec_inv hP h c hd.1 hd.2.1
    have hd := hd.2.2
    unfold DictMachine.outputs MapMachine.outputs
    cases h1 : s.exec H c with
    | error e =>
      cases h2 : t.exec c with
      | error e' => rw [h1, h2] at hx; rw [h1] at hd; dsimp only at *; rw [hx, ih h hd]
      | ok q => rw [h1, h2] at hx; exact hx.elim
    | ok q =>
      cases h2 : t.exec c with
      | error e' => rw [h1, h2] at hx; exact hx.elim
      | ok q' => rw [h1, h2] at hx; rw [h1] at hd; dsimp only at *; rw [hx.1, ih hx.2 hd]

theorem inv_init (H : List Char → Int) (P : BVal → Prop) : Inv H P ⟨Machine.init, []⟩ ⟨Machine.init, fun _ => none⟩ :=
  ⟨rfl, canon_init, fun _ => rfl, by simp, by simp [pairs]⟩

theorem eqBool_same {x y : BVal} (hx : x.WF) (hy : y.WF) (hn : 0 < x.size) (hk : y.kind = x.kind) (hs : y.size = x.size) :
    eqBool y x = .ok (decide (y = x)) := by
  have hp : x.properSub y = false := by simp [BVal.properSub, BVal.sameType, hk, hs]
  unfold eqBool
  simp only [binC, fwdC, hp, Bool.false_eq_true, if_false, bind, Except.bind,
    cfwd_ref .eq _ hy (hs ▸ hn) (o := .bv x) hx (b := x.value) (by simp [operand, hs])]
  obtain ⟨kx, nx, vx⟩ := x
  obtain ⟨ky, ny, vy⟩ := y
  dsimp only at *
  subst hk hs
  simp [refC, pure, Except.pure]

end DictMachine

open DictMachine

/-- **C125 (partial)** a dictionary whose keys are vectors of one class and width is a function on values, whatever
the hash function, as long as no key is assigned to. -/
theorem C125_one_class_partial (H : List Char → Int) (k : Kind) (n : Nat) (hn : 0 < n) (p : List DInstr)
    (hp : Disciplined H (fun x => x.kind = k ∧ x.size = n) ⟨Machine.init, []⟩ p) :
    DictMachine.outputs H ⟨Machine.init, []⟩ p = MapMachine.outputs ⟨Machine.init, fun _ => none⟩ p := by
  refine outputs_eq (P := fun x => x.kind = k ∧ x.size = n) ?_ p (inv_init H _) hp
  rintro x y hx hy ⟨h1, h2⟩ ⟨h3, h4⟩ -
  exact eqBool_same hx hy (h2 ▸ hn) (h3.trans h1.symm) (h4.trans h2.symm)

/-- Vectors of the predefined classes. -/
def DictMachine.RootKey (x : BVal) : Prop := 0 < x.size ∧ ∃ r, x.kind = .root r

/-- **C125 (partial)** a dictionary whose keys are vectors of any predefined classes and widths is a function on
values when the hashes of different keys differ, as long as no key is assigned to. -/
theorem C125_mixed_partial (H : List Char → Int)
    (hH : ∀ x y : BVal, x.WF → y.WF → RootKey x → RootKey y → H y.hashKey = H x.hashKey → y.hashKey = x.hashKey)
    (p : List DInstr) (hp : Disciplined H RootKey ⟨Machine.init, []⟩ p) :
    DictMachine.outputs H ⟨Machine.init, []⟩ p = MapMachine.outputs ⟨Machine.init, fun _ => none⟩ p := by
  refine outputs_eq ?_ p (inv_init H _) hp
  rintro ⟨kx, nx, vx⟩ ⟨ky, ny, vy⟩ hx hy ⟨h1, r, rfl⟩ ⟨h3, s, rfl⟩ h
  obtain ⟨rfl, rfl, rfl⟩ := (C26_key_injective s r ny nx hy.1 hx.1).1 (hH _ _ hx hy ⟨h1, r, rfl⟩ ⟨h3, s, rfl⟩ h)
  exact eqBool_same hx hy h1 rfl rfl

/-- The condition on hashes is needed: if the hashes of `BitVector[8](1)` and `BitVector[16](1)` agree, looking up one
where the other is a key raises `InconsistentSizeError`. -/
theorem C125_collision (H : List Char → Int)
    (h : H (BVal.mk (.root .bv) 8 1).hashKey = H (BVal.mk (.root .bv) 16 1).hashKey) :
    DictMachine.outputs H ⟨Machine.init, []⟩ [.op (.lit (.int 1)), .op (.new (.root .bv) 8 0), .op (.new (.root .bv) 16 0),
      .put 1 7, .get 2] = [.ok none, .ok none, .ok none, .ok none, .error .inconsistentSize] := by
  let m : Machine := ⟨[⟨.root .bv, 8, 1⟩, ⟨.root .bv, 16, 1⟩], [.imm (.int 1), .ref 0, .ref 1], 0⟩
  have hf : find H m 1 ⟨.root .bv, 16, 1⟩ [⟨H (BVal.mk (.root .bv) 8 1).hashKey, 0, 7⟩] = .error .inconsistentSize := by
    unfold find
    rw [if_pos h]
    rfl
  have hg : DictMachine.exec H ⟨m, [⟨H (BVal.mk (.root .bv) 8 1).hashKey, 0, 7⟩]⟩ (.get 2) = .error .inconsistentSize := by
    change (find H m 1 ⟨.root .bv, 16, 1⟩ _ >>= _) = _
    rw [hf]
    rfl
  change .ok none :: .ok none :: .ok none :: .ok none ::
    DictMachine.outputs H ⟨m, [⟨H (BVal.mk (.root .bv) 8 1).hashKey, 0, 7⟩]⟩ [.get 2] = _
  unfold DictMachine.outputs
  rw [hg]
  rfl

/-- **C125 refuted** without the condition on assignments: after `x = BitVector[8](5); d[x] = 7; x[0] = 0` the
dictionary has its entry under no value: neither `x` nor a new `BitVector[8](5)` is found. -/
theorem C125_refuted (H : List Char → Int)
    (h : H (BVal.mk (.root .bv) 8 5).hashKey ≠ H (BVal.mk (.root .bv) 8 4).hashKey) :
    DictMachine.outputs H ⟨Machine.init, []⟩ [.op (.lit (.int 5)), .op (.new (.root .bv) 8 0), .put 1 7,
      .op (.lit (.int 0)), .op (.setitem 1 (.int 0) 2), .op (.new (.root .bv) 8 0), .get 1, .get 3] =
      [.ok none, .ok none, .ok none, .ok none, .ok none, .ok none, .error .keyError, .error .keyError] := by
  let m : Machine := ⟨[⟨.root .bv, 8, 4⟩, ⟨.root .bv, 8, 5⟩], [.imm (.int 5), .ref 0, .imm (.int 0), .ref 1], 0⟩
  let d : List Entry := [⟨H (BVal.mk (.root .bv) 8 5).hashKey, 0, 7⟩]
  have hf : find H m 0 ⟨.root .bv, 8, 4⟩ d = .ok none := by
    unfold find
    rw [if_neg h]
    rfl
  have hf' : find H m 1 ⟨.root .bv, 8, 5⟩ d = .ok none := by
    unfold find
    rw [if_pos rfl]
    rfl
  have hg : DictMachine.exec H ⟨m, d⟩ (.get 1) = .error .keyError := by
    change (find H m 0 ⟨.root .bv, 8, 4⟩ _ >>= _) = _
    rw [hf]
    rfl
  have hg' : DictMachine.exec H ⟨m, d⟩ (.get 3) = .error .keyError := by
    change (find H m 1 ⟨.root .bv, 8, 5⟩ _ >>= _) = _
    rw [hf']
    rfl
  change .ok none :: .ok none :: .ok none :: .ok none :: .ok none :: .ok none ::
    DictMachine.outputs H ⟨m, d⟩ [.get 1, .get 3] = _
  unfold DictMachine.outputs
  rw [hg]
  unfold DictMachine.outputs
  dsimp only
  rw [hg']
  rfl

/-! A disciplined program: an object computed as `3 + 2` is found under the key `5`, and assigning to it (it is not a
key) does no harm. -/

def DictMachine.demoRun : List DInstr :=
  [.op (.lit (.int 3)), .op (.new (.root .uint) 8 0), .op (.lit (.int 2)), .op (.opA .add 1 2),
   .op (.lit (.int 5)), .op (.new (.root .uint) 8 4), .op (.lit (.bool false)), .put 5 7, .get 3, .op (.setitem 3 (.int 0) 6),
   .get 3, .get 5]

example (H : List Char → Int) : Disciplined H (fun x => x.kind = .root .uint ∧ x.size = 8) ⟨Machine.init, []⟩
    (demoRun.take 8) := by
  refine ⟨trivial, nofun, trivial, nofun, trivial, nofun, trivial, nofun, trivial, nofun, trivial, nofun, trivial, nofun,
    trivial, ?_, trivial⟩
  intro k a x hk ho
  cases hk
  cases ho
  exact ⟨rfl, rfl⟩
example : MapMachine.outputs ⟨Machine.init, fun _ => none⟩ demoRun =
    [.ok none, .ok none, .ok none, .ok none, .ok none, .ok none, .ok none, .ok none, .ok (some 7), .ok none,
     .error .keyError, .ok (some 7)] := by decide

end HW
