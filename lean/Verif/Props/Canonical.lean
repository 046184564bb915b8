import Verif.Lemmas.Canonical
import Verif.Props.PolyOperators

/-!
# C01 canonical values, C70 freshness of results
-/

namespace HW
open Spec
namespace Machine

/-- Every vector object in the heap is canonical, references point into the heap. -/
structure Canon (s : Machine) : Prop where
  cells : ∀ x ∈ s.cells, x.WF
  refs : ∀ a, Reg.ref a ∈ s.regs → a < s.cells.length
  imms : ∀ x, Reg.imm (.bv x) ∉ s.regs

theorem Canon.read {s : Machine} (h : s.Canon) {r : Nat} {o : Obj} (hr : s.read r = some o) : o.WF := by
  unfold Machine.read at hr
  cases hc : s.regs[r]? with
  | none => rw [hc] at hr; cases hr
  | some v =>
    rw [hc] at hr
    have hm := List.mem_of_getElem? hc
    cases v with
    | imm o' =>
      cases hr
      cases o with
      | bv x => exact absurd hm (h.imms x)
      | _ => trivial
    | ref a =>
      simp only [Option.map_eq_some_iff] at hr
      obtain ⟨x, hx, rfl⟩ := hr
      exact h.cells x (List.mem_of_getElem? hx)

theorem Canon.readBV {s : Machine} (h : s.Canon) (r : Nat) : Post BVal.WF (s.readBV r) := by
  intro x hx
  unfold Machine.readBV at hx
  split at hx
  · rename_i y hy
    cases hx
    exact h.read hy
  · cases hx

theorem Canon.readObj {s : Machine} (h : s.Canon) (r : Nat) : Post Obj.WF (s.readObj r) := by
  intro x hx
  unfold Machine.readObj at hx
  split at hx
  · rename_i y hy
    cases hx
    exact h.read hy
  · cases hx

theorem Canon.put {s : Machine} (h : s.Canon) {o : Obj} (ho : o.WF) : (s.put o).Canon := by
  cases o with
  | bv x =>
    refine ⟨fun y hy => ?_, fun a ha => ?_, fun y hy => ?_⟩
    · simp only [Machine.put, List.mem_append, List.mem_singleton] at hy
      rcases hy with hy | rfl
      · exact h.cells y hy
      · exact ho
    · simp only [Machine.put, List.mem_append, List.mem_singleton, Reg.ref.injEq,
        List.length_append, List.length_singleton] at ha ⊢
      rcases ha with ha | rfl
      · exact Nat.lt_succ_of_lt (h.refs a ha)
      · exact Nat.lt_succ_self _
    · simp only [Machine.put, List.mem_append, List.mem_singleton, reduceCtorEq, or_false] at hy
      exact h.imms y hy
  | _ =>
    refine ⟨h.cells, fun a ha => ?_, fun y hy => ?_⟩
    · simp only [Machine.put, List.mem_append, List.mem_singleton, reduceCtorEq, or_false] at ha
      exact h.refs a ha
    · simp [Machine.put] at hy
      exact h.imms y hy

theorem Canon.share {s : Machine} (h : s.Canon) (r : Nat) : (s.share r).Canon := by
  unfold Machine.share
  cases hc : s.regs[r]? with
  | none => exact h
  | some v =>
    have hm := List.mem_of_getElem? hc
    refine ⟨h.cells, fun a ha => ?_, fun y hy => ?_⟩
    · simp only [List.mem_append, List.mem_singleton] at ha
      rcases ha with ha | rfl
      · exact h.refs a ha
      · exact h.refs a hm
    · simp only [List.mem_append, List.mem_singleton] at hy
      rcases hy with hy | rfl
      · exact h.imms y hy
      · exact h.imms y hm

theorem Canon.nid {s : Machine} (h : s.Canon) (i : Nat) : ({ s with nid := i } : Machine).Canon :=
  ⟨h.cells, h.refs, h.imms⟩

theorem Canon.runF {s : Machine} (h : s.Canon) {α : Type} {P : α → Prop} {m : PyF α} (hm : PostF P m) :
    Post (fun p => P p.1 ∧ p.2.Canon) (s.runF m) :=
  post_bind (hm s.nid) fun p hp => post_ok ⟨hp, h.nid p.2⟩

theorem toBranch_WF {o : Obj} (h : o.WF) : (toBranch o).WF := by
  cases o <;> exact h

theorem post_ofBranch {b : Branch} (h : b.WF) : Post Obj.WF (ofBranch b) := by
  cases b <;> first | exact post_ok h | exact post_error

theorem bit_WF (b : Bool) : (Obj.bit b).WF := trivial

theorem post_binC (op : COp) (l r : Obj) : Post Obj.WF (binC op l r) := by
  have hd : Post Obj.WF (defaultC op) := by
    cases op <;> first | exact post_error | exact post_ok trivial
  have pick (m : PyM (Option Bool)) (k : PyM Obj) (hk : Post Obj.WF k) :
      Post Obj.WF (do match ← m with
        | some v => return .bit v
        | none => k) := by
    refine post_bind' fun a => ?_
    cases a with
    | none => exact hk
    | some a => exact post_ok (bit_WF a)
  exact post_ite (pick _ _ (pick _ _ hd)) (pick _ _ (pick _ _ hd))

theorem Canon.exec {s : Machine} (h : s.Canon) (c : Instr) : Post Canon (s.exec c) := by
  have pb (r : Nat) := h.readBV r
  have po (r : Nat) := h.readObj r
  cases c with
  | lit o =>
    cases o with
    | bv x => exact post_error
    | _ => exact post_ok (h.put trivial)
  | new k n v =>
    exact post_bind' fun o => post_bind (post_mk k n o) fun x hx => post_ok (h.put (o := .bv x) hx)
  | un m x =>
    exact post_bind (pb x) fun a _ => post_bind (post_umeth m a) fun r hr => post_ok (h.put (o := .bv r) hr)
  | meth m x y =>
    refine post_bind (pb x) fun a ha => post_bind (po y) fun o _ =>
      post_bind (post_bmeth m ha o) fun r hr => post_ok ?_
    split
    · exact h.share x
    · exact h.put (o := .bv r) hr
  | cmeth m x y =>
    exact post_bind' fun a => post_bind' fun o => post_bind' fun r => post_ok (h.put (bit_WF r))
  | opA op x y =>
    refine post_bind (po x) fun a ha => post_bind (po y) fun b hb =>
      post_bind (h.runF (postF_binA op ha hb)) fun p hp => post_ok ?_
    split
    · exact hp.2.share x
    · exact hp.2.put hp.1
  | opC op x y =>
    exact post_bind' fun a => post_bind' fun b => post_bind (post_binC op a b) fun r hr =>
      post_ok (h.put hr)
  | invert x =>
    refine post_bind' fun a => post_bind (Q := Obj.WF) ?_ fun r hr => post_ok (h.put hr)
    cases a with
    | bv x => exact post_bind (post_mk' _ _) fun r hr => post_ok hr
    | bit b => exact post_ok trivial
    | int v => exact post_ok trivial
    | bool b => exact post_ok trivial
    | _ => exact post_error
  | neg x =>
    refine post_bind' fun a => post_bind (Q := Obj.WF) ?_ fun r hr => post_ok (h.put hr)
    cases a with
    | bv x => exact post_bind (post_mk' _ _) fun r hr => post_ok hr
    | int v => exact post_ok trivial
    | bool b => exact post_ok trivial
    | _ => exact post_error
  | getitem x i =>
    refine post_bind' fun a => post_bind (Q := Obj.WF) ?_ fun r hr => post_ok (h.put hr)
    cases i with
    | int i => exact post_bind' fun b => post_ok (bit_WF b)
    | slice sl => exact post_bind (post_slice a sl) fun r hr => post_ok hr
    | other => exact post_error
  | setitem x i v =>
    refine post_bind' fun a => post_bind' fun o => post_bind (post_setitem a i o) fun r hr => ?_
    split
    · refine post_ok ⟨fun y hy => ?_, fun b hb => ?_, h.imms⟩
      · rcases List.mem_or_eq_of_mem_set hy with hy | rfl
        · exact h.cells y hy
        · exact hr
      · simpa using h.refs b hb
    · exact post_error
  | concat x y =>
    exact post_bind' fun a => post_bind' fun b => post_bind (post_concat a b) fun r hr =>
      post_ok (h.put (o := .bv r) hr)
  | zext x k =>
    exact post_bind' fun a => post_bind (post_zext a k) fun r hr => post_ok (h.put (o := .bv r) hr)
  | sext x k =>
    exact post_bind' fun a => post_bind (post_sext a k) fun r hr => post_ok (h.put (o := .bv r) hr)
  | ext x k =>
    exact post_bind' fun a => post_bind (h.runF (postF_ext _ a k)) fun p hp =>
      post_ok (hp.2.put (o := .bv p.1) hp.1)
  | rep x k =>
    exact post_bind' fun a => post_bind (post_repeat a k) fun r hr => post_ok (h.put (o := .bv r) hr)
  | adc x y c =>
    exact post_bind' fun a => post_bind' fun o => post_bind' fun d => post_bind (post_adc a o d)
      fun p hp => post_ok ((h.put (o := .bv p.1) hp).put (bit_WF p.2))
  | overflow x y z =>
    exact post_bind' fun a => post_bind' fun b => post_bind' fun d => post_bind' fun r =>
      post_ok (h.put (bit_WF r))
  | ite c t f =>
    refine post_bind (po t) fun ot ht => post_bind (po f) fun of hf => post_bind' fun oc => ?_
    have hi : PostF Branch.WF (iteOn oc (toBranch ot) (toBranch of)) := by
      cases oc with
      | bit b => exact postF_ite b (toBranch_WF ht) (toBranch_WF hf)
      | bv x =>
        exact postF_bind (Q := fun _ => True) (postF_lift post_true) fun b _ =>
          postF_ite b (toBranch_WF ht) (toBranch_WF hf)
      | _ => exact postF_lift post_error
    exact post_bind (h.runF hi) fun p hp =>
      post_bind (post_ofBranch hp.1) fun r hr => post_ok (hp.2.put hr)
  | bits x => exact post_bind' fun a => post_ok (h.put trivial)
  | asUint x => exact post_bind' fun a => post_ok (h.put trivial)
  | asSint x => exact post_bind' fun a => post_bind' fun v => post_ok (h.put trivial)

theorem Canon.step {s : Machine} (h : s.Canon) (c : Instr) : (s.step c).Canon := by
  unfold Machine.step
  cases hc : s.exec c with
  | ok s' => exact h.exec c s' hc
  | error e => exact h

theorem canon_init : init.Canon := by
  refine ⟨?_, ?_, ?_⟩ <;> simp [init]

theorem Canon.run {s : Machine} (h : s.Canon) (p : List Instr) : (s.run p).Canon := by
  induction p generalizing s with
  | nil => exact h
  | cons c p ih => exact ih (h.step c)

end Machine

/-- **C01** after any client program, every vector in any register (and in the whole heap) has
`0 <= x.as_uint() < 2**n`. -/
theorem C01_programs (p : List Instr) :
    (∀ r x, (Machine.init.run p).read r = some (.bv x) → 0 ≤ x.asUint ∧ x.asUint < 2 ^ x.size) ∧
    (∀ x ∈ (Machine.init.run p).cells, 0 ≤ x.asUint ∧ x.asUint < 2 ^ x.size) := by
  have h := Machine.canon_init.run p
  exact ⟨fun r x hr => h.read hr, h.cells⟩

/-- **C01** stated per operation: whatever the operands, a returned vector is canonical (the operands
must be canonical only where the code returns an operand itself). -/
theorem C01_operations :
    (∀ k n o x, mkBV k n o = .ok x → 0 ≤ x.value ∧ x.value < 2 ^ n) ∧
    (∀ (m : BMeth) {x : BVal} (_ : x.WF) o r, m.run x o = .ok r → 0 ≤ r.value ∧ r.value < 2 ^ r.size) ∧
    (∀ (x : BVal) i o r, x.setitem i o = .ok r → 0 ≤ r.value ∧ r.value < 2 ^ r.size) ∧
    (∀ (op : AOp) {l r : Obj} (_ : l.WF) (_ : r.WF) i x i', binA op l r i = .ok (.bv x, i') →
      0 ≤ x.value ∧ x.value < 2 ^ x.size) := by
  refine ⟨fun k n o x h => ?_, fun m x hx o r h => post_bmeth m hx o r h,
    fun x i o r h => post_setitem x i o r h, fun op l r hl hr i x i' h => postF_binA op hl hr i _ h⟩
  have := mkBV_WF h
  rw [← this.2.2]; exact this.1

/-- A program that builds vectors, mixes classes with `ite`, assigns and extends. -/
def demo : List Instr :=
  [.lit (.int (-3)), .new (.root .sint) 8 0, .new (.root .uint) 8 0, .lit (.bit false), .ite 3 1 2,
   .opA .mul 4 1, .setitem 5 (.int 7) 3, .sext 5 4]

example : (Machine.init.run demo).read 6 = some (.bv ⟨.poly 0 (.root .sint) (.root .uint) false, 12, 9⟩) := by
  rfl

/-! ## C70 freshness -/

namespace Machine

theorem read_put_old {s : Machine} (h : s.Canon) (o : Obj) {r : Nat} (hr : r < s.regs.length) :
    (s.put o).read r = s.read r := by
  unfold Machine.read
  cases o with
  | bv x =>
    simp only [Machine.put, List.getElem?_append_left hr]
    cases hc : s.regs[r]? with
    | none => rfl
    | some v =>
      cases v with
      | imm o => rfl
      | ref a =>
        have := h.refs a (List.mem_of_getElem? hc)
        simp [List.getElem?_append_left this]
  | _ => simp only [Machine.put, List.getElem?_append_left hr]

theorem read_share_old (s : Machine) (x : Nat) {r : Nat} (hr : r < s.regs.length) :
    (s.share x).read r = s.read r := by
  unfold Machine.share
  cases hc : s.regs[x]? with
  | none => rfl
  | some v => simp only [Machine.read, List.getElem?_append_left hr]

/-- Old registers keep their contents. -/
def Keeps (s s' : Machine) : Prop :=
  s.regs.length ≤ s'.regs.length ∧ ∀ r, r < s.regs.length → s'.read r = s.read r

theorem keeps_put {s : Machine} (h : s.Canon) (o : Obj) : Keeps s (s.put o) := by
  refine ⟨?_, fun r hr => read_put_old h o hr⟩
  cases o <;> simp [Machine.put]

theorem keeps_share (s : Machine) (x : Nat) : Keeps s (s.share x) := by
  refine ⟨?_, fun r hr => read_share_old s x hr⟩
  unfold Machine.share
  split <;> simp

theorem keeps_nid {s : Machine} {i : Nat} {t : Machine} (h : Keeps { s with nid := i } t) : Keeps s t := h

theorem keeps_trans {a b c : Machine} (h : Keeps a b) (h' : Keeps b c) : Keeps a c :=
  ⟨h.1.trans h'.1, fun r hr => (h'.2 r (hr.trans_le h.1)).trans (h.2 r hr)⟩

theorem runF_nid {s : Machine} {α : Type} {m : PyF α} :
    Post (fun p => ∃ i, p.2 = { s with nid := i }) (s.runF m) :=
  post_bind' fun p => post_ok ⟨p.2, rfl⟩

/-- How an instruction other than `setitem` ends: it appends a new object, or shares register
`x`, exactly when `sharesReg` says so. -/
def sharesReg (s : Machine) : Instr → Option Nat
  | .meth m x y =>
      match s.readBV x, s.readObj y with
      | .ok a, .ok o => if remSelf m a o then some x else none
      | _, _ => none
  | .opA op x y =>
      match s.readObj x, s.readObj y with
      | .ok a, .ok b => if op == .mod && modSelf a b then some x else none
      | _, _ => none
  | _ => none

def isSet : Instr → Bool
  | .setitem .. => true
  | _ => false

/-- Result shape of non-assignments. -/
def Outcome (s : Machine) (sh : Option Nat) (s' : Machine) : Prop :=
  ∃ i, match sh with
    | some x => s' = ({ s with nid := i } : Machine).share x
    | none => (∃ o, s' = ({ s with nid := i } : Machine).put o) ∨
        ∃ o o', s' = (({ s with nid := i } : Machine).put o).put o' ∧ ∃ x b, o = .bv x ∧ o' = .bit b

theorem outcome (s : Machine) (c : Instr) (hc : isSet c = false) : Post (Outcome s (s.sharesReg c)) (s.exec c) := by
  have P1 (o : Obj) : Outcome s none (s.put o) := ⟨s.nid, Or.inl ⟨o, rfl⟩⟩
  cases c with
  | setitem => cases hc
  | lit o => cases o <;> first | exact post_error | exact post_ok (P1 _)
  | meth m x y =>
    intro s' h
    simp only [Machine.exec, bind, Except.bind] at h
    simp only [sharesReg]
    split at h
    · cases h
    · rename_i a ha
      split at h
      · cases h
      · rename_i o ho
        split at h
        · cases h
        · simp only [pure, Except.pure, Except.ok.injEq] at h
          rw [ha, ho]
          dsimp only
          split at h
          · rename_i hs; rw [if_pos hs]; exact ⟨s.nid, h.symm⟩
          · rename_i hs; rw [if_neg hs, ← h]; exact P1 _
  | opA op x y =>
    intro s' h
    simp only [Machine.exec, bind, Except.bind] at h
    simp only [sharesReg]
    split at h
    · cases h
    · rename_i a ha
      split at h
      · cases h
      · rename_i o ho
        split at h
        · cases h
        · rename_i p hp
          obtain ⟨i, hi⟩ := runF_nid p hp
          simp only [pure, Except.pure, Except.ok.injEq] at h
          rw [hi] at h
          rw [ha, ho]
          dsimp only
          split at h
          · rename_i hs; rw [if_pos hs]; exact ⟨i, h.symm⟩
          · rename_i hs; rw [if_neg hs]; exact ⟨i, Or.inl ⟨_, h.symm⟩⟩
  | ext x k =>
    refine post_bind' fun a => post_bind runF_nid fun p hp => post_ok ?_
    obtain ⟨i, hi⟩ := hp
    exact ⟨i, Or.inl ⟨_, by rw [hi]⟩⟩
  | ite c t f =>
    refine post_bind' fun a => post_bind' fun b => post_bind' fun d => ?_
    refine post_bind runF_nid fun p hp => post_bind' fun r => post_ok ?_
    obtain ⟨i, hi⟩ := hp
    exact ⟨i, Or.inl ⟨_, by rw [hi]⟩⟩
  | adc x y c =>
    exact post_bind' fun a => post_bind' fun b => post_bind' fun d => post_bind' fun p => post_ok
      ⟨s.nid, Or.inr ⟨_, _, rfl, _, _, rfl, rfl⟩⟩
  | new k n v => exact post_bind' fun _ => post_bind' fun _ => post_ok (P1 _)
  | un m x => exact post_bind' fun _ => post_bind' fun _ => post_ok (P1 _)
  | cmeth m x y => exact post_bind' fun _ => post_bind' fun _ => post_bind' fun _ => post_ok (P1 _)
  | opC op x y => exact post_bind' fun _ => post_bind' fun _ => post_bind' fun _ => post_ok (P1 _)
  | invert x => exact post_bind' fun _ => post_bind' fun _ => post_ok (P1 _)
  | neg x => exact post_bind' fun _ => post_bind' fun _ => post_ok (P1 _)
  | getitem x i => exact post_bind' fun _ => post_bind' fun _ => post_ok (P1 _)
  | concat x y => exact post_bind' fun _ => post_bind' fun _ => post_bind' fun _ => post_ok (P1 _)
  | zext x k => exact post_bind' fun _ => post_bind' fun _ => post_ok (P1 _)
  | sext x k => exact post_bind' fun _ => post_bind' fun _ => post_ok (P1 _)
  | rep x k => exact post_bind' fun _ => post_bind' fun _ => post_ok (P1 _)
  | overflow x y z =>
    exact post_bind' fun _ => post_bind' fun _ => post_bind' fun _ => post_bind' fun _ => post_ok (P1 _)
  | bits x => exact post_bind' fun _ => post_ok (P1 _)
  | asUint x => exact post_bind' fun _ => post_ok (P1 _)
  | asSint x => exact post_bind' fun _ => post_bind' fun _ => post_ok (P1 _)

/-- No two registers refer to the same object. -/
def Separate (s : Machine) : Prop :=
  ∀ (r r' a : Nat), s.regs[r]? = some (Reg.ref a) → s.regs[r']? = some (Reg.ref a) → r = r'

theorem separate_put {s : Machine} (hc : s.Canon) (h : s.Separate) (o : Obj) : (s.put o).Separate := by
  intro r r' a hr hr'
  have key (l : List Reg) (v : Reg) (r : Nat) (hh : (l ++ [v])[r]? = some (.ref a)) :
      l[r]? = some (.ref a) ∨ (r = l.length ∧ v = .ref a) := by
    rcases Nat.lt_or_ge r l.length with hlt | hge
    · rw [List.getElem?_append_left hlt] at hh; exact Or.inl hh
    · rw [List.getElem?_append_right hge] at hh
      have : r - l.length = 0 := by
        by_contra hne
        rw [List.getElem?_eq_none (by simp; omega)] at hh; cases hh
      rw [this] at hh
      exact Or.inr ⟨by omega, by simpa using hh⟩
  cases o with
  | bv x =>
    simp only [Machine.put] at hr hr'
    rcases key _ _ _ hr with h1 | ⟨h1, e1⟩ <;> rcases key _ _ _ hr' with h2 | ⟨h2, e2⟩
    · exact h r r' a h1 h2
    · cases e2
      exact absurd (hc.refs _ (List.mem_of_getElem? h1)) (Nat.lt_irrefl _)
    · cases e1
      exact absurd (hc.refs _ (List.mem_of_getElem? h2)) (Nat.lt_irrefl _)
    · omega
  | _ =>
    simp only [Machine.put] at hr hr'
    rcases key _ _ _ hr with h1 | ⟨h1, e1⟩
    · rcases key _ _ _ hr' with h2 | ⟨h2, e2⟩
      · exact h r r' a h1 h2
      · cases e2
    · cases e1

/-- No instruction of the program hits the shared-result case (remainder by zero) when executed. -/
def NoShare : Machine → List Instr → Prop
  | _, [] => True
  | s, c :: p => s.sharesReg c = none ∧ NoShare (s.step c) p

/-- No executed instruction takes a remainder (`bvurem`, `bvsrem` or `%`) of a vector by an operand that counts as zero
at its width. -/
def RemNonzero : Machine → List Instr → Prop
  | _, [] => True
  | s, c :: p => (∀ x y a b, (c = .meth .bvurem x y ∨ c = .meth .bvsrem x y ∨ c = .opA .mod x y) →
      s.read x = some (.bv a) → s.read y = some b → operand a.size b ≠ .ok 0) ∧ RemNonzero (s.step c) p

theorem coerce_zero {k : Kind} {n : Nat} {o : Obj} (h : operand n o ≠ .ok 0) :
    (match coerce k n o with
      | .ok y => y.value == 0
      | .error _ => false) = false := by
  rcases coerce_eq k n o with ⟨y, h1, h2, _⟩ | ⟨e, h1, _⟩
  · rw [h1]
    rw [h2] at h
    simp only [beq_eq_false_iff_ne]
    exact fun e => h (by rw [e])
  · rw [h1]

theorem sharesReg_none {s : Machine} {c : Instr} (h : ∀ x y a b,
    (c = .meth .bvurem x y ∨ c = .meth .bvsrem x y ∨ c = .opA .mod x y) →
      s.read x = some (.bv a) → s.read y = some b → operand a.size b ≠ .ok 0) : s.sharesReg c = none := by
  cases c with
  | meth m x y =>
    simp only [sharesReg]
    cases hx : s.readBV x with
    | error e => rfl
    | ok a =>
      cases hy : s.readObj y with
      | error e => rfl
      | ok o =>
        have hx' : s.read x = some (.bv a) := by
          unfold readBV at hx
          split at hx
          · rename_i h; cases hx; exact h
          · cases hx
        have hy' : s.read y = some o := by
          unfold readObj at hy
          split at hy
          · rename_i h; cases hy; exact h
          · cases hy
        have : remSelf m a o = false := by
          unfold remSelf
          by_cases hm : m = .bvurem ∨ m = .bvsrem
          · rw [Bool.and_eq_false_iff]
            exact .inr (coerce_zero (h x y a o (by rcases hm with rfl | rfl <;> simp) hx' hy'))
          · rw [not_or] at hm
            simp [hm.1, hm.2]
        simp [this]
  | opA op x y =>
    simp only [sharesReg]
    cases hx : s.readObj x with
    | error e => rfl
    | ok l =>
      cases hy : s.readObj y with
      | error e => rfl
      | ok r =>
        have hx' : s.read x = some l := by
          unfold readObj at hx
          split at hx
          · rename_i h; cases hx; exact h
          · cases hx
        have hy' : s.read y = some r := by
          unfold readObj at hy
          split at hy
          · rename_i h; cases hy; exact h
          · cases hy
        have : (op == .mod && modSelf l r) = false := by
          by_cases hm : op = .mod
          · subst hm
            cases l with
            | bv a =>
              rw [Bool.and_eq_false_iff]
              right
              simp only [modSelf]
              rw [Bool.and_eq_false_iff]
              right
              exact coerce_zero (h x y a r (.inr (.inr rfl)) hx' hy')
            | _ => rfl
          · simp [hm]
        simp [this]
  | _ => rfl

theorem noShare_of {s : Machine} (p : List Instr) (h : RemNonzero s p) : NoShare s p := by
  induction p generalizing s with
  | nil => trivial
  | cons c p ih => exact ⟨sharesReg_none h.1, ih h.2⟩

theorem separate_step {s : Machine} (hc : s.Canon) (h : s.Separate) (c : Instr)
    (hs : s.sharesReg c = none) : (s.step c).Separate := by
  unfold Machine.step
  cases he : s.exec c with
  | error e => exact h
  | ok s' =>
    dsimp only
    by_cases hset : isSet c = true
    · cases c <;> simp only [isSet, Bool.false_eq_true] at hset
      rename_i x i v
      simp only [Machine.exec, bind, Except.bind] at he
      split at he
      · cases he
      · split at he
        · cases he
        · split at he
          · cases he
          · split at he
            · cases he; exact h
            · cases he
    · obtain ⟨i, ho⟩ := outcome s c (by simpa using hset) s' he
      rw [hs] at ho
      rcases ho with ⟨o, rfl⟩ | ⟨o, o', rfl, x, b, rfl, rfl⟩
      · exact separate_put (hc.nid i) h o
      · -- the second `put` appends a `Bit`, which is no reference
        have h1 := separate_put (hc.nid i) h (.bv x)
        intro r r' a hr hr'
        have back (r : Nat) (hh : (((({ s with nid := i } : Machine).put (.bv x)).put (.bit b)).regs)[r]? =
            some (.ref a)) : (({ s with nid := i } : Machine).put (.bv x)).regs[r]? = some (.ref a) := by
          have e : (({ s with nid := i } : Machine).put (.bv x) |>.put (.bit b)).regs =
              (({ s with nid := i } : Machine).put (.bv x)).regs ++ [.imm (.bit b)] := rfl
          rw [e, List.getElem?_append] at hh
          split at hh
          · exact hh
          · rw [List.getElem?_singleton] at hh
            split at hh <;> cases hh
        exact h1 r r' a (back r hr) (back r' hr')

theorem separate_run {s : Machine} (hc : s.Canon) (h : s.Separate) (p : List Instr) (hp : NoShare s p) :
    (s.run p).Separate := by
  induction p generalizing s with
  | nil => exact h
  | cons c p ih => exact ih (hc.step c) (separate_step hc h c hp.1) hp.2

end Machine

open Machine in
/-- **C70** operands (indeed all existing vectors) are unchanged by every operation except item
assignment, in every reachable state. -/
theorem C70_operands_unchanged (p : List Instr) (c : Instr) (hc : isSet c = false) (r : Nat)
    (hr : r < (init.run p).regs.length) : ((init.run p).step c).read r = (init.run p).read r := by
  have h := canon_init.run p
  generalize init.run p = s at h hr ⊢
  unfold Machine.step
  cases he : s.exec c with
  | error e => rfl
  | ok s' =>
    obtain ⟨i, ho⟩ := outcome s c hc s' he
    dsimp only
    generalize s.sharesReg c = sh at ho
    cases sh with
    | some x => subst ho; exact (keeps_nid (keeps_share _ x)).2 r hr
    | none =>
      rcases ho with ⟨o, rfl⟩ | ⟨o, o', rfl, x, b, rfl, rfl⟩
      · exact (keeps_nid (keeps_put (h.nid i) o)).2 r hr
      · exact (keeps_nid (keeps_trans (keeps_put (h.nid i) (.bv x)) (keeps_put ((h.nid i).put (o := .bv x) (by
          have := (h.exec c _ he).cells x (by simp [Machine.put])
          exact this)) (.bit b)))).2 r hr

open Machine in
/-- **C70 (partial)** in programs that take no remainder by zero, an item assignment through one
register changes no other register.  Full claim: without the restriction; refuted below. -/
theorem C70_assignment_local_partial (p : List Instr) (hp : RemNonzero init p) (x : Nat) (i : BVal.Index)
    (v r : Nat) (hr : r ≠ x) :
    ((init.run p).step (.setitem x i v)).read r = (init.run p).read r := by
  have hs : (init.run p).Separate := separate_run canon_init (by intro r r' a h; simp [init] at h) p (noShare_of p hp)
  generalize init.run p = s at hs ⊢
  unfold Machine.step
  cases he : s.exec (.setitem x i v) with
  | error e => rfl
  | ok s' =>
    dsimp only
    simp only [Machine.exec, bind, Except.bind] at he
    split at he
    · cases he
    · split at he
      · cases he
      · split at he
        · cases he
        · split at he
          · rename_i a ha
            cases he
            unfold Machine.read
            dsimp only
            cases hrr : s.regs[r]? with
            | none => rfl
            | some w =>
              cases w with
              | imm o => rfl
              | ref b =>
                have hne : a ≠ b := by
                  rintro rfl
                  exact hr (hs r x a hrr ha)
                simp [List.getElem?_set_ne hne]
          · cases he

theorem remainder_zero (m : BMeth) (x : BVal) (o : Obj) (ho : o.WF)
    (h : Machine.remSelf m x o = true) (r : BVal) (hr : m.run x o = .ok r) : r = x := by
  unfold Machine.remSelf at h
  cases hc : coerce x.kind x.size o with
  | error e => simp [hc] at h
  | ok y =>
    simp only [hc, Bool.and_eq_true, Bool.or_eq_true, beq_iff_eq] at h
    have hy : y.size = x.size := by
      cases o with
      | bv z =>
        simp only [coerce] at hc
        split at hc
        · cases hc
        · rename_i hz; cases hc; simpa using hz
      | _ => simp only [coerce] at hc; exact (mkBV_WF hc).2.2
    have hyw : y.WF := post_coerce _ _ ho y hc
    rcases h with ⟨rfl | rfl, h0⟩
    · simp [BMeth.run, BVal.bvurem, BVal.cast, hc, bind, Except.bind, BVal.asUint, h0] at hr
      exact hr.symm
    · simp only [BMeth.run, BVal.bvsrem, BVal.cast, hc, bind, Except.bind] at hr
      rcases Nat.eq_zero_or_pos x.size with hz | hn
      · have : y.asSint = .error .indexError := by
          simp [BVal.asSint, BVal.getIdx, hy, hz, bind, Except.bind]
        rw [this] at hr; cases hr
      · have : y.asSint = .ok 0 := by
          rw [asSint_eq hyw, if_neg (by omega), h0]
          simp [signed]
        rw [this] at hr
        simp at hr; exact hr.symm

theorem fwd_mod_zero {im : Impl} (him : im = .uns ∨ im = .sgn) {x y : BVal} {o : Obj} (ho : o.WF)
    (hc : coerce x.kind x.size o = .ok y) (h0 : y.value = 0) {i : Nat} {v : Option BVal} {i' : Nat}
    (h : AOp.fwd .mod im x o i = .ok (v, i')) : v = some x := by
  have key (m : BMeth) (hm : m = .bvurem ∨ m = .bvsrem)
      (hh : pyLift (tryOper (m.run x o)) i = .ok (v, i')) : v = some x := by
    cases hr : m.run x o with
    | ok r =>
      have e := remainder_zero m x o ho (by
        simp only [Machine.remSelf, hc, h0]
        rcases hm with rfl | rfl <;> rfl) r hr
      rw [hr] at hh
      simp only [tryOper, pyLift, Except.map, Except.ok.injEq, Prod.mk.injEq] at hh
      rw [← hh.1, e]
    | error e =>
      exfalso
      have : e = .indexError := by
        rcases hm with rfl | rfl
        · simp [BMeth.run, BVal.bvurem, BVal.cast, hc, bind, Except.bind, BVal.asUint, h0] at hr
        · simp only [BMeth.run, BVal.bvsrem, BVal.cast, hc, bind, Except.bind] at hr
          rw [asSint_eq (post_coerce _ _ ho y hc), h0] at hr
          by_cases hz : y.size = 0
          · simp [hz] at hr; exact hr.symm
          · simp [hz, signed] at hr
      rw [hr, this] at hh
      simp [tryOper, pyLift, Except.map] at hh
  rcases him with rfl | rfl
  · exact key .bvurem (Or.inl rfl) h
  · exact key .bvsrem (Or.inr rfl) h

theorem mod_zero {l r : Obj} (hl : l.WF) (hr : r.WF) (h : Machine.modSelf l r = true) {i : Nat} {v : Obj}
    {i' : Nat} (hv : binA .mod l r i = .ok (v, i')) : v = l := by
  cases l with
  | bv x =>
    have hx : x.WF := hl
    simp only [Machine.modSelf, Bool.and_eq_true, Bool.or_eq_true, beq_iff_eq] at h
    obtain ⟨him, h0⟩ := h
    cases hc : coerce x.kind x.size r with
    | error e => simp [hc] at h0
    | ok y =>
      simp only [hc, beq_iff_eq] at h0
      have fin {im : Impl} (him : im = .uns ∨ im = .sgn) {m : PyF (Option Obj)} {k : Option Obj → PyF Obj}
          (hm : m = (do return (← AOp.fwd .mod im x r).map .bv))
          (hk : ∀ z, k (some z) = pure z) (hh : (m >>= k) i = .ok (v, i')) : v = .bv x := by
        subst hm
        simp only [bind, StateT.bind] at hh
        cases hf : AOp.fwd .mod im x r i with
        | error e => rw [hf] at hh; simp [Except.bind] at hh
        | ok p =>
          have e := fwd_mod_zero him hr hc h0 hf
          rw [hf] at hh
          simp only [Except.bind, pure, StateT.pure, Except.pure, e, Option.map_some, hk] at hh
          simp only [Except.ok.injEq, Prod.mk.injEq] at hh
          exact hh.1.symm
      cases r with
      | bv z =>
        have hz : z = y ∧ z.size = x.size := by
          simp only [coerce] at hc
          split at hc
          · cases hc
          · rename_i hne; cases hc; exact ⟨rfl, by simpa using hne⟩
        dsimp only at him
        simp only [binA] at hv
        split at hv
        · rename_i hp
          rw [Bool.and_eq_true] at hp
          rw [if_pos hp] at him
          refine fin him ?_ ?_ hv
          · simp only [revA]
            have hcx : coerce z.kind z.size (.bv x) = .ok x := by simp [coerce, hz.2]
            rcases him with e | e <;> simp [e, AOp.rev, hcx]
          · intro z; rfl
        · rename_i hp
          rw [Bool.and_eq_true] at hp
          rw [if_neg hp] at him
          exact fin him rfl (fun z => rfl) hv
      | _ => exact fin him rfl (fun z => rfl) hv
  | _ => simp [Machine.modSelf] at h

theorem step_setitem_regs (s : Machine) (x : Nat) (i : BVal.Index) (v : Nat) : (s.step (.setitem x i v)).regs = s.regs := by
  unfold Machine.step
  cases he : s.exec (.setitem x i v) with
  | error e => rfl
  | ok s' =>
    dsimp only
    simp only [Machine.exec, bind, Except.bind] at he
    split at he
    · cases he
    · split at he
      · cases he
      · split at he
        · cases he
        · split at he
          · cases he; rfl
          · cases he

theorem step_rem_zero {s : Machine} (hc : s.Canon) {c : Instr} {x y : Nat} {a : BVal} {b : Obj}
    (hi : c = .meth .bvurem x y ∨ c = .meth .bvsrem x y) (hx : s.read x = some (.bv a)) (hy : s.read y = some b)
    (hn : 0 < a.size) (hz : operand a.size b = .ok 0) : s.step c = s.share x := by
  have hbx : s.readBV x = .ok a := by simp [Machine.readBV, hx]
  have hby : s.readObj y = .ok b := by simp [Machine.readObj, hy]
  obtain ⟨m, hm, rfl⟩ : ∃ m, (m = .bvurem ∨ m = .bvsrem) ∧ c = .meth m x y := by
    rcases hi with rfl | rfl
    · exact ⟨_, .inl rfl, rfl⟩
    · exact ⟨_, .inr rfl, rfl⟩
  rcases coerce_eq a.kind a.size b with ⟨z, h1, h2, h3, h4, _⟩ | ⟨e, _, h2⟩
  · rw [hz] at h2
    have h0 : z.value = 0 := (Except.ok.inj h2).symm
    have hs : Machine.remSelf m a b = true := by
      unfold Machine.remSelf
      simp only [h1, h0]
      rcases hm with rfl | rfl <;> rfl
    have hr : ∃ r, m.run a b = .ok r := by
      rcases hm with rfl | rfl
      · exact ⟨a, by simp [BMeth.run, BVal.bvurem, BVal.cast, h1, bind, Except.bind, BVal.asUint, h0]⟩
      · refine ⟨a, ?_⟩
        simp only [BMeth.run, BVal.bvsrem, BVal.cast, h1, bind, Except.bind]
        rw [asSint_eq (h4 (hc.read hy)), if_neg (by omega), h0]
        simp [signed]
    obtain ⟨r, hr⟩ := hr
    simp [Machine.step, Machine.exec, hbx, hby, hr, hs, bind, Except.bind, pure, Except.pure]
  · rw [hz] at h2; cases h2

theorem slot_root_mod (r : Root) : AOp.slot .mod (.root r) = .uns ∨ AOp.slot .mod (.root r) = .sgn := by
  cases r <;> decide

theorem step_mod_zero {s : Machine} (hc : s.Canon) {x y : Nat} {a : BVal} {b : Obj} (hx : s.read x = some (.bv a))
    (hy : s.read y = some b) (hn : 0 < a.size) (hz : operand a.size b = .ok 0) {k : Root} (hk : a.kind = .root k)
    (hk' : ∀ z, b = .bv z → ∃ r, z.kind = .root r) : s.step (.opA .mod x y) = s.share x := by
  have hbx : s.readObj x = .ok (.bv a) := by simp [Machine.readObj, hx]
  have hby : s.readObj y = .ok b := by simp [Machine.readObj, hy]
  have ha : a.WF := hc.read hx
  have hb : b.WF := hc.read hy
  have hm : Machine.modSelf (.bv a) b = true := by
    simp only [Machine.modSelf, Bool.and_eq_true, Bool.or_eq_true, beq_iff_eq]
    constructor
    · rw [hk]
      cases b with
      | bv z =>
        obtain ⟨r, hr⟩ := hk' z rfl
        dsimp only
        rw [hr]
        split
        · exact slot_root_mod r
        · exact slot_root_mod k
      | _ => exact slot_root_mod k
    · rcases coerce_eq a.kind a.size b with ⟨z, h1, h2, _⟩ | ⟨e, _, h2⟩
      · rw [hz] at h2
        simp only [h1, ← Except.ok.inj h2]
        rfl
      · rw [hz] at h2; cases h2
  have hr : ∃ v, binA .mod (.bv a) b s.nid = .ok (v, s.nid) := by
    by_cases hv : ∃ z, b = .bv z
    · obtain ⟨z, rfl⟩ := hv
      have hs : z.size = a.size := by
        simp only [operand] at hz
        split at hz
        · assumption
        · cases hz
      exact ⟨_, (vectors_ref ha hb hn hs s.nid).1 .mod (fun _ => nofun)⟩
    · exact ⟨_, binA_fwd (fun z e => absurd ⟨z, e⟩ hv) (fwd_ref .mod _ ha hn hb hz s.nid)⟩
  obtain ⟨v, hr⟩ := hr
  simp [Machine.step, Machine.exec, Machine.runF, hbx, hby, hr, hm, bind, Except.bind, pure, Except.pure]

open Machine in
/-- **C70** what the restriction leaves out, for every program: `bvurem` and `bvsrem` by zero, and `%` between predefined
classes, give a new name to the object of the left operand, and whatever is assigned through the new name is read
through both. -/
theorem C70_remainder_shared (p : List Instr) {c : Instr} {x y : Nat} {a : BVal} {b : Obj}
    (hi : c = .meth .bvurem x y ∨ c = .meth .bvsrem x y ∨
      (c = .opA .mod x y ∧ (∃ k, a.kind = .root k) ∧ ∀ z, b = .bv z → ∃ k, z.kind = .root k))
    (hx : (init.run p).read x = some (.bv a))
    (hy : (init.run p).read y = some b) (hn : 0 < a.size) (hz : operand a.size b = .ok 0) :
    let s := (init.run p).step c
    let r := (init.run p).regs.length
    s.read r = some (.bv a) ∧ s.read x = some (.bv a) ∧
      ∀ i v, (s.step (.setitem r i v)).read x = (s.step (.setitem r i v)).read r := by
  have hc : (init.run p).Canon := canon_init.run p
  rw [show (init.run p).step c = (init.run p).share x by
    rcases hi with h | h | ⟨rfl, ⟨k, hk⟩, hk'⟩
    · exact step_rem_zero hc (.inl h) hx hy hn hz
    · exact step_rem_zero hc (.inr h) hx hy hn hz
    · exact step_mod_zero hc hx hy hn hz hk hk']
  generalize init.run p = s at *
  cases hr : s.regs[x]? with
  | none => simp [Machine.read, hr] at hx
  | some g =>
    have hlt : x < s.regs.length := by
      by_contra h
      rw [List.getElem?_eq_none (by omega)] at hr
      cases hr
    have e1 : (s.share x).regs[s.regs.length]? = some g := by simp [share, hr]
    have e2 : (s.share x).regs[x]? = some g := by
      simp only [share, hr]
      rw [List.getElem?_append_left hlt, hr]
    have e3 : (s.share x).cells = s.cells := by simp [share, hr]
    have er (q : Nat) (h : (s.share x).regs[q]? = some g) : (s.share x).read q = some (.bv a) := by
      rw [← hx]
      simp only [Machine.read, h, hr, e3]
    refine ⟨er _ e1, er _ e2, fun i v => ?_⟩
    simp only [Machine.read, step_setitem_regs, e1, e2]

example := C70_remainder_shared [.lit (.int 5), .new (.root .sint) 8 0, .lit (.int 256)] (c := .meth .bvsrem 1 2) (x := 1)
  (y := 2) (a := ⟨.root .sint, 8, 5⟩) (b := .int 256) (.inr (.inl rfl)) rfl rfl (by decide) rfl

/-- **C70 refuted** in general: `x = BitVector[8](5); r = x % 0; r[1] = 1` changes `x` to 7. -/
theorem C70_refuted :
    let p : List Instr := [.lit (.int 5), .new (.root .bv) 8 0, .lit (.int 0), .opA .mod 1 2, .lit (.bool true)]
    (Machine.init.run p).read 1 = some (.bv ⟨.root .bv, 8, 5⟩) ∧
    ((Machine.init.run p).step (.setitem 3 (.int 1) 4)).read 1 = some (.bv ⟨.root .bv, 8, 7⟩) := by
  decide

example : Machine.RemNonzero Machine.init [.lit (.int 5), .new (.root .bv) 8 0, .opA .mod 1 1] := by
  refine ⟨?_, ?_, ?_, trivial⟩ <;> rintro x y a b (h | h | h) hx hy <;> cases h
  cases hx
  cases hy
  decide

end HW
