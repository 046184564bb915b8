import Verif.Props.Rewrites
import Verif.Props.Circuit

/-!
# C164: code that only moves digits is wiring

A circuit (C123) made of constants, slices, indexing, concatenation, extension, rotation, shifts by ints, complements
and bitwise methods with an int is a net of wires and inverters that can be drawn from the widths alone.
-/

namespace HW
open Circuit Spec Gates

namespace Wiring

/-! ### The claims -/

/-- Where a digit comes from: it is fixed, or the digit at address `a`, or its inverse. -/
inductive Src (α : Type)
  | const (b : Bool)
  | wire (a : α)
  | inv (a : α)

def Src.val {α : Type} (g : α → Bool) : Src α → Bool
  | .const b => b
  | .wire a => g a
  | .inv a => !g a

/-- A circuit in simulation. -/
def simulate (t : List (Reg BVal Bool)) (p : List Instr) : PyM (List (Reg BVal Bool)) := run concrete t p

def cstep (t : List (Reg BVal Bool)) (i : Instr) : PyM (List (Reg BVal Bool)) := step concrete t i
def creadV (t : List (Reg BVal Bool)) (i : Nat) : PyM BVal := readV concrete t i
def creadB (t : List (Reg BVal Bool)) (i : Nat) : PyM Bool := readB concrete t i

/-- Digit `j` of a value; a bit has digit 0 only. -/
def rdigit : Reg BVal Bool → Nat → Bool
  | .vec x, j => ibit x.value j
  | .bit b, j => decide (j = 0) && b

/-- Digit `a.2` of input `a.1`. -/
def digit (t : List (Reg BVal Bool)) (a : Nat × Nat) : Bool := ((t[a.1]?).map fun r => rdigit r a.2).getD false

/-- A canonical value of the declared class and width. -/
def Fits : Port → Reg BVal Bool → Prop
  | .vec r n, .vec x => One r n x
  | .bit, .bit _ => True
  | _, _ => False

def width : Port → Nat
  | .vec _ n => n
  | .bit => 1

/-- `r` has the declared class and width, and its digits come from where `ρ` says. -/
def Routed (q : Port × (Nat → Src (Nat × Nat))) (t : List (Reg BVal Bool)) (r : Reg BVal Bool) : Prop :=
  Fits q.1 r ∧ ∀ j < width q.1, rdigit r j = (q.2 j).val (digit t)

/-- The instructions that move and invert digits. -/
def Moves : Instr → Prop
  | .const .. | .rol .. | .ror .. | .zext .. | .sext .. | .slice .. | .index .. | .concat .. | .bitNot .. => True
  | .un op _ => op = .not
  | .bin op _ (.int _) => op ∈ [Bin.and, .or, .xor, .nand, .nor, .xnor, .shl, .lshr, .ashr]
  | _ => False

/-- Those that invert no digit. -/
def Positive : Instr → Prop
  | .const .. | .rol .. | .ror .. | .zext .. | .sext .. | .slice .. | .index .. | .concat .. => True
  | .bin op _ (.int _) => op ∈ [Bin.and, .or, .shl, .lshr, .ashr]
  | _ => False

/-! ### Sources -/

section
variable {α β : Type}

def Src.not : Src α → Src α
  | .const b => .const (!b)
  | .wire a => .inv a
  | .inv a => .wire a

def Src.bind (s : Src α) (f : α → Src β) : Src β :=
  match s with
  | .const b => .const b
  | .wire a => f a
  | .inv a => (f a).not

theorem Src.val_not (s : Src α) (g : α → Bool) : s.not.val g = !s.val g := by
  cases s <;> simp [Src.not, Src.val]

theorem Src.val_bind (s : Src α) (f : α → Src β) (g : β → Bool) : (s.bind f).val g = s.val fun a => (f a).val g := by
  cases s with
  | const b => rfl
  | wire a => rfl
  | inv a => exact Src.val_not _ _

end

theorem rdigit_out {q : Port} {r : Reg BVal Bool} (h : Fits q r) {j : Nat} (hj : width q ≤ j) : rdigit r j = false := by
  cases q <;> cases r <;> simp only [Fits] at h
  · obtain ⟨⟨h0, h1⟩, -, rfl, -⟩ := h
    exact ibit_lt h0 h1 hj
  · have : j ≠ 0 := by simp only [width] at hj; omega
    simp [rdigit, this]

/-! ### One operation -/

/-- `f` fails on every vector of the class and width, or only moves digits, if `P` without inverting any. -/
def Route (P : Prop) (r : Root) (n : Nat) (f : BVal → PyM BVal) : Prop :=
  (∃ e, ∀ x, One r n x → f x = .error e) ∨
    ∃ (r' : Root) (n' : Nat) (ρ : Nat → Src Nat), (P → ∀ j a, ρ j ≠ .inv a) ∧ ∀ x, One r n x → ∃ z, f x = .ok z ∧ One r' n' z ∧
      ∀ j < n', ibit z.value j = (ρ j).val (ibit x.value)

section
variable {P : Prop} {r : Root} {n : Nat}

theorem route_pointwise {m : BVal → Obj → PyM BVal} {f : Bool → Bool → Bool} (h : Pointwise2 m f) (c : Int)
    (hP : P → ∀ d, f false d = true → f true d = true) : Route P r n fun x => m x (.int c) := by
  cases ho : operand n (.int c) with
  | error e =>
    refine .inl ⟨e, fun x hx => ?_⟩
    have := h x (.int c)
    rw [hx.2.2.1, ho] at this
    exact this
  | ok b =>
    refine .inr ⟨r, n, fun j => if f false (ibit b j) = f true (ibit b j) then .const (f false (ibit b j))
      else if f true (ibit b j) then .wire j else .inv j, ?_, fun x hx => ?_⟩
    · intro p j a
      have := hP p (ibit b j)
      dsimp only
      generalize ibit b j = d at this ⊢
      rcases h0 : f false d <;> rcases h1 : f true d <;> simp [h0, h1] at this ⊢
    have := h x (.int c)
    rw [hx.2.2.1, ho] at this
    obtain ⟨z, z1, z2, z3, z4, z5⟩ := this
    refine ⟨z, z1, ⟨z4, z2.trans hx.2.1, z3, hx.2.2.2⟩, fun j hj => ?_⟩
    rw [z5 j hj]
    dsimp only
    generalize ibit b j = d
    cases hx : ibit x.value j <;> rcases h0 : f false d <;> rcases h1 : f true d <;> simp [Src.val, hx]

theorem route_not : Route False r n BVal.bvnot := by
  refine .inr ⟨r, n, fun j => .inv j, nofun, fun x hx => ?_⟩
  obtain ⟨z, z1, z2, z3, z4, z5⟩ := C06_bvnot x
  exact ⟨z, z1, ⟨z4, z2.trans hx.2.1, z3.trans hx.2.2.1, hx.2.2.2⟩, fun j hj => z5 j (hx.2.2.1 ▸ hj)⟩

theorem route_shl (c : Int) : Route P r n fun x => x.bvshl (.int c) := by
  cases ho : operand n (.int c) with
  | error e => exact .inl ⟨e, fun x hx => by dsimp only; rw [C07_bvshl x (o := .int c) trivial, hx.2.2.1, ho]; rfl⟩
  | ok k =>
    refine .inr ⟨r, n, fun j => if k.toNat ≤ j then .wire (j - k.toNat) else .const false, fun _ j a => by dsimp only; split <;> simp, fun x hx => ?_⟩
    refine ⟨⟨x.kind, n, (x.value * 2 ^ k.toNat) % 2 ^ n⟩, ?_, ⟨mod_WF _ _ _, hx.2.1, rfl, hx.2.2.2⟩, fun j hj => ?_⟩
    · dsimp only
      rw [C07_bvshl x (o := .int c) trivial, hx.2.2.1, ho]; rfl
    · dsimp only
      rw [ibit_emod, ibit_mul]
      by_cases h : k.toNat ≤ j <;> simp [h, hj, Src.val]

theorem route_lshr (c : Int) : Route P r n fun x => x.bvlshr (.int c) := by
  cases ho : operand n (.int c) with
  | error e => exact .inl ⟨e, fun x hx => by dsimp only; rw [C07_bvlshr hx.1 (o := .int c) trivial, hx.2.2.1, ho]; rfl⟩
  | ok k =>
    refine .inr ⟨r, n, fun j => .wire (k.toNat + j), fun _ j a => by simp, fun x hx => ?_⟩
    refine ⟨⟨x.kind, n, x.value / 2 ^ k.toNat⟩, ?_, ⟨⟨?_, ?_⟩, hx.2.1, rfl, hx.2.2.2⟩, fun j hj => ibit_div _ _ _⟩
    · dsimp only
      rw [C07_bvlshr hx.1 (o := .int c) trivial, hx.2.2.1, ho]; rfl
    · exact Int.ediv_nonneg hx.1.1 (by positivity)
    · have := hx.1.2
      rw [hx.2.2.1] at this
      exact Int.lt_of_le_of_lt (Int.ediv_le_self _ hx.1.1) this

theorem ibit_signed {v : Int} (hn : 0 < n) (h0 : 0 ≤ v) (h1 : v < 2 ^ n) (j : Nat) :
    ibit (signed n v) j = ibit v (if j < n then j else n - 1) := by
  by_cases hj : j < n
  · rw [if_pos hj]
    have e := ibit_emod (signed n v) n j
    rw [signed_mod, Int.emod_eq_of_lt h0 h1] at e
    rw [e]
    simp [hj]
  · rw [if_neg hj, ibit_top hn h0 h1]
    unfold signed
    by_cases hc : 2 * v < 2 ^ n
    · rw [if_pos hc, ibit_lt h0 h1 (by omega)]
      simp; omega
    · rw [if_neg hc]
      have e := ibit_pyNot (v - 2 ^ n) j
      rw [ibit_lt (n := n) (by simp only [pyNot]; omega) (by simp only [pyNot]; omega) (by omega)] at e
      have e : ibit (v - 2 ^ n) j = true := by
        cases h : ibit (v - 2 ^ n) j
        · rw [h] at e; cases e
        · rfl
      rw [e]
      simp; omega

theorem route_ashr (c : Int) : Route P r n fun x => x.bvashr (.int c) := by
  cases ho : operand n (.int c) with
  | error e => exact .inl ⟨e, fun x hx => by dsimp only; rw [C07_bvashr hx.1 (o := .int c) trivial, hx.2.2.1, ho]; rfl⟩
  | ok k =>
    refine .inr ⟨r, n, fun j => .wire (if k.toNat + j < n then k.toNat + j else n - 1), fun _ j a => by simp, fun x hx => ?_⟩
    have hn := hx.2.2.2
    refine ⟨⟨x.kind, n, (signed n x.value / 2 ^ k.toNat) % 2 ^ n⟩, ?_, ⟨mod_WF _ _ _, hx.2.1, rfl, hx.2.2.2⟩, fun j hj => ?_⟩
    · dsimp only
      rw [C07_bvashr hx.1 (o := .int c) trivial, hx.2.2.1, ho]
      show (if n = 0 then _ else _) = _
      rw [if_neg (by omega)]; rfl
    · dsimp only
      have h1 := hx.1.2
      rw [hx.2.2.1] at h1
      rw [ibit_emod, ibit_div, ibit_signed hn hx.1.1 h1]
      simp [hj, Src.val]

theorem route_zext (k : Int) : Route P r n fun x => x.zext k := by
  by_cases hk : k < 0
  · exact .inl ⟨.valueError, fun x hx => by dsimp only; rw [C17_zext hx.1, if_pos hk]⟩
  · refine .inr ⟨r, n + k.toNat, fun j => .wire j, fun _ j a => by simp, fun x hx => ?_⟩
    refine ⟨⟨x.kind, n + k.toNat, x.value⟩, ?_, ⟨⟨hx.1.1, ?_⟩, hx.2.1, rfl, by have := hx.2.2.2; omega⟩, fun j hj => rfl⟩
    · dsimp only
      rw [C17_zext hx.1, if_neg hk, hx.2.2.1]
    · have h1 := hx.1.2
      rw [hx.2.2.1] at h1
      refine Int.lt_of_lt_of_le h1 ?_
      exact_mod_cast Nat.pow_le_pow_right (by decide) (Nat.le_add_right _ _)

theorem route_sext (k : Int) (hk : k ≠ 0) : Route P r n fun x => x.sext k := by
  by_cases hk0 : k < 0
  · exact .inl ⟨.valueError, fun x hx => C18_negative x k hk0⟩
  · refine .inr ⟨r, n + k.toNat, fun j => .wire (if j < n then j else n - 1), fun _ j a => by simp, fun x hx => ?_⟩
    obtain ⟨wx, kx, nx, hn⟩ := hx
    obtain ⟨z, z1, z2, z3, z4, z5, z6⟩ := C18_sext_partial wx (nx ▸ hn) k (by omega)
    rw [nx] at z3
    refine ⟨z, z1, ⟨z4, z2.trans kx, z3, by omega⟩, fun j hj => ?_⟩
    have z5 := z5.trans z6
    rw [asSint_eq z4, if_neg (by omega), z3, nx] at z5
    have z5 : signed (n + k.toNat) z.value = signed n x.value := by injection z5
    have h1 := wx.2
    rw [nx] at h1
    have h2 := z4.2
    rw [z3] at h2
    have e := ibit_signed (n := n + k.toNat) (by omega) z4.1 h2 j
    rw [if_pos hj, z5, ibit_signed hn wx.1 h1] at e
    exact e.symm

theorem route_slice {lo hi : Int} (h0 : 0 ≤ lo) (h1 : lo < hi) (h2 : hi ≤ n) :
    Route P r n fun x => x.getSlice ⟨some lo, some hi, none⟩ := by
  obtain ⟨a, rfl⟩ := Int.eq_ofNat_of_zero_le h0
  obtain ⟨b, rfl⟩ := Int.eq_ofNat_of_zero_le (show 0 ≤ hi by omega)
  refine .inr ⟨r, b - a, fun j => .wire (a + j), fun _ j a => by simp, fun x hx => ?_⟩
  refine ⟨_, C15_slice_arith x a b (by omega) (by rw [hx.2.2.1]; omega), ⟨mod_WF _ _ _, hx.2.1, rfl, by omega⟩, fun j hj => ?_⟩
  dsimp only
  rw [ibit_emod, ibit_div]
  simp [hj, Src.val]

theorem route_rol {k : Int} (h0 : 0 ≤ k) (h1 : k ≤ n) : Route P r n fun x => x.bvrol (.int k) := by
  obtain ⟨k, rfl⟩ := Int.eq_ofNat_of_zero_le h0
  refine .inr ⟨r, n, fun j => .wire ((j + (n - k)) % n), fun _ j a => by simp, fun x hx => ?_⟩
  obtain ⟨wx, kx, rfl, hn⟩ := hx
  have hf := nat_fits (n := x.size) (k := k) (by omega)
  obtain ⟨z, z1, z2, z3, z4, z5⟩ := C08_bvrol x hn (o := .int k) trivial (operand_int hf.1 hf.2)
  refine ⟨z, z1, ⟨z4, z2.trans kx, z3, hn⟩, fun j hj => ?_⟩
  have e := z5 ((j + (x.size - k)) % x.size) (Nat.mod_lt _ hn)
  have e' : ((j + (x.size - k)) % x.size + (k : Int).toNat) % x.size = j := by
    rw [Int.toNat_natCast, Nat.mod_add_mod, show j + (x.size - k) + k = j + x.size by omega, Nat.add_mod_right, Nat.mod_eq_of_lt hj]
  rw [e'] at e
  exact e

theorem route_ror {k : Int} (h0 : 0 ≤ k) (h1 : k ≤ n) : Route P r n fun x => x.bvror (.int k) := by
  obtain ⟨k, rfl⟩ := Int.eq_ofNat_of_zero_le h0
  refine .inr ⟨r, n, fun j => .wire ((j + k) % n), fun _ j a => by simp, fun x hx => ?_⟩
  obtain ⟨wx, kx, rfl, hn⟩ := hx
  have hf := nat_fits (n := x.size) (k := k) (by omega)
  obtain ⟨z, z1, z2, z3, z4, z5⟩ := C08_bvror x hn (o := .int k) trivial (operand_int hf.1 hf.2)
  exact ⟨z, z1, ⟨z4, z2.trans kx, z3, hn⟩, fun j hj => z5 j hj⟩

theorem route_check {c : Nat → Prop} [DecidablePred c] {g : BVal → PyM BVal} (h : c n → Route P r n g) :
    Route P r n fun x => check (c x.size) >>= fun _ => g x := by
  by_cases hc : c n
  · rcases h hc with ⟨e, h⟩ | ⟨r', n', ρ, hP, h⟩
    · exact .inl ⟨e, fun x hx => by dsimp only; rw [check, if_pos (by rw [hx.2.2.1]; exact hc)]; exact h x hx⟩
    · refine .inr ⟨r', n', ρ, hP, fun x hx => ?_⟩
      dsimp only
      rw [check, if_pos (by rw [hx.2.2.1]; exact hc)]
      exact h x hx
  · exact .inl ⟨.assertionError, fun x hx => by dsimp only; rw [check, if_neg (by rw [hx.2.2.1]; exact hc)]; rfl⟩

end

/-! ### One instruction -/

/-- An instruction fails on all values of the declared classes and widths, or adds one value whose digits are moved. -/
def StepRoute (ps : List Port) (i : Instr) : Prop :=
  (∃ e, ∀ t, List.Forall₂ Fits ps t → cstep t i = .error e) ∨
    ∃ q : Port × (Nat → Src (Nat × Nat)), (Positive i → ∀ j a, q.2 j ≠ .inv a) ∧
      ∀ t, List.Forall₂ Fits ps t → ∃ r, cstep t i = .ok (t ++ [r]) ∧ Routed q t r

theorem fits_get {ps : List Port} {t : List (Reg BVal Bool)} (h : List.Forall₂ Fits ps t) (i : Nat) :
    (ps[i]? = none ∧ t[i]? = none) ∨ ∃ p r, ps[i]? = some p ∧ t[i]? = some r ∧ Fits p r := by
  induction h generalizing i with
  | nil => exact .inl (by simp)
  | cons h _ ih =>
    cases i with
    | zero => exact .inr ⟨_, _, rfl, rfl, h⟩
    | succ i => simpa using ih i

section
variable {F : Family} {t : List (Reg F.V F.B)} {i : Nat}

theorem read_none (h : t[i]? = none) : readV F t i = .error .nameError ∧ readB F t i = .error .nameError := by
  constructor <;> simp [readV, readB, Circuit.read, h, bind, Except.bind]

theorem read_some_vec {x : F.V} (h : t[i]? = some (.vec x)) : readV F t i = .ok x ∧ readB F t i = .error .attributeError := by
  constructor <;> simp [readV, readB, Circuit.read, h, bind, Except.bind, pure, Except.pure]

theorem read_some_bit {b : F.B} (h : t[i]? = some (.bit b)) : readV F t i = .error .attributeError ∧ readB F t i = .ok b := by
  constructor <;> simp [readV, readB, Circuit.read, h, bind, Except.bind, pure, Except.pure]

end

/-- Reading a vector. -/
theorem read_vec (ps : List Port) (i : Nat) :
    (∃ e, ∀ t, List.Forall₂ Fits ps t → creadV t i = .error e) ∨
      ∃ r n, ∀ t, List.Forall₂ Fits ps t → ∃ x : BVal, creadV t i = .ok x ∧ One r n x ∧ ∀ j, digit t (i, j) = ibit x.value j := by
  rcases hp : ps[i]? with _ | p
  · refine .inl ⟨.nameError, fun t ht => ?_⟩
    rcases fits_get ht i with ⟨-, h⟩ | ⟨_, _, h, -⟩
    · exact (read_none (F := concrete) h).1
    · rw [hp] at h; cases h
  · cases p with
    | vec r n =>
      refine .inr ⟨r, n, fun t ht => ?_⟩
      rcases fits_get ht i with ⟨h, -⟩ | ⟨_, v, h, h', hf⟩
      · rw [hp] at h; cases h
      · rw [hp] at h
        cases h
        cases v with
        | vec x => exact ⟨x, (read_some_vec (F := concrete) h').1, hf, fun j => by simp [digit, h', rdigit]⟩
        | bit b => exact hf.elim
    | bit =>
      refine .inl ⟨.attributeError, fun t ht => ?_⟩
      rcases fits_get ht i with ⟨h, -⟩ | ⟨_, v, h, h', hf⟩
      · rw [hp] at h; cases h
      · rw [hp] at h
        cases h
        cases v with
        | vec x => exact hf.elim
        | bit b => exact (read_some_bit (F := concrete) h').1

theorem read_bit (ps : List Port) (i : Nat) :
    (∃ e, ∀ t, List.Forall₂ Fits ps t → creadB t i = .error e) ∨
      ∀ t, List.Forall₂ Fits ps t → ∃ b : Bool, creadB t i = .ok b ∧ digit t (i, 0) = b := by
  rcases hp : ps[i]? with _ | p
  · refine .inl ⟨.nameError, fun t ht => ?_⟩
    rcases fits_get ht i with ⟨-, h⟩ | ⟨_, _, h, -⟩
    · exact (read_none (F := concrete) h).2
    · rw [hp] at h; cases h
  · cases p with
    | bit =>
      refine .inr fun t ht => ?_
      rcases fits_get ht i with ⟨h, -⟩ | ⟨_, v, h, h', hf⟩
      · rw [hp] at h; cases h
      · rw [hp] at h
        cases h
        cases v with
        | bit b => exact ⟨b, (read_some_bit (F := concrete) h').2, by simp [digit, h', rdigit]⟩
        | vec b => exact hf.elim
    | vec r n =>
      refine .inl ⟨.attributeError, fun t ht => ?_⟩
      rcases fits_get ht i with ⟨h, -⟩ | ⟨_, v, h, h', hf⟩
      · rw [hp] at h; cases h
      · rw [hp] at h
        cases h
        cases v with
        | bit x => exact hf.elim
        | vec b => exact (read_some_vec (F := concrete) h').2

/-- An instruction that reads one vector and applies `f`. -/
theorem step_route {ps : List Port} {ins : Instr} {i : Nat} (f : BVal → PyM BVal)
    (hs : ∀ t, cstep t ins = creadV t i >>= fun x => f x >>= fun z => .ok (t ++ [.vec z]))
    (hf : ∀ r n, Route (Positive ins) r n f) : StepRoute ps ins := by
  rcases read_vec ps i with ⟨e, h⟩ | ⟨r, n, h⟩
  · exact .inl ⟨e, fun t ht => by rw [hs, h t ht]; rfl⟩
  · rcases hf r n with ⟨e, hf⟩ | ⟨r', n', ρ, hP, hf⟩
    · refine .inl ⟨e, fun t ht => ?_⟩
      obtain ⟨x, hx, ho, -⟩ := h t ht
      rw [hs, hx]
      show (f x >>= _) = _
      rw [hf x ho]; rfl
    · refine .inr ⟨(.vec r' n', fun j => (ρ j).bind fun k => .wire (i, k)), fun p j a => ?_, fun t ht => ?_⟩
      · have := hP p j
        dsimp only
        cases h : ρ j with
        | inv k => exact absurd h (this k)
        | _ => simp [Src.bind]
      obtain ⟨x, hx, ho, hd⟩ := h t ht
      obtain ⟨z, z1, z2, z3⟩ := hf x ho
      refine ⟨.vec z, ?_, z2, fun j hj => ?_⟩
      · rw [hs, hx]
        show (f x >>= _) = _
        rw [z1]; rfl
      · rw [Src.val_bind]
        refine (z3 j hj).trans ?_
        congr 1
        funext k
        exact (hd k).symm

theorem moves_route (ps : List Port) {i : Instr} (h : Moves i) : StepRoute ps i := by
  cases i with
  | const r n v =>
    by_cases hn : 0 < n
    · refine .inr ⟨(.vec r n, fun j => .const (ibit (v % 2 ^ n) j)), fun _ _ _ => by simp, fun t _ =>
        ⟨.vec ⟨.root r, n, v % 2 ^ n⟩, ?_, ⟨mod_WF _ _ _, rfl, rfl, hn⟩, fun j _ => rfl⟩⟩
      show (check (0 < n) >>= fun _ => mkBV (.root r) n (.int v) >>= fun z => _) = _
      rw [check, if_pos hn, mkBV_int]; rfl
    · refine .inl ⟨.assertionError, fun t _ => ?_⟩
      show (check (0 < n) >>= fun _ => _) = _
      rw [check, if_neg hn]; rfl
  | un op x =>
    have h : op = .not := h
    subst h
    exact step_route BVal.bvnot (fun t => rfl) fun r n => route_not
  | bin op x y =>
    cases y with
    | reg y => exact h.elim
    | int c =>
      have hs : ∀ t, cstep t (.bin op x (.int c)) =
          creadV t x >>= fun x => cBin op x (.int c) >>= fun z => .ok (t ++ [.vec z]) := fun t => rfl
      have h : op ∈ [Bin.and, .or, .xor, .nand, .nor, .xnor, .shl, .lshr, .ashr] := h
      refine step_route (fun x => cBin op x (.int c)) hs fun r n => ?_
      simp only [List.mem_cons, List.not_mem_nil, or_false] at h
      rcases h with rfl | rfl | rfl | rfl | rfl | rfl | rfl | rfl | rfl
      · exact route_pointwise C06_bvand c fun _ => by decide
      · exact route_pointwise C06_bvor c fun _ => by decide
      · exact route_pointwise C06_bvxor c fun p => by simp [Positive] at p
      · exact route_pointwise C06_bvnand c fun p => by simp [Positive] at p
      · exact route_pointwise C06_bvnor c fun p => by simp [Positive] at p
      · exact route_pointwise C06_bvxnor c fun p => by simp [Positive] at p
      · exact route_shl c
      · exact route_lshr c
      · exact route_ashr c
  | rol x k =>
    refine step_route (i := x) (fun x => check (0 ≤ k ∧ k ≤ x.size) >>= fun _ => x.bvrol (.int k)) (fun t => ?_) fun r n =>
      route_check (c := fun m => 0 ≤ k ∧ k ≤ m) fun hk => route_rol hk.1 hk.2
    simp only [bind_assoc]; rfl
  | ror x k =>
    refine step_route (i := x) (fun x => check (0 ≤ k ∧ k ≤ x.size) >>= fun _ => x.bvror (.int k)) (fun t => ?_) fun r n =>
      route_check (c := fun m => 0 ≤ k ∧ k ≤ m) fun hk => route_ror hk.1 hk.2
    simp only [bind_assoc]; rfl
  | zext x k => exact step_route (fun x => x.zext k) (fun t => rfl) fun r n => route_zext k
  | sext x k =>
    refine step_route (i := x) (fun x => check (k ≠ 0) >>= fun _ => x.sext k) (fun t => ?_) fun r n =>
      route_check (c := fun _ => k ≠ 0) fun hk => route_sext k hk
    simp only [bind_assoc]; rfl
  | slice x lo hi =>
    refine step_route (i := x) (fun x => check (0 ≤ lo ∧ lo < hi ∧ hi ≤ x.size) >>= fun _ => x.getSlice ⟨some lo, some hi, none⟩)
      (fun t => ?_) fun r n =>
      route_check (c := fun m => 0 ≤ lo ∧ lo < hi ∧ hi ≤ m) fun hk => route_slice hk.1 hk.2.1 hk.2.2
    simp only [bind_assoc]; rfl
  | index x i =>
    have hs : ∀ t, cstep t (.index x i) =
        creadV t x >>= fun x => BVal.getIdx x i >>= fun z => .ok (t ++ [.bit z]) := fun t => rfl
    rcases read_vec ps x with ⟨e, h⟩ | ⟨r, n, h⟩
    · exact .inl ⟨e, fun t ht => by rw [hs, h t ht]; rfl⟩
    · rcases hi : pyIndex? n i with _ | j
      · refine .inl ⟨.indexError, fun t ht => ?_⟩
        obtain ⟨X, hx, ho, -⟩ := h t ht
        rw [hs, hx]
        show (BVal.getIdx X i >>= _) = _
        rw [C15_index, ho.2.2.1, hi]; rfl
      · refine .inr ⟨(.bit, fun _ => .wire (x, j)), fun _ _ _ => by simp, fun t ht => ?_⟩
        obtain ⟨X, hx, ho, hd⟩ := h t ht
        refine ⟨.bit (ibit X.value j), ?_, trivial, fun k hk => ?_⟩
        · rw [hs, hx]
          show (BVal.getIdx X i >>= _) = _
          rw [C15_index, ho.2.2.1, hi]; rfl
        · have : k = 0 := by simp only [width] at hk; omega
          subst this
          simp [rdigit, Src.val, hd]
  | concat x y =>
    have hs : ∀ t, cstep t (.concat x y) = creadV t x >>= fun x => creadV t y >>= fun y =>
        BVal.concat x y >>= fun z => .ok (t ++ [.vec z]) := fun t => rfl
    rcases read_vec ps x with ⟨e, h⟩ | ⟨r, n, h⟩
    · exact .inl ⟨e, fun t ht => by rw [hs, h t ht]; rfl⟩
    rcases read_vec ps y with ⟨e, h'⟩ | ⟨r', n', h'⟩
    · refine .inl ⟨e, fun t ht => ?_⟩
      obtain ⟨X, hx, -⟩ := h t ht
      rw [hs, hx]
      show (creadV t y >>= _) = _
      rw [h' t ht]; rfl
    by_cases hk : (Kind.root r').isSub (.root r)
    · refine .inr ⟨(.vec r (n + n'), fun j => if j < n then .wire (x, j) else .wire (y, j - n)), fun _ j a => by dsimp only; split <;> simp, fun t ht => ?_⟩
      obtain ⟨X, hx, ox, dx⟩ := h t ht
      obtain ⟨Y, hy, oy, dy⟩ := h' t ht
      obtain ⟨wx, kx, rfl, hn⟩ := ox
      obtain ⟨wy, ky, rfl, hn'⟩ := oy
      have e := C14_concat wx wy
      rw [if_pos (by rw [kx, ky]; exact hk)] at e
      refine ⟨.vec ⟨X.kind, X.size + Y.size, X.value + Y.value * 2 ^ X.size⟩, ?_, ⟨?_, kx, rfl, by omega⟩, fun j hj => ?_⟩
      · rw [hs, hx]
        show (creadV t y >>= _) = _
        rw [hy]
        show (BVal.concat X Y >>= _) = _
        rw [e]; rfl
      · obtain ⟨a1, a2⟩ := wx
        obtain ⟨b1, b2⟩ := wy
        have hpx := two_pow_pos X.size
        constructor
        · dsimp only; nlinarith
        · dsimp only; rw [Int.pow_add]; nlinarith
      · show ibit (X.value + Y.value * 2 ^ X.size) j = _
        rw [ibit_add_mul wx.1 wx.2]
        dsimp only
        by_cases h : j < X.size
        · rw [if_pos h, if_pos h]; exact (dx j).symm
        · rw [if_neg h, if_neg h]; exact (dy _).symm
    · refine .inl ⟨.typeError, fun t ht => ?_⟩
      obtain ⟨X, hx, ox, -⟩ := h t ht
      obtain ⟨Y, hy, oy, -⟩ := h' t ht
      have e := C14_concat ox.1 oy.1
      rw [if_neg (by rw [ox.2.1, oy.2.1]; exact hk)] at e
      rw [hs, hx]
      show (creadV t y >>= _) = _
      rw [hy]
      show (BVal.concat X Y >>= _) = _
      rw [e]; rfl
  | bitNot a =>
    rcases read_bit ps a with ⟨e, h⟩ | h
    · refine .inl ⟨e, fun t ht => ?_⟩
      show (creadB t a >>= fun b => _) = _
      rw [h t ht]; rfl
    · refine .inr ⟨(.bit, fun _ => .inv (a, 0)), nofun, fun t ht => ?_⟩
      obtain ⟨b, h1, h2⟩ := h t ht
      refine ⟨.bit (!b), ?_, trivial, fun j hj => ?_⟩
      · show (creadB t a >>= fun b => _) = _
        rw [h1]; rfl
      · have : j = 0 := by simp only [width] at hj; omega
        subst this
        simp [rdigit, Src.val, h2]
  | cmp op x y => exact h.elim
  | adc x y c => exact h.elim
  | opA op x y => exact h.elim
  | opC op x y => exact h.elim
  | bit op a b => exact h.elim
  | mux c t f => exact h.elim

/-! ### Whole circuits -/

/-- Sources among the values after one instruction, as sources among the values before it. -/
def back (n : Nat) (q : Port × (Nat → Src (Nat × Nat))) (a : Nat × Nat) : Src (Nat × Nat) :=
  if a.1 < n then .wire a
  else if a.1 = n ∧ a.2 < width q.1 then q.2 a.2
  else .const false

theorem back_val {ps : List Port} {q : Port × (Nat → Src (Nat × Nat))} {t : List (Reg BVal Bool)} {r : Reg BVal Bool}
    (ht : List.Forall₂ Fits ps t) (hr : Routed q t r) (a : Nat × Nat) :
    (back ps.length q a).val (digit t) = digit (t ++ [r]) a := by
  have hl := ht.length_eq
  unfold back
  by_cases h1 : a.1 < ps.length
  · rw [if_pos h1]
    show digit t a = _
    unfold digit
    rw [List.getElem?_append_left (by omega)]
  · rw [if_neg h1]
    by_cases h2 : a.1 = ps.length
    · have e : (t ++ [r])[a.1]? = some r := by rw [h2, hl]; simp
      by_cases h3 : a.2 < width q.1
      · rw [if_pos ⟨h2, h3⟩]
        unfold digit
        rw [e]
        exact (hr.2 _ h3).symm
      · rw [if_neg fun h => h3 h.2]
        unfold digit
        rw [e]
        exact (rdigit_out hr.1 (by omega)).symm
    · rw [if_neg fun h => h2 h.1]
      unfold digit
      rw [List.getElem?_eq_none (by simp; omega)]
      rfl

theorem run_routes (p : List Instr) (hp : ∀ i ∈ p, Moves i) (ps : List Port) :
    (∃ e, ∀ t, List.Forall₂ Fits ps t → simulate t p = .error e) ∨
      ∃ qs : List (Port × (Nat → Src (Nat × Nat))), ∀ t, List.Forall₂ Fits ps t →
        ∃ w, simulate t p = .ok w ∧ List.Forall₂ (fun q r => Routed q t r) qs w := by
  induction p generalizing ps with
  | nil =>
    refine .inr ⟨ps.mapIdx fun i p => (p, fun j => .wire (i, j)), fun t ht => ⟨t, rfl, ?_⟩⟩
    rw [List.forall₂_iff_get]
    refine ⟨by simpa using ht.length_eq, fun i h1 h2 => ?_⟩
    simp only [List.length_mapIdx] at h1
    have hg := (List.forall₂_iff_get.1 ht).2 i h1 h2
    simp only [List.get_eq_getElem, List.getElem_mapIdx] at hg ⊢
    refine ⟨hg, fun j hj => ?_⟩
    simp [Src.val, digit, List.getElem?_eq_getElem h2]
  | cons i p ih =>
    have hr : ∀ t, simulate t (i :: p) = cstep t i >>= fun t => simulate t p := fun t => rfl
    rcases moves_route ps (hp i (by simp)) with ⟨e, h⟩ | ⟨q, -, h⟩
    · exact .inl ⟨e, fun t ht => by rw [hr, h t ht]; rfl⟩
    · have hnext : ∀ t, List.Forall₂ Fits ps t → ∃ r, cstep t i = .ok (t ++ [r]) ∧ Routed q t r ∧
          List.Forall₂ Fits (ps ++ [q.1]) (t ++ [r]) := by
        intro t ht
        obtain ⟨r, h1, h2⟩ := h t ht
        exact ⟨r, h1, h2, List.rel_append ht (.cons h2.1 .nil)⟩
      rcases ih (fun i hi => hp i (by simp [hi])) (ps ++ [q.1]) with ⟨e, hi⟩ | ⟨qs, hi⟩
      · refine .inl ⟨e, fun t ht => ?_⟩
        obtain ⟨r, h1, -, h3⟩ := hnext t ht
        rw [hr, h1]
        exact hi _ h3
      · refine .inr ⟨qs.map fun q' => (q'.1, fun j => (q'.2 j).bind (back ps.length q)), fun t ht => ?_⟩
        obtain ⟨r, h1, h2, h3⟩ := hnext t ht
        obtain ⟨w, w1, w2⟩ := hi _ h3
        refine ⟨w, by rw [hr, h1]; exact w1, ?_⟩
        rw [List.forall₂_map_left_iff]
        refine w2.imp fun q' v hv => ⟨hv.1, fun j hj => ?_⟩
        rw [Src.val_bind]
        refine (hv.2 j hj).trans ?_
        congr 1
        funext a
        exact (back_val ht h2 a).symm

end Wiring

open Wiring

/-- A circuit that only moves digits fails on all inputs of the declared classes and widths, in every family, or it
succeeds on all of them, and then there is one drawing of wires and inverters, the same for all inputs, families and
assignments, that gives every digit of every value. -/
theorem C164_wiring (p : List Instr) (hp : ∀ i ∈ p, Moves i) (ps : List Port) :
    (∃ e, (∀ t, List.Forall₂ Fits ps t → simulate t p = .error e) ∧
      InAll fun F RV RB => ∀ s t, List.Forall₂ (RegRel RV RB) s t → List.Forall₂ Fits ps t → ∃ e', run F s p = .error e') ∨
    ∃ qs : List (Port × (Nat → Src (Nat × Nat))),
      InAll fun F RV RB => ∀ s t, List.Forall₂ (RegRel RV RB) s t → List.Forall₂ Fits ps t →
        ∃ u w, run F s p = .ok u ∧ List.Forall₂ (RegRel RV RB) u w ∧ List.Forall₂ (fun q r => Routed q t r) qs w := by
  rcases run_routes p hp ps with ⟨e, h⟩ | ⟨qs, h⟩
  · refine .inl ⟨e, h, .of fun F E RV RB H s t hst ht => ?_⟩
    have hr : RelP E (List.Forall₂ (RegRel RV RB)) (run F s p) (simulate t p) := H.run_rel p hst
    rw [h t ht] at hr
    cases hu : run F s p with
    | error e' => exact ⟨e', rfl⟩
    | ok u => rw [hu] at hr; exact hr.elim
  · refine .inr ⟨qs, .of fun F E RV RB H s t hst ht => ?_⟩
    obtain ⟨w, w1, w2⟩ := h t ht
    obtain ⟨u, u1, u2⟩ := RelP.ok_right (H.run_rel p hst) w1
    exact ⟨u, w, u1, u2, w2⟩

/-- So a digit of a result depends on one digit of the inputs at most: two runs that agree on that digit agree on the
result's. -/
theorem C164_one_digit (p : List Instr) (hp : ∀ i ∈ p, Moves i) (ps : List Port) (o j : Nat) :
    ∃ a : Nat × Nat, ∀ t t' w w' r r', List.Forall₂ Fits ps t → List.Forall₂ Fits ps t' →
      simulate t p = .ok w → simulate t' p = .ok w' → w[o]? = some r → w'[o]? = some r' →
      digit t a = digit t' a → rdigit r j = rdigit r' j := by
  rcases run_routes p hp ps with ⟨e, h⟩ | ⟨qs, h⟩
  · refine ⟨(0, 0), fun t t' w w' r r' ht _ hw => ?_⟩
    rw [h t ht] at hw; cases hw
  · have key : ∀ t w r, List.Forall₂ Fits ps t → simulate t p = .ok w → w[o]? = some r → ∃ q, qs[o]? = some q ∧ Routed q t r := by
      intro t w r ht hw hr
      obtain ⟨w0, h1, h2⟩ := h t ht
      rw [hw] at h1
      cases h1
      obtain ⟨hl, hg⟩ := List.forall₂_iff_get.1 h2
      obtain ⟨hlt, rfl⟩ := List.getElem?_eq_some_iff.1 hr
      exact ⟨qs[o], List.getElem?_eq_getElem (by omega), hg o (by omega) hlt⟩
    refine ⟨match qs[o]? with
      | some q => match q.2 j with
        | .const _ => (0, 0)
        | .wire a => a
        | .inv a => a
      | none => (0, 0), fun t t' w w' r r' ht ht' hw hw' hr hr' hd => ?_⟩
    obtain ⟨q, q1, q2⟩ := key t w r ht hw hr
    obtain ⟨q', q1', q2'⟩ := key t' w' r' ht' hw' hr'
    rw [q1] at q1'
    cases q1'
    by_cases hj : j < width q.1
    · rw [q2.2 j hj, q2'.2 j hj]
      rw [q1] at hd
      dsimp only at hd
      cases hs : q.2 j <;> rw [hs] at hd <;> simp only [Src.val]
      · exact hd
      · rw [hd]
    · rw [rdigit_out q2.1 (by omega), rdigit_out q2'.1 (by omega)]

/-- Whether such a circuit succeeds depends on the classes and widths only. -/
theorem C164_success (p : List Instr) (hp : ∀ i ∈ p, Moves i) (ps : List Port) {t t' : List (Reg BVal Bool)}
    (ht : List.Forall₂ Fits ps t) (ht' : List.Forall₂ Fits ps t') :
    ((∃ w, simulate t p = .ok w) ↔ ∃ w, simulate t' p = .ok w) ∧
      ∀ e, simulate t p = .error e → simulate t' p = .error e := by
  rcases run_routes p hp ps with ⟨e, h⟩ | ⟨qs, h⟩
  · rw [h t ht, h t' ht']
    exact ⟨Iff.rfl, fun _ h => h⟩
  · obtain ⟨w, h1, -⟩ := h t ht
    obtain ⟨w', h1', -⟩ := h t' ht'
    rw [h1, h1']
    exact ⟨⟨fun _ => ⟨_, rfl⟩, fun _ => ⟨_, rfl⟩⟩, fun _ h => nomatch h⟩

/-- Swapping the halves of a byte and inverting one bit. -/
def Wiring.demo : List Instr := [.slice 0 0 4, .slice 0 4 8, .concat 2 1, .bin .xor 3 (.int 1)]

example : ∀ i ∈ Wiring.demo, Moves i := by simp [Wiring.demo, Moves]

example : List.Forall₂ Fits [.vec .uint 8] [.vec ⟨.root .uint, 8, 0x5A⟩] :=
  .cons ⟨⟨by decide, by decide⟩, rfl, rfl, by decide⟩ .nil

example : (Except.toOption (simulate [.vec (⟨.root .uint, 8, 0x5A⟩ : BVal)] Wiring.demo)).bind (fun w => w[4]?.map fun r =>
    (List.range 8).map (rdigit r)) = some [false, false, true, false, false, true, false, true] := by decide +kernel

end HW
