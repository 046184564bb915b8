import Verif.Props.BitVector
import Verif.Model.Fp.Vector
import Mathlib.Tactic.Linarith

/-! Reading back the text `reinterpret_from_bv` writes. -/

namespace HW.Fp
open Spec

theorem ofDec_eq (l : List Char) (a : Nat) :
    l.foldl (fun a c => 10 * a + (c.toNat - 48)) a = Nat.ofDigitChars 10 l a := by
  rw [Nat.ofDigitChars_eq_foldl]; rfl

theorem ofDec_toDigits (n : Nat) : ofDec (Nat.toDigits 10 n) = n := by
  unfold ofDec
  rw [ofDec_eq, Nat.ofDigitChars_ten_toDigits]

theorem digits_all (n : Nat) : (Nat.toDigits 10 n).all Char.isDigit = true := by
  rw [List.all_eq_true]
  exact fun c hc => Nat.isDigit_of_mem_toDigits (by omega) (by omega) hc

theorem digits_ne (n : Nat) : Nat.toDigits 10 n ≠ [] := by
  intro h
  rw [Nat.toDigits_eq_if (by decide)] at h
  split at h <;> simp at h

theorem parseInt_pyStr (x : Int) : parseInt (pyStr x) = some x := by
  cases x with
  | ofNat n =>
    have hs : stripSign (Nat.toDigits 10 n) = (false, Nat.toDigits 10 n) := by
      have := digits_all n
      cases h : Nat.toDigits 10 n with
      | nil => rfl
      | cons c l =>
        rw [h] at this
        unfold stripSign
        dsimp only
        rw [if_neg]
        rintro rfl
        simp at this
    unfold pyStr parseInt
    simp only [hs]
    rw [if_pos ⟨digits_ne n, digits_all n⟩, ofDec_toDigits]; rfl
  | negSucc n =>
    unfold pyStr parseInt
    simp only [stripSign, if_true]
    rw [if_pos ⟨digits_ne _, digits_all _⟩, ofDec_toDigits]; rfl

theorem ofBin_foldl (l : List Bool) (a : Nat) :
    ((l.map fun b => if b then '1' else '0').foldl (fun a c => 2 * a + (if c = '1' then 1 else 0)) a : Nat) =
      a * 2 ^ l.length + (ofBits l.reverse).toNat := by
  induction l generalizing a with
  | nil => simp [ofBits]
  | cons b l ih =>
    have h := (ofBits_bounds l.reverse).1
    have h2 : (0 : Int) ≤ 2 ^ l.length := by positivity
    have e : ofBits (b :: l).reverse = ofBits l.reverse + (if b then 1 else 0) * 2 ^ l.length := by
      rw [List.reverse_cons, ofBits_append]; simp [ofBits]
    rw [List.map_cons, List.foldl_cons, ih, e, List.length_cons]
    have h3 : ((2 : Int) ^ l.length).toNat = 2 ^ l.length := by
      rw [show (2 : Int) ^ l.length = ((2 ^ l.length : Nat) : Int) by push_cast; rfl, Int.toNat_natCast]
    cases b
    · simp [pow_succ]; ring
    · rw [Int.toNat_add h (by simp)]
      simp [pow_succ, h3]; ring

theorem ofBin_binaryString {x : BVal} (h : x.WF) (d : Nat) :
    (x.binaryString.foldl (fun a c => 2 * a + (if c = '1' then 1 else 0)) d : Nat) =
      d * 2 ^ x.size + x.value.toNat := by
  rw [binaryString_eq, ofBin_foldl, List.reverse_reverse, ofBits_toBits, h.mod_eq, List.length_reverse, length_toBits]

theorem binaryString_isBin (x : BVal) : ∀ c ∈ x.binaryString, isBin c = true := by
  rw [binaryString_eq]
  intro c hc
  rw [List.mem_map] at hc
  obtain ⟨b, _, rfl⟩ := hc
  cases b <;> rfl

theorem takeWhile_stop {α : Type} {p : α → Bool} {l r : List α} {c : α} (h : ∀ a ∈ l, p a = true) (hc : p c = false) :
    (l ++ c :: r).takeWhile p = l ∧ (l ++ c :: r).dropWhile p = c :: r := by
  induction l with
  | nil => simp [hc]
  | cons a l ih =>
    obtain ⟨h1, h2⟩ := ih (fun b hb => h b (by simp [hb]))
    simp [h a (by simp), h1, h2]

/-- Reading `[-]d.mmm…e±x`. -/
theorem parseBin_text {x : BVal} (h : x.WF) (s d : Bool) (e : Int) :
    parseBin ((if s then (if d then ['-', '1', '.'] else ['-', '0', '.']) else (if d then ['1', '.'] else ['0', '.'])) ++
        x.binaryString ++ ['e'] ++ pyStr e) =
      some (s, (((if d then 1 else 0) * 2 ^ x.size + x.value.toNat : Nat) : ℚ) * 2 ^ (e - (x.size : Int))) := by
  have hlen : x.binaryString.length = x.size := (C04_binary_string h).1
  have h1 := takeWhile_stop (r := pyStr e) (c := 'e') (binaryString_isBin x) (by decide)
  have h2 := ofBin_binaryString h
  have h3 := parseInt_pyStr e
  rw [List.append_assoc, List.append_assoc]
  generalize x.binaryString = l at *
  generalize pyStr e = r at *
  have key : ∀ d : Bool, ofBin ((if d then '1' else '0') :: l) = (if d then 1 else 0) * 2 ^ x.size + x.value.toNat := by
    intro d
    rw [← h2]; cases d <;> rfl
  have hf : ∀ d : Bool, parseFrac s [if d then '1' else '0'] (l ++ 'e' :: r) =
      some (s, (((if d then 1 else 0) * 2 ^ x.size + x.value.toNat : Nat) : ℚ) * 2 ^ (e - (x.size : Int))) := by
    intro d
    unfold parseFrac
    simp only [h1.1, h1.2, if_true, h3, hlen]
    rw [List.singleton_append, key]
  rw [← hf]
  cases s <;> cases d <;> simp [parseBin, stripSign, isBin]

end HW.Fp
