import Verif.Model.Bits
import Mathlib.Algebra.Order.Ring.Nat
import Mathlib.Data.Nat.Log
import Mathlib.Tactic.Ring
import Mathlib.Tactic.NormNum

/-! # Lemmas about the integer helpers -/

namespace Neo

theorem bitLog2Loop_eq (x r : Nat) : bitLog2Loop x r = Nat.log 2 x + r := by
  induction x using Nat.strong_induction_on generalizing r with
  | _ x ih =>
    unfold bitLog2Loop
    split
    · rename_i h
      rw [ih (x / 2) (by omega), Nat.log_of_one_lt_of_le (by norm_num) (by omega : 2 ≤ x)]
      ring
    · rename_i h
      rw [Nat.log_of_lt (by omega)]; simp

theorem bitLog2_eq (x : Nat) : bitLog2 x = Nat.log 2 x := by
  simp [bitLog2, bitLog2Loop_eq]

@[simp] theorem bitLog2_two_pow (b : Nat) : bitLog2 (2 ^ b) = b := by
  rw [bitLog2_eq, Nat.log_pow (by norm_num)]

theorem ipowLoop_eq (base e r : Nat) : ipowLoop base e r = r * base ^ e := by
  induction e generalizing r with
  | zero => simp [ipowLoop]
  | succ e ih => rw [ipowLoop, ih, pow_succ]; ring

theorem ipow_eq (base e : Nat) : ipow base e = base ^ e := by
  unfold ipow
  split_ifs with h1 h2 h3 h4 h5
  · rw [h1, Nat.one_shiftLeft]
  · rw [h2, Nat.one_shiftLeft, show (4 : Nat) = 2 ^ 2 by norm_num, ← pow_mul, mul_comm]
  · rw [h3, Nat.one_shiftLeft, show (8 : Nat) = 2 ^ 3 by norm_num, ← pow_mul, mul_comm]
  · rw [h4, Nat.one_shiftLeft, show (16 : Nat) = 2 ^ 4 by norm_num, ← pow_mul, mul_comm]
  · rw [h5, Nat.one_shiftLeft, show (32 : Nat) = 2 ^ 5 by norm_num, ← pow_mul, mul_comm]
  · rw [ipowLoop_eq, one_mul]

@[simp] theorem fftSize_eq (order : Nat) : fftSize order = 2 ^ order := ipow_eq 2 order

theorem bitCeilLoop_eq (x b : Nat) (h : 2 ^ b < x ∨ b = 0 ∨ 2 ^ (b - 1) < x) :
    ∃ c, bitCeilLoop x (2 ^ b) = 2 ^ c ∧ x ≤ 2 ^ c ∧ (c = 0 ∨ 2 ^ (c - 1) < x) := by
  induction hm : x - 2 ^ b using Nat.strong_induction_on generalizing b with
  | _ m ih =>
    unfold bitCeilLoop
    have hp : 0 < 2 ^ b := by positivity
    rw [if_neg (by omega)]
    split
    · rename_i hlt
      rw [← pow_succ]
      refine ih (x - 2 ^ (b + 1)) ?_ (b + 1) (Or.inr (Or.inr (by simpa using hlt))) rfl
      rw [pow_succ]; omega
    · rename_i hge
      refine ⟨b, rfl, by omega, ?_⟩
      rcases h with h | h | h
      · omega
      · exact Or.inl h
      · exact Or.inr h

/-- `bit_ceil` returns the smallest power of two not below its argument. -/
theorem bitCeil_spec (x : Nat) :
    ∃ c, bitCeil x = 2 ^ c ∧ x ≤ 2 ^ c ∧ (c = 0 ∨ 2 ^ (c - 1) < x) := by
  have := bitCeilLoop_eq x 0 (by simp)
  simpa [bitCeil] using this

theorem bitCeil_eq_clog (x : Nat) : bitCeil x = 2 ^ Nat.clog 2 x := by
  obtain ⟨c, e, h1, h2⟩ := bitCeil_spec x
  rw [e]
  congr 1
  apply le_antisymm
  · rcases h2 with h2 | h2
    · omega
    · have := (Nat.lt_clog_iff_pow_lt (by norm_num : 1 < 2)).2 h2
      omega
  · exact (Nat.clog_le_iff_le_pow (by norm_num)).2 h1

theorem nextOrder_eq (n : Nat) : nextOrder n = Nat.clog 2 n := by
  rw [nextOrder, bitCeil_eq_clog, bitLog2_two_pow]

end Neo
