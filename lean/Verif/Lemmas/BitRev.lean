import Verif.Model.Fft2
import Verif.Lemmas.Bits
import Verif.Lemmas.DigitRev

/-! # Bit-reversal tables and their application -/

namespace Neo

/-- Value of `table[i]` after `j` iterations of the inner loop of `bitrevMake`. -/
def revAcc (b i : ℕ) : ℕ → ℕ
  | 0 => 0
  | j + 1 => revAcc b i j ||| (((i >>> j) &&& 1) <<< (b - 1 - j))

theorem testBit_one_eq (k : ℕ) : Nat.testBit 1 k = decide (k = 0) := by
  cases k with
  | zero => rfl
  | succ k => simp [Nat.testBit_succ]

theorem revAcc_testBit (b i j m : ℕ) (hj : j ≤ b) :
    (revAcc b i j).testBit m = (decide (m < b ∧ b - 1 - m < j) && i.testBit (b - 1 - m)) := by
  induction j with
  | zero => simp [revAcc]
  | succ j ih =>
    simp only [revAcc, Nat.testBit_or, ih (by omega), Nat.testBit_shiftLeft, Nat.testBit_and,
      Nat.testBit_shiftRight, testBit_one_eq]
    by_cases hm : m = b - 1 - j
    · subst hm
      have e : b - 1 - (b - 1 - j) = j := by omega
      have h1 : b - 1 - j < b := by omega
      rw [decide_eq_true (⟨h1, by omega⟩ : b - 1 - j < b ∧ b - 1 - (b - 1 - j) < j + 1)]
      simp [e]
    · have h4 : ¬ (m ≥ b - 1 - j ∧ m - (b - 1 - j) = 0) := by omega
      have h5 : (decide (m ≥ b - 1 - j) &&
          (i.testBit (j + (m - (b - 1 - j))) && decide (m - (b - 1 - j) = 0))) = false := by
        by_cases h6 : m ≥ b - 1 - j
        · have h7 : ¬ (m - (b - 1 - j) = 0) := by omega
          rw [decide_eq_false h7]; simp
        · rw [decide_eq_false h6]; simp
      rw [h5, Bool.or_false]
      congr 1
      rw [decide_eq_decide]
      omega

theorem revAcc_eq (b i : ℕ) : revAcc b i b = digitRev 2 b i := by
  apply digitRev_unique (by norm_num)
  constructor
  · apply Nat.lt_pow_two_of_testBit
    intro m hm
    rw [revAcc_testBit _ _ _ _ le_rfl]
    simp; omega
  · intro j hj
    have h := revAcc_testBit b i b j le_rfl
    have hc : j < b ∧ b - 1 - j < b := by omega
    simp only [hc, and_self, decide_true, Bool.true_and] at h
    rw [Nat.testBit_eq_decide_div_mod_eq, Nat.testBit_eq_decide_div_mod_eq] at h
    have h' := (decide_eq_decide.1 h)
    have a1 := Nat.mod_two_eq_zero_or_one (revAcc b i b / 2 ^ j)
    have a2 := Nat.mod_two_eq_zero_or_one (i / 2 ^ (b - 1 - j))
    omega

theorem bitrevMake_eq (b : ℕ) : bitrevMake (2 ^ b) = .ok (vec (2 ^ b) (digitRev 2 b)) := by
  unfold bitrevMake
  simp only [bitLog2_two_pow]
  apply forN_eq' (fun i => vec (2 ^ b) (fun m => if m < i then digitRev 2 b m else 0))
  · rw [eq_comm, eq_vec_iff]
    refine ⟨by simp, fun i hi => ?_⟩
    simp [List.getElem?_replicate, hi]
  · exact vec_ext (fun i hi => by simp [hi])
  · intro i hi
    apply forN_eq' (fun j => vec (2 ^ b)
      (fun m => if m < i then digitRev 2 b m else if m = i then revAcc b i j else 0))
    · exact vec_ext (fun m hm => by simp [revAcc])
    · apply vec_ext
      intro m hm
      by_cases h1 : m < i
      · simp [h1, Nat.lt_succ_of_lt h1]
      · by_cases h2 : m = i
        · subst h2; simp [revAcc_eq]
        · have : ¬ m < i + 1 := by omega
          simp [h1, h2, this]
    · intro j hj
      simp only [rd_vec_ok hi, bind_ok, wr_vec_ok hi]
      congr 1
      apply vec_ext
      intro m hm
      by_cases h2 : m = i
      · subst h2; simp [revAcc]
      · simp [Function.update_of_ne h2, h2]

theorem swap_vec {α : Type} {n : ℕ} {f : ℕ → α} {i j : ℕ} (hi : i < n) (hj : j < n) :
    swap (vec n f) i j = .ok (vec n (fun m => if m = j then f i else if m = i then f j else f m)) := by
  unfold swap
  simp only [rd_vec_ok hi, rd_vec_ok hj, bind_ok, wr_vec_ok hi, wr_vec_ok hj]
  congr 1
  apply vec_ext
  intro m hm
  by_cases h1 : m = j
  · subst h1; simp
  · by_cases h2 : m = i
    · subst h2; simp [Function.update_of_ne h1, h1]
    · simp [Function.update_of_ne h1, Function.update_of_ne h2, h1, h2]

/-- Function computed after `i` iterations of the swap loop for the involution `σ`. -/
def swapSt {α : Type} (σ : ℕ → ℕ) (f : ℕ → α) (i m : ℕ) : α :=
  if m < i ∨ σ m < i then f (σ m) else f m

/-- Effect of one iteration of the swap loop. -/
theorem swapSt_succ {α : Type} {n : ℕ} {σ : ℕ → ℕ} (hinv : ∀ i < n, σ (σ i) = i)
    (f : ℕ → α) {i m : ℕ} (hi : i < n) (hm : m < n) :
    swapSt σ f (i + 1) m =
      if i < σ i then
        (if m = σ i then swapSt σ f i i else if m = i then swapSt σ f i (σ i) else swapSt σ f i m)
      else swapSt σ f i m := by
  have e1 := hinv i hi
  have e2 := hinv m hm
  unfold swapSt
  by_cases hlt : i < σ i
  · rw [if_pos hlt]
    by_cases h1 : m = σ i
    · subst h1
      rw [if_pos rfl, e1]
      have a : σ i < i + 1 ∨ i < i + 1 := by omega
      have b' : ¬ (i < i ∨ σ i < i) := by omega
      rw [if_pos a, if_neg b']
    · by_cases h2 : m = i
      · subst h2
        rw [if_neg h1, if_pos rfl]
        have a : m < m + 1 ∨ σ m < m + 1 := by omega
        have b' : ¬ (σ m < m ∨ σ (σ m) < m) := by omega
        rw [if_pos a, if_neg b']
      · rw [if_neg h1, if_neg h2]
        have h3 : σ m ≠ i := fun h => h1 (by rw [← e2, h])
        by_cases h4 : m < i ∨ σ m < i
        · rw [if_pos h4, if_pos (by omega)]
        · rw [if_neg h4, if_neg (by omega)]
  · rw [if_neg hlt]
    by_cases h4 : m < i ∨ σ m < i
    · rw [if_pos h4, if_pos (by omega)]
    · rw [if_neg h4]
      by_cases h5 : m < i + 1 ∨ σ m < i + 1
      · rw [if_pos h5]
        rcases h5 with h5 | h5
        · have : m = i := by omega
          subst this
          have : σ m = m := by omega
          rw [this]
        · have h6 : σ m = i := by omega
          have h7 : m = σ i := by rw [← h6, e2]
          have : σ m = m := by omega
          rw [this]
      · rw [if_neg h5]

/-- The swap loop `if (i < t[i]) swap(x[i], x[t[i]])` applies an involutive permutation. -/
theorem bitrevApply_vec {α : Type} {n : ℕ} {σ : ℕ → ℕ} (hσ : ∀ i < n, σ i < n)
    (hinv : ∀ i < n, σ (σ i) = i) (f : ℕ → α) :
    bitrevApply (vec n σ) (vec n f) = .ok (vec n (fun i => f (σ i))) := by
  unfold bitrevApply
  rw [length_vec]
  apply forN_eq' (fun i => vec n (swapSt σ f i))
  · exact vec_ext (fun m hm => by simp [swapSt])
  · exact vec_ext (fun m hm => by simp [swapSt, hm])
  · intro i hi
    simp only [rd_vec_ok hi, bind_ok]
    split
    · rename_i hlt
      rw [swap_vec hi (hσ i hi)]
      congr 1
      apply vec_ext
      intro m hm
      rw [swapSt_succ hinv f hi hm, if_pos hlt]
    · rename_i hlt
      simp only [pure_eq_ok]
      congr 1
      apply vec_ext
      intro m hm
      rw [swapSt_succ hinv f hi hm, if_neg hlt]

theorem bitrevApply_digitRev {α : Type} (b : ℕ) (f : ℕ → α) :
    bitrevApply (vec (2 ^ b) (digitRev 2 b)) (vec (2 ^ b) f)
      = .ok (vec (2 ^ b) (fun i => f (digitRev 2 b i))) :=
  bitrevApply_vec (fun i _ => digitRev_lt (by norm_num) b i)
    (fun i hi => digitRev_invol (by norm_num) hi) f

end Neo
