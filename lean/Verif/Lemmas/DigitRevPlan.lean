import Verif.Model.DigitRev
import Verif.Lemmas.BitRev

/-! # Digit-reversal tables and in-place reordering -/

namespace Neo

/-- The reversed-carry increment. -/
theorem revCarry_digitRev {R : ℕ} (hR : 2 ≤ R) (b i fuel : ℕ) (hb : 1 ≤ b) (hi : i + 1 < R ^ b)
    (hf : b ≤ fuel) :
    ∃ j k, revCarry R fuel (digitRev R b i) ((R - 1) * R ^ (b - 1)) = .ok (j, k) ∧
      j + k / (R - 1) = digitRev R b (i + 1) := by
  induction b generalizing i fuel with
  | zero => omega
  | succ b ih =>
    obtain ⟨fuel, rfl⟩ : ∃ f, fuel = f + 1 := ⟨fuel - 1, by omega⟩
    simp only [Nat.add_sub_cancel]
    unfold revCarry
    have hlt := digitRev_lt (show 0 < R by omega) b (i / R)
    have hmod := Nat.mod_lt i (show 0 < R by omega)
    by_cases h : i % R = R - 1
    · have hb1 : 1 ≤ b := by
        rcases Nat.eq_zero_or_pos b with rfl | h'
        · simp at hi
          have : i % R = i := Nat.mod_eq_of_lt (by omega)
          omega
        · exact h'
      have e1 : digitRev R (b + 1) i = (R - 1) * R ^ b + digitRev R b (i / R) := by
        simp only [digitRev, h]
      have hdm := Nat.div_add_mod i R
      have e2 : i + 1 = (i / R + 1) * R + 0 := by
        rw [h] at hdm
        have : (i / R + 1) * R = R * (i / R) + R := by ring
        omega
      have hi' : i / R + 1 < R ^ b := by
        rw [pow_succ, e2, add_zero] at hi
        exact lt_of_mul_lt_mul_right hi (by omega)
      obtain ⟨j, k, e3, e4⟩ := ih (i / R) fuel hb1 hi' (by omega)
      refine ⟨j, k, ?_, ?_⟩
      · rw [e1, if_pos (by omega), Nat.add_sub_cancel_left]
        have : (R - 1) * R ^ b / R = (R - 1) * R ^ (b - 1) := by
          have : R ^ b = R ^ (b - 1) * R := by rw [← pow_succ]; congr 1; omega
          rw [this, ← mul_assoc, Nat.mul_div_cancel _ (by omega)]
        rw [this, e3]
      · rw [e4, e2, digitRev_mul_add b _ 0 (by omega)]
        simp
    · have e1 : digitRev R (b + 1) i = (i % R) * R ^ b + digitRev R b (i / R) := rfl
      have h2 : (i % R + 1) * R ^ b ≤ (R - 1) * R ^ b := Nat.mul_le_mul_right _ (by omega)
      have h3 : (i % R + 1) * R ^ b = (i % R) * R ^ b + R ^ b := by ring
      refine ⟨_, _, by rw [e1, if_neg (by omega)], ?_⟩
      have hdm := Nat.div_add_mod i R
      have e2 : i + 1 = (i / R) * R + (i % R + 1) := by
        have : (i / R) * R = R * (i / R) := by ring
        omega
      rw [e2, digitRev_mul_add b _ _ (by omega), Nat.mul_div_cancel_left _ (by omega), h3]
      omega

theorem lt_pow_self' {R : ℕ} (hR : 2 ≤ R) (b : ℕ) : b < R ^ b :=
  Nat.lt_pow_self (by omega)

theorem digitrevMake_eq {R : ℕ} (hR : 2 ≤ R) (b : ℕ) :
    digitrevMake R (R ^ b) = .ok (vec (R ^ b)
      (fun i => if i < R ^ b - 1 then digitRev R b i else 0)) := by
  have hpos : 0 < R ^ b := by positivity
  unfold digitrevMake
  rw [if_neg (by omega)]
  have h0 : (List.replicate (R ^ b) 0, 0)
      = (vec (R ^ b) (fun m => if m < 0 then digitRev R b m else 0), digitRev R b 0) := by
    refine Prod.ext ?_ ?_
    · rw [eq_vec_iff]
      refine ⟨by simp, fun i hi => ?_⟩
      simp [hi]
    · show 0 = digitRev R b 0
      clear hpos
      induction b with
      | zero => rfl
      | succ b ih => simp [digitRev, ← ih]
  rw [h0, forN_eq' (s' := (vec (R ^ b) (fun m => if m < R ^ b - 1 then digitRev R b m else 0),
      digitRev R b (R ^ b - 1)))
    (fun i => (vec (R ^ b) (fun m => if m < i then digitRev R b m else 0), digitRev R b i)) rfl rfl]
  · rfl
  · intro i hi
    have hb : 1 ≤ b := by
      rcases Nat.eq_zero_or_pos b with rfl | h
      · simp at hi
      · exact h
    have hi' : i < R ^ b := by omega
    have hk : (R - 1) * R ^ b / R = (R - 1) * R ^ (b - 1) := by
      have : R ^ b = R ^ (b - 1) * R := by rw [← pow_succ]; congr 1; omega
      rw [this, ← mul_assoc, Nat.mul_div_cancel _ (by omega)]
    have hlt := lt_pow_self' hR b
    obtain ⟨j, k, e1, e2⟩ := revCarry_digitRev hR b i (R ^ b + 1) hb (by omega) (by omega)
    simp only [wr_vec_ok hi', bind_ok, hk, e1, pure_eq_ok, e2]
    congr 2
    apply vec_ext
    intro m hm
    by_cases h : m = i
    · subst h; simp
    · have : m < i + 1 ↔ m < i := by omega
      simp [h, this]

/-- Swap loop with a table that agrees with the involution wherever it swaps. -/
theorem digitrevApply_vec {α : Type} {n : ℕ} {σ τ : ℕ → ℕ} (hσ : ∀ i < n, σ i < n)
    (hinv : ∀ i < n, σ (σ i) = i) (hτ : ∀ i < n, (i < τ i ↔ i < σ i) ∧ (i < τ i → τ i = σ i))
    (f : ℕ → α) :
    digitrevApply (vec n τ) (vec n f) = .ok (vec n (fun i => f (σ i))) := by
  unfold digitrevApply
  rw [length_vec]
  apply forN_eq' (fun i => vec n (swapSt σ f i))
  · exact vec_ext (fun m hm => by simp [swapSt])
  · exact vec_ext (fun m hm => by simp [swapSt, hm])
  · intro i hi
    simp only [rd_vec_ok hi, bind_ok]
    obtain ⟨h1, h2⟩ := hτ i hi
    split
    · rename_i hlt
      rw [h2 hlt, swap_vec hi (hσ i hi)]
      congr 1
      apply vec_ext
      intro m hm
      rw [swapSt_succ hinv f hi hm, if_pos (h1.1 hlt)]
    · rename_i hlt
      simp only [pure_eq_ok]
      congr 1
      apply vec_ext
      intro m hm
      rw [swapSt_succ hinv f hi hm, if_neg (fun h => hlt (h1.2 h))]

theorem digitrev_plan {α : Type} {R : ℕ} (hR : 2 ≤ R) (b : ℕ) (f : ℕ → α) :
    digitrevApply (vec (R ^ b) (fun i => if i < R ^ b - 1 then digitRev R b i else 0))
      (vec (R ^ b) f) = .ok (vec (R ^ b) (fun i => f (digitRev R b i))) := by
  have hR0 : 0 < R := by omega
  apply digitrevApply_vec (fun i _ => digitRev_lt hR0 b i) (fun i hi => digitRev_invol hR0 hi)
  intro i hi
  have := digitRev_lt hR0 b i
  by_cases h : i < R ^ b - 1
  · rw [if_pos h]; exact ⟨Iff.rfl, fun _ => rfl⟩
  · rw [if_neg h]
    constructor
    · constructor
      · omega
      · omega
    · omega

/-- The table-free in-place bit reversal. -/
theorem bitrevorder_vec {α : Type} (b : ℕ) (f : ℕ → α) :
    bitrevorder (vec (2 ^ b) f) = .ok (vec (2 ^ b) (fun i => f (digitRev 2 b i))) := by
  have hpos : 0 < 2 ^ b := by positivity
  unfold bitrevorder
  rw [length_vec, if_neg (by omega)]
  have hz : digitRev 2 b 0 = 0 := by
    clear hpos
    induction b with
    | zero => rfl
    | succ b ih => simp [digitRev, ih]
  have hinv : ∀ i < 2 ^ b, digitRev 2 b (digitRev 2 b i) = i :=
    fun i hi => digitRev_invol (by norm_num) hi
  have hlt' : ∀ i, digitRev 2 b i < 2 ^ b := digitRev_lt (by norm_num) b
  rw [forN_eq' (s' := (vec (2 ^ b) (swapSt (digitRev 2 b) f (2 ^ b - 1)), digitRev 2 b (2 ^ b - 1)))
    (fun i => (vec (2 ^ b) (swapSt (digitRev 2 b) f i), digitRev 2 b i)) ?_ rfl]
  · simp only [bind_ok, pure_eq_ok]
    congr 1
    apply vec_ext
    intro m hm
    have hs := swapSt_succ hinv f (i := 2 ^ b - 1) (m := m) (by omega) hm
    rw [if_neg (by have := hlt' (2 ^ b - 1); omega)] at hs
    rw [← hs]
    unfold swapSt
    rw [if_pos (by omega)]
  · intro i hi
    have hb : 1 ≤ b := by
      rcases Nat.eq_zero_or_pos b with rfl | h
      · simp at hi
      · exact h
    have hi' : i < 2 ^ b := by omega
    have hhalf : 2 ^ b / 2 = (2 - 1) * 2 ^ (b - 1) := by
      have : 2 ^ b = 2 * 2 ^ (b - 1) := by rw [← pow_succ']; congr 1; omega
      omega
    have hlt := lt_pow_self' (le_refl 2) b
    obtain ⟨j, k, e1, e2⟩ := revCarry_digitRev (le_refl 2) b i (2 ^ b + 1) hb (by omega) (by omega)
    have e2' : j + k = digitRev 2 b (i + 1) := by simpa using e2
    have hsw : (if i < digitRev 2 b i then swap (vec (2 ^ b) (swapSt (digitRev 2 b) f i)) i
        (digitRev 2 b i) else pure (vec (2 ^ b) (swapSt (digitRev 2 b) f i)))
        = (.ok (vec (2 ^ b) (swapSt (digitRev 2 b) f (i + 1))) : Res (List α)) := by
      split
      · rename_i h
        rw [swap_vec hi' (hlt' i)]
        congr 1
        apply vec_ext
        intro m hm
        rw [swapSt_succ hinv f hi' hm, if_pos h]
      · rename_i h
        rw [pure_eq_ok]
        congr 1
        apply vec_ext
        intro m hm
        rw [swapSt_succ hinv f hi' hm, if_neg h]
    by_cases hc : i < digitRev 2 b i
    · rw [if_pos hc] at hsw
      simp only [if_pos hc, hsw, bind_ok, length_vec, hhalf, e1, pure_eq_ok, e2']
    · rw [if_neg hc, pure_eq_ok] at hsw
      have hsw' := Except.ok.inj hsw
      simp only [if_neg hc, bind_ok, length_vec, hhalf, e1, pure_eq_ok, e2', hsw']
  · refine Prod.ext ?_ hz
    exact vec_ext (fun m hm => by simp [swapSt])

end Neo
