import Verif.Lemmas.DigitRevPlan

/-! # Bit reversal of interleaved and split buffers -/

namespace Neo

variable {α : Type}

/-- Interleaved buffer of `n` pairs described by `g i 0`, `g i 1`. -/
def pairVec (n : ℕ) (g : ℕ → ℕ → α) : List α := vec (2 * n) (fun m => g (m / 2) (m % 2))

theorem pairVec_ext {n : ℕ} {g h : ℕ → ℕ → α} (H : ∀ i < n, g i = h i) :
    pairVec n g = pairVec n h :=
  vec_ext (fun m hm => by rw [H (m / 2) (by omega)])

theorem swap_pairVec {n : ℕ} {g : ℕ → ℕ → α} {i j : ℕ} (hi : i < n) (hj : j < n) :
    (do let x ← swap (pairVec n g) (i * 2) (j * 2)
        swap x (i * 2 + 1) (j * 2 + 1))
      = .ok (pairVec n (fun m => if m = j then g i else if m = i then g j else g m)) := by
  unfold pairVec
  rw [swap_vec (by omega) (by omega), bind_ok, swap_vec (by omega) (by omega)]
  congr 1
  apply vec_ext
  intro m hm
  beta_reduce
  have a1 : (i * 2 + 1) / 2 = i := by omega
  have a2 : (j * 2 + 1) / 2 = j := by omega
  have a3 : i * 2 / 2 = i := by omega
  have a4 : j * 2 / 2 = j := by omega
  have a5 : (i * 2 + 1) % 2 = 1 := by omega
  have a6 : (j * 2 + 1) % 2 = 1 := by omega
  have a7 : (i * 2) % 2 = 0 := by omega
  have a8 : (j * 2) % 2 = 0 := by omega
  rcases Nat.mod_two_eq_zero_or_one m with h0 | h0
  · have c1 : ¬ m = j * 2 + 1 := by omega
    have c2 : ¬ m = i * 2 + 1 := by omega
    rw [if_neg c1, if_neg c2, h0, a3, a4, a7, a8]
    by_cases h : m / 2 = j
    · have : m = j * 2 := by omega
      rw [if_pos this, if_pos h]
    · have : ¬ m = j * 2 := by omega
      rw [if_neg this, if_neg h]
      by_cases h' : m / 2 = i
      · have : m = i * 2 := by omega
        rw [if_pos this, if_pos h']
      · have : ¬ m = i * 2 := by omega
        rw [if_neg this, if_neg h']
  · have d1 : ¬ m = j * 2 := by omega
    have d2 : ¬ m = i * 2 := by omega
    have d3 : ¬ i * 2 + 1 = j * 2 := by omega
    have d4 : ¬ i * 2 + 1 = i * 2 := by omega
    have d5 : ¬ j * 2 + 1 = j * 2 := by omega
    have d6 : ¬ j * 2 + 1 = i * 2 := by omega
    rw [if_neg d3, if_neg d4, if_neg d5, if_neg d6, if_neg d1, if_neg d2, a1, a2, a5, a6, h0]
    by_cases h : m / 2 = j
    · have : m = j * 2 + 1 := by omega
      rw [if_pos this, if_pos h]
    · have : ¬ m = j * 2 + 1 := by omega
      rw [if_neg this, if_neg h]
      by_cases h' : m / 2 = i
      · have : m = i * 2 + 1 := by omega
        rw [if_pos this, if_pos h']
      · have : ¬ m = i * 2 + 1 := by omega
        rw [if_neg this, if_neg h']

theorem bitrevApplyInterleaved_vec {n : ℕ} {σ : ℕ → ℕ} (hσ : ∀ i < n, σ i < n)
    (hinv : ∀ i < n, σ (σ i) = i) (g : ℕ → ℕ → α) :
    bitrevApplyInterleaved (vec n σ) (pairVec n g) = .ok (pairVec n (fun i => g (σ i))) := by
  unfold bitrevApplyInterleaved
  rw [length_vec]
  apply forN_eq' (fun i => pairVec n (swapSt σ g i))
  · exact pairVec_ext (fun m hm => by simp [swapSt])
  · exact pairVec_ext (fun m hm => by simp [swapSt, hm])
  · intro i hi
    simp only [rd_vec_ok hi, bind_ok]
    split
    · rename_i hlt
      rw [swap_pairVec hi (hσ i hi)]
      congr 1
      apply pairVec_ext
      intro m hm
      rw [swapSt_succ hinv g hi hm, if_pos hlt]
    · rename_i hlt
      simp only [pure_eq_ok]
      congr 1
      apply pairVec_ext
      intro m hm
      rw [swapSt_succ hinv g hi hm, if_neg hlt]

theorem bitrevApplySplit_vec {n : ℕ} {σ : ℕ → ℕ} (hσ : ∀ i < n, σ i < n)
    (hinv : ∀ i < n, σ (σ i) = i) (f g : ℕ → α) :
    bitrevApplySplit (vec n σ) (vec n f, vec n g)
      = .ok (vec n (fun i => f (σ i)), vec n (fun i => g (σ i))) := by
  unfold bitrevApplySplit
  rw [length_vec]
  apply forN_eq' (fun i => (vec n (swapSt σ f i), vec n (swapSt σ g i)))
  · exact Prod.ext (vec_ext (fun m hm => by simp [swapSt])) (vec_ext (fun m hm => by simp [swapSt]))
  · exact Prod.ext (vec_ext (fun m hm => by simp [swapSt, hm]))
      (vec_ext (fun m hm => by simp [swapSt, hm]))
  · intro i hi
    simp only [rd_vec_ok hi, bind_ok]
    split
    · rename_i hlt
      rw [swap_vec hi (hσ i hi), bind_ok, swap_vec hi (hσ i hi), bind_ok, pure_eq_ok]
      congr 1
      refine Prod.ext (vec_ext ?_) (vec_ext ?_)
      · intro m hm
        rw [swapSt_succ hinv f hi hm, if_pos hlt]
      · intro m hm
        rw [swapSt_succ hinv g hi hm, if_pos hlt]
    · rename_i hlt
      simp only [pure_eq_ok]
      congr 1
      refine Prod.ext (vec_ext ?_) (vec_ext ?_)
      · intro m hm
        rw [swapSt_succ hinv f hi hm, if_neg hlt]
      · intro m hm
        rw [swapSt_succ hinv g hi hm, if_neg hlt]

/-- The interleaved carry loop mirrors the complex one with `j = 2 r + 1` and `m = 2 k`. -/
theorem revCarryInterleaved_eq (b i fuel : ℕ) (hb : 1 ≤ b) (hi : i + 1 < 2 ^ b) (hf : b ≤ fuel) :
    ∃ j m, revCarryInterleaved fuel (2 * digitRev 2 b i + 1) (2 ^ b) = .ok (j, m) ∧
      j + m = 2 * digitRev 2 b (i + 1) + 1 := by
  induction b generalizing i fuel with
  | zero => omega
  | succ b ih =>
    obtain ⟨fuel, rfl⟩ : ∃ f, fuel = f + 1 := ⟨fuel - 1, by omega⟩
    unfold revCarryInterleaved
    have hlt := digitRev_lt (show 0 < 2 by omega) b (i / 2)
    have hp : 0 < 2 ^ b := by positivity
    have e1 : digitRev 2 (b + 1) i = (i % 2) * 2 ^ b + digitRev 2 b (i / 2) := rfl
    have e1' : digitRev 2 (b + 1) (i + 1) = ((i + 1) % 2) * 2 ^ b + digitRev 2 b ((i + 1) / 2) := rfl
    have hpw : 2 ^ (b + 1) = 2 * 2 ^ b := by rw [pow_succ]; ring
    rcases Nat.mod_two_eq_zero_or_one i with h | h
    · refine ⟨_, _, by rw [e1, h, if_neg (by omega)], ?_⟩
      have h1 : (i + 1) % 2 = 1 := by omega
      have h2 : (i + 1) / 2 = i / 2 := by omega
      rw [e1', h1, h2]; omega
    · have hb1 : 1 ≤ b := by
        rcases Nat.eq_zero_or_pos b with rfl | h'
        · simp at hi; omega
        · exact h'
      have h1 : (i + 1) % 2 = 0 := by omega
      have h2 : (i + 1) / 2 = i / 2 + 1 := by omega
      obtain ⟨j, m, e3, e4⟩ := ih (i / 2) fuel hb1 (by omega) (by omega)
      refine ⟨j, m, ?_, ?_⟩
      · rw [e1, h, if_pos (by omega)]
        have e5 : 2 * (1 * 2 ^ b + digitRev 2 b (i / 2)) + 1 - 2 ^ (b + 1)
            = 2 * digitRev 2 b (i / 2) + 1 := by omega
        have e6 : 2 ^ (b + 1) / 2 = 2 ^ b := by omega
        rw [e5, e6, e3]
      · rw [e4, e1', h1, h2]; omega

/-- The loop never runs out of fuel, whatever `j` is. -/
theorem revCarryInterleaved_total (fuel j m : ℕ) (h : m < fuel) :
    ∃ r, revCarryInterleaved fuel j m = .ok r := by
  induction fuel generalizing j m with
  | zero => omega
  | succ fuel ih =>
    unfold revCarryInterleaved
    split
    · exact ih _ _ (by omega)
    · exact ⟨_, rfl⟩

theorem bitrevorderInterleaved_vec (b : ℕ) (g : ℕ → ℕ → α) :
    bitrevorderInterleaved (pairVec (2 ^ b) g)
      = .ok (pairVec (2 ^ b) (fun i => g (digitRev 2 b i))) := by
  have hpos : 0 < 2 ^ b := by positivity
  unfold bitrevorderInterleaved
  have hlen : (pairVec (2 ^ b) g).length / 2 = 2 ^ b := by
    unfold pairVec; rw [length_vec]; omega
  simp only [hlen]
  have hz : digitRev 2 b 0 = 0 := by
    clear hpos hlen
    induction b with
    | zero => rfl
    | succ b ih => simp [digitRev, ih]
  have hinv : ∀ i < 2 ^ b, digitRev 2 b (digitRev 2 b i) = i :=
    fun i hi => digitRev_invol (by norm_num) hi
  have hlt' : ∀ i, digitRev 2 b i < 2 ^ b := digitRev_lt (by norm_num) b
  -- swap part of one iteration
  have hsw : ∀ i < 2 ^ b, swapPairIf (pairVec (2 ^ b) (swapSt (digitRev 2 b) g i))
      (2 * i + 1) (2 * digitRev 2 b i + 1)
      = .ok (pairVec (2 ^ b) (swapSt (digitRev 2 b) g (i + 1))) := by
    intro i hi
    unfold swapPairIf
    have hs := fun m hm => swapSt_succ hinv g (i := i) (m := m) hi hm
    by_cases h : i < digitRev 2 b i
    · rw [if_pos (by omega)]
      have := swap_pairVec (g := swapSt (digitRev 2 b) g i) (hlt' i) hi
      have c1 : 2 * digitRev 2 b i + 1 - 1 = digitRev 2 b i * 2 := by omega
      have c2 : 2 * i + 1 - 1 = i * 2 := by omega
      have c3 : 2 * digitRev 2 b i + 1 = digitRev 2 b i * 2 + 1 := by omega
      have c4 : 2 * i + 1 = i * 2 + 1 := by omega
      rw [c1, c2, c3, c4, this]
      congr 1
      apply pairVec_ext
      intro m hm
      rw [hs m hm, if_pos h]
      by_cases h1 : m = i
      · subst h1
        have : ¬ m = digitRev 2 b m := by omega
        rw [if_pos rfl, if_neg this, if_pos rfl]
      · rw [if_neg h1, if_neg h1]
    · rw [if_neg (by omega), pure_eq_ok]
      congr 1
      apply pairVec_ext
      intro m hm
      rw [hs m hm, if_neg h]
  obtain ⟨r, e, hr⟩ := forN_inv (n := 2 ^ b) (body := fun t (s : List α × Nat) => do
      let x ← swapPairIf s.1 (2 * t + 1) s.2
      let jm ← revCarryInterleaved (2 ^ b + 1) s.2 (2 ^ b)
      pure (x, jm.1 + jm.2)) (s := (pairVec (2 ^ b) g, 1))
    (fun i s => s.1 = pairVec (2 ^ b) (swapSt (digitRev 2 b) g i) ∧
      (i < 2 ^ b → s.2 = 2 * digitRev 2 b i + 1))
    ⟨pairVec_ext (fun m hm => by simp [swapSt]), fun _ => by rw [hz]⟩ (by
      rintro i hi ⟨x, j⟩ ⟨h1, h2⟩
      simp only at h1 h2
      subst h1
      rw [h2 hi]
      simp only [hsw i hi, bind_ok]
      by_cases hl : i + 1 < 2 ^ b
      · have hb : 1 ≤ b := by
          rcases Nat.eq_zero_or_pos b with rfl | h
          · simp at hl
          · exact h
        have hlt := lt_pow_self' (le_refl 2) b
        obtain ⟨j, m, e1, e2⟩ := revCarryInterleaved_eq b i (2 ^ b + 1) hb hl (by omega)
        rw [e1]
        exact ⟨_, rfl, rfl, fun _ => e2⟩
      · obtain ⟨r, hr⟩ := revCarryInterleaved_total (2 ^ b + 1) (2 * digitRev 2 b i + 1) (2 ^ b)
          (by omega)
        rw [hr]
        exact ⟨_, rfl, rfl, fun h => absurd h hl⟩)
  rw [e, bind_ok, pure_eq_ok, hr.1]
  congr 1
  apply pairVec_ext
  intro m hm
  unfold swapSt
  rw [if_pos (by omega)]

end Neo
