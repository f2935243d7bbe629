import Verif.Spec.DctOrtho
import Verif.Spec.Dct
import Mathlib.Data.Matrix.Mul
import Mathlib.LinearAlgebra.Matrix.NonsingularInverse
import Mathlib.Tactic.FieldSimp
import Mathlib.Tactic.LinearCombination

/-! # The DCT-II matrix is orthogonal -/

namespace Neo

open Finset

/-- `2 sin θ ∑ cos((2n+1)θ) = sin(2Nθ)`. -/
theorem sum_cos_odd (N : ℕ) (θ : ℝ) :
    2 * Real.sin θ * ∑ n ∈ range N, Real.cos ((2 * n + 1) * θ) = Real.sin (2 * N * θ) := by
  induction N with
  | zero => simp
  | succ N ih =>
    rw [sum_range_succ, mul_add, ih]
    have e1 : 2 * ((N + 1 : ℕ) : ℝ) * θ = (2 * N + 1) * θ + θ := by push_cast; ring
    have e2 : 2 * (N : ℝ) * θ = (2 * N + 1) * θ - θ := by ring
    rw [e1, e2, Real.sin_add, Real.sin_sub]
    ring

/-- `∑ cos(π m (2n+1) / 2N) = 0` for `0 < m < 2N`. -/
theorem sum_cos_zero {N m : ℕ} (h0 : 0 < m) (h1 : m < 2 * N) :
    ∑ n ∈ range N, Real.cos (Real.pi * m * (2 * n + 1) / (2 * N)) = 0 := by
  have hN : (0 : ℝ) < N := by
    have : 0 < N := by omega
    exact_mod_cast this
  have h := sum_cos_odd N (Real.pi * m / (2 * N))
  have hs : Real.sin (2 * N * (Real.pi * m / (2 * N))) = 0 := by
    rw [show 2 * N * (Real.pi * m / (2 * N)) = m * Real.pi by field_simp]
    exact Real.sin_nat_mul_pi m
  have hp : 0 < Real.sin (Real.pi * m / (2 * N)) := by
    apply Real.sin_pos_of_pos_of_lt_pi
    · have : (0 : ℝ) < m := by exact_mod_cast h0
      have := Real.pi_pos
      positivity
    · rw [div_lt_iff₀ (by positivity)]
      have : (m : ℝ) < 2 * N := by exact_mod_cast h1
      exact mul_lt_mul_of_pos_left this Real.pi_pos
  rw [hs] at h
  have e : ∑ n ∈ range N, Real.cos ((2 * n + 1) * (Real.pi * m / (2 * N))) = 0 := by
    rcases mul_eq_zero.1 h with h | h
    · exact absurd h (by positivity)
    · exact h
  rw [← e]
  refine sum_congr rfl (fun n _ => ?_)
  congr 1
  ring

/-- Rows of the cosine matrix: orthogonal, of squared length `N` (first) and `N/2`. -/
theorem sum_cos_mul {N j k : ℕ} (hj : j < N) (hk : k < N) :
    ∑ n ∈ range N, Real.cos (Real.pi * j * (2 * n + 1) / (2 * N)) *
      Real.cos (Real.pi * k * (2 * n + 1) / (2 * N)) =
      if j = k then (if k = 0 then (N : ℝ) else N / 2) else 0 := by
  have hN : (0 : ℝ) < N := by
    have : 0 < N := by omega
    exact_mod_cast this
  wlog hjk : k ≤ j generalizing j k
  · rw [sum_congr rfl (fun n _ => mul_comm _ _), this hk hj (by omega)]
    by_cases e : j = k
    · subst e; rfl
    · rw [if_neg e, if_neg (fun h => e h.symm)]
  have key : ∀ n ∈ range N, Real.cos (Real.pi * j * (2 * n + 1) / (2 * N)) *
      Real.cos (Real.pi * k * (2 * n + 1) / (2 * N)) =
      (1 / 2) * (Real.cos (Real.pi * ((j - k : ℕ) : ℝ) * (2 * n + 1) / (2 * N)) +
        Real.cos (Real.pi * ((j + k : ℕ) : ℝ) * (2 * n + 1) / (2 * N))) := by
    intro n _
    have e1 : Real.pi * ((j - k : ℕ) : ℝ) * (2 * n + 1) / (2 * N) =
        Real.pi * j * (2 * n + 1) / (2 * N) - Real.pi * k * (2 * n + 1) / (2 * N) := by
      rw [Nat.cast_sub hjk]; ring
    have e2 : Real.pi * ((j + k : ℕ) : ℝ) * (2 * n + 1) / (2 * N) =
        Real.pi * j * (2 * n + 1) / (2 * N) + Real.pi * k * (2 * n + 1) / (2 * N) := by
      push_cast; ring
    rw [e1, e2, Real.cos_add, Real.cos_sub]
    ring
  rw [sum_congr rfl key, ← mul_sum, sum_add_distrib]
  by_cases e : j = k
  · subst e
    rw [if_pos rfl]
    have h1 : ∑ n ∈ range N, Real.cos (Real.pi * ((j - j : ℕ) : ℝ) * (2 * n + 1) / (2 * N)) = N := by
      simp
    rw [h1]
    by_cases e0 : j = 0
    · subst e0
      simp
      ring
    · rw [sum_cos_zero (m := j + j) (by omega) (by omega), if_neg e0]
      ring
  · rw [if_neg e, sum_cos_zero (m := j - k) (by omega) (by omega),
      sum_cos_zero (m := j + k) (by omega) (by omega)]
    ring

theorem dctWeight_sq {N k : ℕ} (hN : 0 < N) :
    Spec.dctWeight N k ^ 2 * (if k = 0 then (N : ℝ) else N / 2) = 1 := by
  have hN : (0 : ℝ) < N := by exact_mod_cast hN
  unfold Spec.dctWeight
  split_ifs
  · rw [Real.sq_sqrt (by positivity)]; field_simp
  · rw [Real.sq_sqrt (by positivity)]; field_simp

/-- The orthonormal DCT-II matrix. -/
noncomputable def dctMat (N : ℕ) : Matrix (Fin N) (Fin N) ℝ := fun k n =>
  Spec.dctWeight N k * Real.cos (Real.pi * (k : ℕ) * (2 * (n : ℕ) + 1) / (2 * N))

theorem dctMat_mul_transpose (N : ℕ) : dctMat N * (dctMat N).transpose = 1 := by
  ext j k
  rw [Matrix.mul_apply, Matrix.one_apply]
  have h := sum_cos_mul j.2 k.2
  have e : ∑ n : Fin N, dctMat N j n * (dctMat N).transpose n k =
      Spec.dctWeight N j * Spec.dctWeight N k *
        ∑ n ∈ range N, Real.cos (Real.pi * (j : ℕ) * (2 * n + 1) / (2 * N)) *
          Real.cos (Real.pi * (k : ℕ) * (2 * n + 1) / (2 * N)) := by
    rw [← Fin.sum_univ_eq_sum_range (fun n => Real.cos (Real.pi * (j : ℕ) * (2 * n + 1) / (2 * N)) *
          Real.cos (Real.pi * (k : ℕ) * (2 * n + 1) / (2 * N))), mul_sum]
    refine sum_congr rfl (fun n _ => ?_)
    rw [Matrix.transpose_apply]
    unfold dctMat
    ring
  rw [e, h]
  by_cases hjk : j = k
  · subst hjk
    rw [if_pos rfl, if_pos rfl, ← pow_two]
    exact dctWeight_sq (lt_of_le_of_lt (Nat.zero_le _) j.2)
  · rw [if_neg (fun h => hjk (Fin.ext h)), if_neg hjk, mul_zero]

theorem dctMat_transpose_mul (N : ℕ) : (dctMat N).transpose * dctMat N = 1 :=
  mul_eq_one_comm.1 (dctMat_mul_transpose N)

theorem dct2Ortho_mulVec (N : ℕ) (x : ℕ → ℝ) (k : Fin N) :
    Spec.dct2Ortho N x k = (dctMat N).mulVec (fun i => x i) k := by
  unfold Spec.dct2Ortho Matrix.mulVec dotProduct dctMat
  rw [mul_sum, ← Fin.sum_univ_eq_sum_range (fun n =>
    Spec.dctWeight N k * (x n * Real.cos (Real.pi * (k : ℕ) * (2 * n + 1) / (2 * N))))]
  exact sum_congr rfl (fun n _ => by ring)

theorem dct3Ortho_mulVec (N : ℕ) (x : ℕ → ℝ) (k : Fin N) :
    Spec.dct3Ortho N x k = (dctMat N).transpose.mulVec (fun i => x i) k := by
  unfold Spec.dct3Ortho
  change _ = ∑ j : Fin N, dctMat N j k * x j
  rw [← Fin.sum_univ_eq_sum_range (fun j =>
    Spec.dctWeight N j * x j * Real.cos (Real.pi * j * (2 * (k : ℕ) + 1) / (2 * N)))]
  exact sum_congr rfl (fun n _ => by unfold dctMat; ring)

/-- DCT-III undoes DCT-II. -/
theorem dct3_dct2 {N n : ℕ} (hn : n < N) (x : ℕ → ℝ) :
    Spec.dct3Ortho N (Spec.dct2Ortho N x) n = x n := by
  rw [dct3Ortho_mulVec N _ ⟨n, hn⟩, funext (dct2Ortho_mulVec N x), Matrix.mulVec_mulVec,
    dctMat_transpose_mul, Matrix.one_mulVec]

/-- DCT-II undoes DCT-III. -/
theorem dct2_dct3 {N n : ℕ} (hn : n < N) (x : ℕ → ℝ) :
    Spec.dct2Ortho N (Spec.dct3Ortho N x) n = x n := by
  rw [dct2Ortho_mulVec N _ ⟨n, hn⟩, funext (dct3Ortho_mulVec N x), Matrix.mulVec_mulVec,
    dctMat_mul_transpose, Matrix.one_mulVec]

theorem dct2Ortho_congr {N : ℕ} {x y : ℕ → ℝ} (h : ∀ i < N, x i = y i) (k : ℕ) :
    Spec.dct2Ortho N x k = Spec.dct2Ortho N y k := by
  unfold Spec.dct2Ortho
  rw [sum_congr rfl (fun n hn => by rw [h n (mem_range.1 hn)])]

theorem dct3Ortho_congr {N : ℕ} {x y : ℕ → ℝ} (h : ∀ i < N, x i = y i) (k : ℕ) :
    Spec.dct3Ortho N x k = Spec.dct3Ortho N y k := by
  unfold Spec.dct3Ortho
  rw [sum_congr rfl (fun n hn => by rw [h n (mem_range.1 hn)])]

theorem mulVec_energy {N : ℕ} {A : Matrix (Fin N) (Fin N) ℝ} (h : A.transpose * A = 1) (x : Fin N → ℝ) :
    ∑ k, A.mulVec x k ^ 2 = ∑ k, x k ^ 2 := by
  have e : ∀ y : Fin N → ℝ, ∑ k, y k ^ 2 = y ⬝ᵥ y := fun y => by
    unfold dotProduct
    exact sum_congr rfl (fun k _ => pow_two _)
  rw [e, e, Matrix.dotProduct_mulVec, Matrix.vecMul_mulVec, h, Matrix.vecMul_one]

theorem dct2Ortho_energy (N : ℕ) (x : ℕ → ℝ) :
    ∑ k ∈ range N, Spec.dct2Ortho N x k ^ 2 = ∑ n ∈ range N, x n ^ 2 := by
  rw [← Fin.sum_univ_eq_sum_range (fun k => Spec.dct2Ortho N x k ^ 2),
    ← Fin.sum_univ_eq_sum_range (fun k => x k ^ 2),
    sum_congr rfl (fun k _ => by rw [dct2Ortho_mulVec]),
    mulVec_energy (dctMat_transpose_mul N)]

theorem dct3Ortho_energy (N : ℕ) (x : ℕ → ℝ) :
    ∑ k ∈ range N, Spec.dct3Ortho N x k ^ 2 = ∑ n ∈ range N, x n ^ 2 := by
  rw [← Fin.sum_univ_eq_sum_range (fun k => Spec.dct3Ortho N x k ^ 2),
    ← Fin.sum_univ_eq_sum_range (fun k => x k ^ 2),
    sum_congr rfl (fun k _ => by rw [dct3Ortho_mulVec]),
    mulVec_energy (by rw [Matrix.transpose_transpose]; exact dctMat_mul_transpose N)]

/-- Bin for bin the orthonormal transform is the unnormalised one times half the weight. -/
theorem dct2Ortho_eq (N : ℕ) (x : ℕ → ℝ) (k : ℕ) :
    Spec.dct2Ortho N x k = Spec.dctWeight N k / 2 * Spec.dct2 N x k := by
  unfold Spec.dct2Ortho Spec.dct2
  ring

theorem dctWeight_le {N : ℕ} (hN : 0 < N) (k : ℕ) : Spec.dctWeight N k < 2 := by
  have hN : (1 : ℝ) ≤ N := by exact_mod_cast hN
  have a : (1 : ℝ) / N ≤ 1 := by rw [div_le_one (by linarith)]; exact hN
  have b : (2 : ℝ) / N ≤ 2 := by rw [div_le_iff₀ (by linarith)]; linarith
  unfold Spec.dctWeight
  split_ifs
  · rw [Real.sqrt_lt' (by norm_num)]; linarith
  · rw [Real.sqrt_lt' (by norm_num)]; linarith

theorem dctWeight_pos {N : ℕ} (hN : 0 < N) (k : ℕ) : 0 < Spec.dctWeight N k := by
  have hN : (0 : ℝ) < N := by exact_mod_cast hN
  unfold Spec.dctWeight
  split_ifs <;> positivity

/-- The two normalisations never agree, except on silence. -/
theorem dct2_eq_ortho_iff {N : ℕ} (hN : 0 < N) (x : ℕ → ℝ) :
    (∀ k < N, Spec.dct2Ortho N x k = Spec.dct2 N x k) ↔ ∀ n < N, x n = 0 := by
  constructor
  · intro h n hn
    have hz : ∀ k < N, Spec.dct2Ortho N x k = 0 := by
      intro k hk
      have e := h k hk
      have e' := dct2Ortho_eq N x k
      have hw := dctWeight_le hN k
      have : (1 - Spec.dctWeight N k / 2) * Spec.dct2 N x k = 0 := by linear_combination e' - e
      rcases mul_eq_zero.1 this with h' | h'
      · linarith
      · rw [e, h']
    rw [← dct3_dct2 hn x, dct3Ortho_congr hz]
    simp [Spec.dct3Ortho]
  · intro h k _
    rw [dct2Ortho_congr h]
    unfold Spec.dct2
    rw [sum_congr rfl (fun n hn => by rw [h n (mem_range.1 hn)])]
    simp [Spec.dct2Ortho]

end Neo
