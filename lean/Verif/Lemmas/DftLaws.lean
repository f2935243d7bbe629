import Verif.Lemmas.Root
import Verif.Spec.Signal

/-! # Laws of the DFT: conjugation, linearity, circular convolution, Parseval -/

namespace Neo

open Finset ComplexConjugate

theorem conj_root (N : ℕ) (dir : Direction) : conj (root N dir) = (root N dir)⁻¹ := by
  unfold root
  rw [← Complex.exp_conj, ← Complex.exp_neg]
  congr 1
  have h2 : conj (2 : ℂ) = 2 := Complex.conj_ofNat 2
  cases dir <;> simp [h2, neg_div]

theorem conj_root_forward (N : ℕ) : conj (root N .forward) = root N .backward := by
  rw [conj_root, root_forward_eq_inv, inv_inv]

theorem conj_root_backward (N : ℕ) : conj (root N .backward) = root N .forward := by
  rw [conj_root, root_forward_eq_inv]

/-- Conjugating the input of a transform: `conj (X k) = Σ conj (x n) ω^(-nk)`. -/
theorem conj_dft (N : ℕ) (x : ℕ → ℂ) (k : ℕ) :
    conj (Spec.dft N x k) = Spec.idft N (fun n => conj (x n)) k := by
  rw [← dftRoot_forward, ← dftRoot_backward]
  simp [Spec.dftRoot, map_sum, conj_root_forward]

theorem conj_idft (N : ℕ) (x : ℕ → ℂ) (k : ℕ) :
    conj (Spec.idft N x k) = Spec.dft N (fun n => conj (x n)) k := by
  rw [← dftRoot_forward, ← dftRoot_backward]
  simp [Spec.dftRoot, map_sum, conj_root_backward]

/-- Index reversal exchanges the two directions. -/
theorem dft_reflect {N : ℕ} (x : ℕ → ℂ) {k : ℕ} (hk : k ≤ N) :
    Spec.dft N x (N - k) = Spec.idft N x k := by
  rcases Nat.eq_zero_or_pos N with rfl | hN
  · simp [Spec.dft, Spec.idft]
  rw [← dftRoot_forward, ← dftRoot_backward]
  apply sum_congr rfl
  intro n _
  congr 1
  have h1 : root N .forward ^ (n * (N - k)) * root N .forward ^ (n * k) = 1 := by
    rw [← pow_add, ← mul_add, Nat.sub_add_cancel hk, mul_comm, pow_mul,
      root_pow_self (by omega), one_pow]
  have h2 : root N .backward ^ (n * k) * root N .forward ^ (n * k) = 1 := by
    rw [← mul_pow, mul_comm, root_forward_mul_backward, one_pow]
  have h3 : root N .forward ^ (n * k) ≠ 0 := by
    intro h0; rw [h0, mul_zero] at h1; exact zero_ne_one h1
  exact mul_right_cancel₀ h3 (h1.trans h2.symm)

/-- A real signal has a Hermitian spectrum. -/
theorem dft_real_symm {N : ℕ} (x : ℕ → ℝ) {k : ℕ} (hk : k ≤ N) :
    Spec.dft N (fun n => (x n : ℂ)) (N - k) = conj (Spec.dft N (fun n => (x n : ℂ)) k) := by
  rw [dft_reflect _ hk, conj_dft]
  simp

theorem dft_periodic {N : ℕ} (hN : 0 < N) (x : ℕ → ℂ) (k : ℕ) :
    Spec.dft N x (k + N) = Spec.dft N x k := by
  rw [← dftRoot_forward, ← dftRoot_forward]
  apply sum_congr rfl
  intro n _
  congr 1
  rw [mul_add, pow_add, mul_comm n N, pow_mul (root N .forward) N, root_pow_self (by omega),
    one_pow, mul_one]

theorem dft_self {N : ℕ} (hN : 0 < N) (x : ℕ → ℂ) : Spec.dft N x N = Spec.dft N x 0 := by
  simpa using dft_periodic hN x 0

theorem dftRoot_add {A : Type} [CommRing A] (N : ℕ) (ω : A) (x y : ℕ → A) (k : ℕ) :
    Spec.dftRoot N ω (fun n => x n + y n) k = Spec.dftRoot N ω x k + Spec.dftRoot N ω y k := by
  unfold Spec.dftRoot
  rw [← sum_add_distrib]
  exact sum_congr rfl (fun n _ => by ring)

theorem dftRoot_smul {A : Type} [CommRing A] (N : ℕ) (ω : A) (a : A) (x : ℕ → A) (k : ℕ) :
    Spec.dftRoot N ω (fun n => a * x n) k = a * Spec.dftRoot N ω x k := by
  unfold Spec.dftRoot
  rw [mul_sum]
  exact sum_congr rfl (fun n _ => by ring)

theorem specDft_add (dir : Direction) (N : ℕ) (x y : ℕ → ℂ) (k : ℕ) :
    specDft dir N (fun n => x n + y n) k = specDft dir N x k + specDft dir N y k := by
  simp only [← dftRoot_dir, dftRoot_add]

theorem specDft_smul (dir : Direction) (N : ℕ) (a : ℂ) (x : ℕ → ℂ) (k : ℕ) :
    specDft dir N (fun n => a * x n) k = a * specDft dir N x k := by
  simp only [← dftRoot_dir, dftRoot_smul]

theorem dft_add (N : ℕ) (x y : ℕ → ℂ) (k : ℕ) :
    Spec.dft N (fun n => x n + y n) k = Spec.dft N x k + Spec.dft N y k :=
  specDft_add .forward N x y k

theorem idft_add (N : ℕ) (x y : ℕ → ℂ) (k : ℕ) :
    Spec.idft N (fun n => x n + y n) k = Spec.idft N x k + Spec.idft N y k :=
  specDft_add .backward N x y k

theorem dft_smul (N : ℕ) (a : ℂ) (x : ℕ → ℂ) (k : ℕ) :
    Spec.dft N (fun n => a * x n) k = a * Spec.dft N x k := specDft_smul .forward N a x k

theorem idft_smul (N : ℕ) (a : ℂ) (x : ℕ → ℂ) (k : ℕ) :
    Spec.idft N (fun n => a * x n) k = a * Spec.idft N x k := specDft_smul .backward N a x k

theorem dft_sum {ι : Type} (s : Finset ι) (N : ℕ) (x : ι → ℕ → ℂ) (k : ℕ) :
    Spec.dft N (fun n => ∑ i ∈ s, x i n) k = ∑ i ∈ s, Spec.dft N (x i) k := by
  unfold Spec.dft
  rw [sum_comm]
  exact sum_congr rfl (fun n _ => by rw [sum_mul])

theorem idft_sum {ι : Type} (s : Finset ι) (N : ℕ) (x : ι → ℕ → ℂ) (k : ℕ) :
    Spec.idft N (fun n => ∑ i ∈ s, x i n) k = ∑ i ∈ s, Spec.idft N (x i) k := by
  unfold Spec.idft
  rw [sum_comm]
  exact sum_congr rfl (fun n _ => by rw [sum_mul])

theorem dft_congr {N : ℕ} {x y : ℕ → ℂ} (h : ∀ n < N, x n = y n) (k : ℕ) :
    Spec.dft N x k = Spec.dft N y k := specDft_congr (dir := .forward) h k

theorem idft_congr {N : ℕ} {x y : ℕ → ℂ} (h : ∀ n < N, x n = y n) (k : ℕ) :
    Spec.idft N x k = Spec.idft N y k := specDft_congr (dir := .backward) h k

/-- Convolution theorem: the transform of a circular convolution is the product. -/
theorem dftRoot_circConv {A : Type} [CommRing A] {N : ℕ} {ω : A} (hω : ω ^ N = 1)
    (x y : ℕ → A) (k : ℕ) :
    Spec.dftRoot N ω (Spec.circConv N x y) k = Spec.dftRoot N ω x k * Spec.dftRoot N ω y k := by
  rcases Nat.eq_zero_or_pos N with rfl | hN
  · simp [Spec.dftRoot]
  have hmod : ∀ a, ω ^ (a % N) = ω ^ a := by
    intro a
    conv_rhs => rw [← Nat.mod_add_div a N, pow_add, pow_mul, hω, one_pow, mul_one]
  have hmodk : ∀ a, ω ^ (a % N * k) = ω ^ (a * k) := by
    intro a; rw [pow_mul, hmod, ← pow_mul]
  unfold Spec.dftRoot Spec.circConv
  simp only [sum_mul]
  rw [sum_comm]
  apply sum_congr rfl
  intro j hj
  rw [mem_range] at hj
  rw [mul_sum]
  refine sum_nbij' (fun n => (n + N - j) % N) (fun m => (m + j) % N) ?_ ?_ ?_ ?_ ?_
  · intro n _; exact mem_range.2 (Nat.mod_lt _ hN)
  · intro n _; exact mem_range.2 (Nat.mod_lt _ hN)
  · intro n hn
    rw [mem_range] at hn
    rw [Nat.mod_add_mod, show n + N - j + j = n + N by omega, Nat.add_mod_right,
      Nat.mod_eq_of_lt hn]
  · intro n hn
    rw [mem_range] at hn
    rcases lt_or_ge (n + j) N with h | h
    · rw [Nat.mod_eq_of_lt h, show n + j + N - j = n + N by omega, Nat.add_mod_right,
        Nat.mod_eq_of_lt hn]
    · rw [Nat.mod_eq_sub_mod h, Nat.mod_eq_of_lt (by omega : n + j - N < N),
        show n + j - N + N - j = n by omega, Nat.mod_eq_of_lt hn]
  · intro n hn
    rw [mem_range] at hn
    have e : ω ^ (n * k) = ω ^ (j * k) * ω ^ ((n + N - j) % N * k) := by
      rw [hmodk, ← pow_add, ← add_mul, show j + (n + N - j) = n + N by omega, add_mul, pow_add,
        pow_mul ω N, hω, one_pow, mul_one]
    rw [e]; ring

theorem dft_circConv {N : ℕ} (hN : 0 < N) (x y : ℕ → ℂ) (k : ℕ) :
    Spec.dft N (Spec.circConv N x y) k = Spec.dft N x k * Spec.dft N y k := by
  simp only [← dftRoot_forward]
  exact dftRoot_circConv (root_pow_self (by omega) _) x y k

/-- The inverse transform of a product of spectra is `N` times the circular convolution. -/
theorem idft_mul_dft {N : ℕ} (x y : ℕ → ℂ) {n : ℕ} (hn : n < N) :
    Spec.idft N (fun k => Spec.dft N x k * Spec.dft N y k) n = N * Spec.circConv N x y n := by
  rw [← idft_dft _ hn]
  exact idft_congr (fun k _ => (dft_circConv (by omega) x y k).symm) n

/-- Parseval. -/
theorem parseval {N : ℕ} (x : ℕ → ℂ) :
    ∑ k ∈ range N, Spec.dft N x k * conj (Spec.dft N x k)
      = N * ∑ n ∈ range N, x n * conj (x n) := by
  have h : ∀ n ∈ range N, (N : ℂ) * (x n * conj (x n))
      = Spec.idft N (Spec.dft N x) n * conj (x n) := by
    intro n hn
    rw [idft_dft _ (mem_range.1 hn)]; ring
  rw [mul_sum, sum_congr rfl h]
  have e : ∀ n, Spec.idft N (Spec.dft N x) n
      = ∑ k ∈ range N, Spec.dft N x k * root N .backward ^ (k * n) := by
    intro n; rw [← dftRoot_backward]; rfl
  simp only [e, sum_mul]
  rw [sum_comm]
  apply sum_congr rfl
  intro k _
  rw [conj_dft, ← dftRoot_backward]
  simp only [Spec.dftRoot, mul_sum]
  exact sum_congr rfl (fun n _ => by rw [mul_comm n k]; ring)

/-- Real part of the inverse transform of a Hermitian spectrum. -/
theorem idft_hermitian_real {N : ℕ} (X : ℕ → ℂ) (h0 : conj (X 0) = X 0)
    (h : ∀ k, 0 < k → k < N → X (N - k) = conj (X k)) (n : ℕ) :
    conj (Spec.idft N X n) = Spec.idft N X n := by
  rcases Nat.eq_zero_or_pos N with rfl | hN
  · simp [Spec.idft]
  rw [conj_idft, ← dftRoot_forward, ← dftRoot_backward]
  unfold Spec.dftRoot
  refine sum_nbij' (fun k => (N - k) % N) (fun k => (N - k) % N) ?_ ?_ ?_ ?_ ?_
  · intro n _; exact mem_range.2 (Nat.mod_lt _ hN)
  · intro n _; exact mem_range.2 (Nat.mod_lt _ hN)
  · intro k hk
    rw [mem_range] at hk
    rcases Nat.eq_zero_or_pos k with rfl | hk0
    · simp
    · simp only [Nat.mod_eq_of_lt (by omega : N - k < N)]
      rw [Nat.mod_eq_of_lt (by omega)]; omega
  · intro k hk
    rw [mem_range] at hk
    rcases Nat.eq_zero_or_pos k with rfl | hk0
    · simp
    · simp only [Nat.mod_eq_of_lt (by omega : N - k < N)]
      rw [Nat.mod_eq_of_lt (by omega)]; omega
  · intro k hk
    rw [mem_range] at hk
    rcases Nat.eq_zero_or_pos k with rfl | hk0
    · simp [h0]
    · rw [Nat.mod_eq_of_lt (by omega : N - k < N), h k hk0 hk]
      congr 1
      have h1 : root N .backward ^ ((N - k) * n) * root N .backward ^ (k * n) = 1 := by
        rw [← pow_add, ← add_mul, Nat.sub_add_cancel hk.le, pow_mul,
          root_pow_self (by omega), one_pow]
      have h2 : root N .forward ^ (k * n) * root N .backward ^ (k * n) = 1 := by
        rw [← mul_pow, root_forward_mul_backward, one_pow]
      have h3 : root N .backward ^ (k * n) ≠ 0 := by
        intro h0; rw [h0, mul_zero] at h1; exact zero_ne_one h1
      exact mul_right_cancel₀ h3 (h2.trans h1.symm)

end Neo
