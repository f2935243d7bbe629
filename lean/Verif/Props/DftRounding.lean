import Verif.Lemmas.DftRounding
import Verif.Lemmas.DftLaws
import Verif.Props.ConvRounding

/-! # C90: rounding errors of `dft`, `dft_plan` and `dct2_plan` -/

namespace Neo.Props

open Neo Finset
open scoped ComplexConjugate

private theorem vals_vec {F : Rounding} {N : ℕ} (f : ℕ → FC F) {n : ℕ} (hn : n < N) : vals (vec N f) n = (f n).val := by
  unfold vals
  rw [map_vec, getD_vec _ _ _ _ hn]

private theorem valsR_vec {F : Rounding} {N : ℕ} (f : ℕ → FR F) {n : ℕ} (hn : n < N) :
    valsR (vec N f) n = (f n).val := by
  unfold valsR
  rw [map_vec, getD_vec _ _ _ _ hn]

private theorem sqrt_two_pow (b : ℕ) : Real.sqrt (2 ^ b) = Real.sqrt 2 ^ b := by
  rw [Real.sqrt_eq_iff_mul_self_eq (by positivity) (by positivity), ← mul_pow, Real.mul_self_sqrt (by norm_num)]

private theorem specDft_congr {N : ℕ} (dir : Direction) {x y : ℕ → ℂ} (h : ∀ n < N, x n = y n) (k : ℕ) :
    specDft dir N x k = specDft dir N y k := by
  rw [← dftRoot_dir, ← dftRoot_dir]
  unfold Spec.dftRoot
  exact sum_congr rfl fun n hn => by rw [h n (mem_range.1 hn)]

/-- The plan after its construction and any number of successful calls. -/
inductive BluesteinReachableF (F : Rounding) (n : ℕ) : BluesteinPlanF F → Prop
  | make {p} : BluesteinPlanF.make F n = .ok p → BluesteinReachableF F n p
  | call {p p' x dir y} : BluesteinReachableF F n p → p.call x dir = .ok (p', y) → BluesteinReachableF F n p'

private theorem bluesteinReachableF_form {F : Rounding} {n : ℕ} (h1 : 0 < n) (h2 : n * 2 + 1 ≤ 2 ^ 27)
    {p : BluesteinPlanF F} (h : BluesteinReachableF F n p) : ∃ f g, p = bluesteinPlanFOf F n f g := by
  induction h with
  | make h =>
    rw [bluesteinPlanF_make_eq h2] at h
    injection h with h
    exact ⟨_, _, h.symm⟩
  | @call p p' x dir y _ h ih =>
    obtain ⟨f, g, rfl⟩ := ih
    by_cases hx : x.length = n
    · obtain ⟨f', g', y', e, -⟩ := bluesteinF_call_vec h1 f g (fun i => x.getD i 0) dir
      rw [← list_eq_vec 0 hx, h] at e
      injection e with e
      exact ⟨f', g', (Prod.ext_iff.1 e).1⟩
    · unfold BluesteinPlanF.call at h
      have : check (decide (x.length = (bluesteinPlanFOf F n f g).size)) = .error .assertion := by
        rw [decide_eq_false (show ¬ x.length = (bluesteinPlanFOf F n f g).size from hx)]; rfl
      simp only [this, bind_error] at h
      simp at h

private theorem bluestein_dir (F : Rounding) (n : ℕ) (h1 : 0 < n) (h2 : n * 2 + 1 ≤ 2 ^ 27) (p : BluesteinPlanF F)
    (hp : BluesteinReachableF F n p) (x : List (FC F)) (hx : x.length = n) (dir : Direction) :
    ∃ p' y, p.call x dir = .ok (p', y) ∧ y.length = n ∧
      Spec.l2 n (fun k => vals y k - specDft dir n (vals x) k)
        ≤ (Spec.bluesteinGain F.u F.ε (Nat.clog 2 (n * 2 + 1)) - 1)
          * (Real.sqrt (2 ^ Nat.clog 2 (n * 2 + 1)) * Real.sqrt (2 * n - 1) * Spec.l2 n (vals x)) := by
  obtain ⟨f, g, rfl⟩ := bluesteinReachableF_form h1 h2 hp
  rw [list_eq_vec (0 : FC F) hx]
  generalize (fun i => x.getD i 0) = a
  obtain ⟨f', g', y, e, k⟩ := bluesteinF_call_vec h1 f g a dir
  refine ⟨_, _, e, length_vec _ _, ?_⟩
  rw [sqrt_two_pow, mul_assoc, mul_comm (Real.sqrt (2 * n - 1)),
    l2_congr (f := vals (vec n a)) (g := fun i => (a i).val) (fun i hi => vals_vec a hi)]
  refine le_trans (le_of_eq (l2_congr fun i hi => ?_)) k
  rw [vals_vec y hi, specDft_congr dir (fun m hm => vals_vec a hm)]

/-- **C90**: the arbitrary-length plan (Bluestein) in rounded arithmetic.  For every size `n ≥ 1` with `2n + 1 ≤ 2^27`,
in every reachable plan state and for every buffer of `n` numbers, both directions succeed, and the distance of the
result to the exact transform is at most `(Spec.bluesteinGain − 1) · √(2^b) · √(2n − 1) · ‖x‖₂`, `2^b` being the size
of the inner transforms. -/
theorem C90_dft_plan (F : Rounding) (n : ℕ) (h1 : 0 < n) (h2 : n * 2 + 1 ≤ 2 ^ 27) :
    (∃ p, BluesteinPlanF.make F n = .ok p) ∧
    ∀ p, BluesteinReachableF F n p → ∀ x : List (FC F), x.length = n →
      (∃ p' y, p.call x .forward = .ok (p', y) ∧ y.length = n ∧
        Spec.l2 n (fun k => vals y k - Spec.dft n (vals x) k)
          ≤ (Spec.bluesteinGain F.u F.ε (Nat.clog 2 (n * 2 + 1)) - 1)
            * (Real.sqrt (2 ^ Nat.clog 2 (n * 2 + 1)) * Real.sqrt (2 * n - 1) * Spec.l2 n (vals x))) ∧
      (∃ p' y, p.call x .backward = .ok (p', y) ∧ y.length = n ∧
        Spec.l2 n (fun k => vals y k - Spec.idft n (vals x) k)
          ≤ (Spec.bluesteinGain F.u F.ε (Nat.clog 2 (n * 2 + 1)) - 1)
            * (Real.sqrt (2 ^ Nat.clog 2 (n * 2 + 1)) * Real.sqrt (2 * n - 1) * Spec.l2 n (vals x))) :=
  ⟨⟨_, bluesteinPlanF_make_eq h2⟩, fun p hp x hx =>
    ⟨bluestein_dir F n h1 h2 p hp x hx .forward, bluestein_dir F n h1 h2 p hp x hx .backward⟩⟩

/-- A buffer of any other length trips the assertion. -/
theorem C90_dft_plan_wrong_length (F : Rounding) (n : ℕ) (h1 : 0 < n) (h2 : n * 2 + 1 ≤ 2 ^ 27) (p : BluesteinPlanF F)
    (hp : BluesteinReachableF F n p) (x : List (FC F)) (hx : x.length ≠ n) (dir : Direction) :
    p.call x dir = .error .assertion := by
  obtain ⟨f, g, rfl⟩ := bluesteinReachableF_form h1 h2 hp
  unfold BluesteinPlanF.call
  have : check (decide (x.length = (bluesteinPlanFOf F n f g).size)) = .error .assertion := by
    rw [decide_eq_false (show ¬ x.length = (bluesteinPlanFOf F n f g).size from hx)]; rfl
  simp only [this, bind_error]

/-! ### Explicit constants -/

private theorem exp_le {s : ℝ} (h0 : 0 ≤ s) (h1 : s ≤ 1) : Real.exp s ≤ 1 + s + s ^ 2 := by
  have := (abs_le.1 (Real.abs_exp_sub_one_sub_id_le (x := s) (by rw [abs_of_nonneg h0]; exact h1))).2
  linarith

private theorem le_exp {g c : ℝ} (h : g - 1 ≤ c) : g ≤ Real.exp c := by linarith [Real.add_one_le_exp c]

private theorem unitErr_le (F : Rounding) (hu : F.u ≤ 2⁻¹ ^ 20) (hε : F.ε ≤ 2 * F.u) :
    Spec.unitErr F.u F.ε ≤ 4.25 * F.u := by
  have hε0 : 0 ≤ F.ε := (abs_nonneg _).trans (F.cos_err 0)
  have hu0 := F.u_nonneg
  have hu6 : F.u ≤ 0.000001 := hu.trans (by norm_num)
  have s2 : Real.sqrt 2 ≤ 1.4143 := Real.sqrt_le_iff.2 ⟨by norm_num, by norm_num⟩
  have k2 : F.ε + F.u * (1 + F.ε) ≤ 3.001 * F.u := by nlinarith
  unfold Spec.unitErr
  have k3 : Real.sqrt 2 * (F.ε + F.u * (1 + F.ε)) ≤ 1.4143 * (3.001 * F.u) :=
    (mul_le_mul_of_nonneg_left k2 (Real.sqrt_nonneg 2)).trans (mul_le_mul_of_nonneg_right s2 (by linarith))
  linarith

private theorem mulGain_le (F : Rounding) (hu : F.u ≤ 2⁻¹ ^ 20) : Spec.mulGain F.u - 1 ≤ 3 * F.u := by
  have hu0 := F.u_nonneg
  have hu6 : F.u ≤ 0.000001 := hu.trans (by norm_num)
  have s2 : Real.sqrt 2 ≤ 1.4143 := Real.sqrt_le_iff.2 ⟨by norm_num, by norm_num⟩
  unfold Spec.mulGain
  have : 2 * F.u + F.u ^ 2 ≤ 2.001 * F.u := by nlinarith
  have := mul_le_mul s2 this (by positivity) (by norm_num)
  linarith

private theorem scaleGain_le (F : Rounding) (hu : F.u ≤ 2⁻¹ ^ 20) : Spec.scaleGain F.u - 1 ≤ 3.01 * F.u := by
  have hu0 := F.u_nonneg
  have hu6 : F.u ≤ 0.000001 := hu.trans (by norm_num)
  unfold Spec.scaleGain
  rw [← div_eq_mul_inv, sub_le_iff_le_add, div_le_iff₀ (by linarith)]
  nlinarith

/-- `(1+u)^a (1-u)^{-c}` for small exponents. -/
private theorem angleGain_le {u : ℝ} (h0 : 0 ≤ u) (h1 : u ≤ 0.000001) (a c : ℕ) (h : a + c ≤ 8) :
    (1 + u) ^ a * ((1 - u)⁻¹) ^ c - 1 ≤ (a + c + 0.001) * u := by
  have hi : (1 - u)⁻¹ ≤ 1 + 1.000002 * u := by
    rw [inv_le_comm₀ (by linarith) (by linarith), ← one_div, div_le_iff₀ (by linarith)]
    nlinarith
  have hi0 : 0 ≤ (1 - u)⁻¹ := inv_nonneg.2 (by linarith)
  have e1 : (1 + u) ^ a ≤ Real.exp (a * u) := by
    rw [Real.exp_nat_mul]
    exact pow_le_pow_left₀ (by linarith) (by linarith [Real.add_one_le_exp u]) _
  have e2 : ((1 - u)⁻¹) ^ c ≤ Real.exp (c * (1.000002 * u)) := by
    rw [Real.exp_nat_mul]
    exact pow_le_pow_left₀ hi0 (by linarith [Real.add_one_le_exp (1.000002 * u)]) _
  have e3 := mul_le_mul e1 e2 (pow_nonneg hi0 _) (Real.exp_pos _).le
  rw [← Real.exp_add] at e3
  have ha : (0 : ℝ) ≤ a := Nat.cast_nonneg _
  have hc : (0 : ℝ) ≤ c := Nat.cast_nonneg _
  have hac : (a : ℝ) + c ≤ 8 := by exact_mod_cast h
  have hs0 : 0 ≤ a * u + c * (1.000002 * u) := by positivity
  have hs : a * u + c * (1.000002 * u) ≤ (a + c + 0.00002) * u := by nlinarith
  have hs8 : a * u + c * (1.000002 * u) ≤ 8.1 * u := by nlinarith
  have := exp_le hs0 (by linarith)
  nlinarith

private theorem chirpErr_le (F : Rounding) (hu : F.u ≤ 2⁻¹ ^ 20) (hε : F.ε ≤ 2 * F.u) :
    Spec.chirpErr F.u F.ε ≤ 42 * F.u := by
  have hu0 := F.u_nonneg
  have hu6 : F.u ≤ 0.000001 := hu.trans (by norm_num)
  have h1 := unitErr_le F hu hε
  have h2 := angleGain_le hu0 hu6 5 1 (by norm_num)
  rw [pow_one] at h2
  unfold Spec.chirpErr
  have hpi := Real.pi_lt_d4
  have hpi0 := Real.pi_pos
  have h3 : 2 * Real.pi * ((1 + F.u) ^ 5 * (1 - F.u)⁻¹ - 1) ≤ 2 * Real.pi * (6.001 * F.u) :=
    mul_le_mul_of_nonneg_left (h2.trans (by push_cast; linarith)) (by positivity)
  nlinarith

theorem bluesteinGain_le (F : Rounding) (hu : F.u ≤ 2⁻¹ ^ 20) (hε : F.ε ≤ 2 * F.u) {b : ℕ} (h1 : 2 ≤ b) (h2 : b ≤ 27) :
    Spec.bluesteinGain F.u F.ε b - 1 ≤ 167 * b * F.u := by
  have hu0 := F.u_nonneg
  have hu6 : F.u ≤ 0.000001 := hu.trans (by norm_num)
  have hb : (2 : ℝ) ≤ b := by exact_mod_cast h1
  have hb27 : (b : ℝ) ≤ 27 := by exact_mod_cast h2
  have hq := le_exp (mulGain_le F hu)
  have hT : 1 + Spec.chirpErr F.u F.ε ≤ Real.exp (42 * F.u) := le_exp (by linarith [chirpErr_le F hu hε])
  have hS := le_exp (scaleGain_le F hu)
  have hg := le_exp (fftGain_le F hu hε h2)
  have q0 := one_le_mulGain F
  have t0 := chirpErr_nonneg F
  have s0 := one_le_scaleGain F
  have g0 := one_le_fftGain F b
  unfold Spec.bluesteinGain
  have key : Spec.mulGain F.u ^ 3 * (1 + Spec.chirpErr F.u F.ε) ^ 3 * Spec.scaleGain F.u * Spec.fftGain F.u F.ε b ^ 3
      ≤ Real.exp (3 * F.u) ^ 3 * Real.exp (42 * F.u) ^ 3 * Real.exp (3.01 * F.u) * Real.exp (32 * b * F.u) ^ 3 := by
    gcongr
  rw [← Real.exp_nat_mul, ← Real.exp_nat_mul, ← Real.exp_nat_mul, ← Real.exp_add, ← Real.exp_add, ← Real.exp_add] at key
  push_cast at key
  set s := 3 * (3 * F.u) + 3 * (42 * F.u) + 3.01 * F.u + 3 * (32 * b * F.u) with hs
  have s0' : 0 ≤ s := by positivity
  have s1 : s ≤ 165.1 * b * F.u := by rw [hs]; nlinarith
  have s2 : s ≤ 0.005 := by nlinarith
  have := exp_le s0' (by linarith)
  nlinarith

/-- The transform of any length preserves the norm up to `√n`. -/
private theorem l2_specDft_any {n : ℕ} (dir : Direction) (x : ℕ → ℂ) :
    Spec.l2 n (specDft dir n x) = Real.sqrt n * Spec.l2 n x := by
  have hf : ∀ x : ℕ → ℂ, Spec.l2 n (Spec.dft n x) = Real.sqrt n * Spec.l2 n x := by
    intro x
    unfold Spec.l2
    rw [← Real.sqrt_mul (Nat.cast_nonneg n)]
    congr 1
    have := parseval (N := n) x
    simp only [Complex.mul_conj, Complex.normSq_eq_norm_sq] at this
    exact_mod_cast this
  cases dir
  · exact hf x
  · have e : ∀ k, Spec.idft n x k = conj (Spec.dft n (fun i => conj (x i)) k) := by
      intro k
      unfold Spec.idft Spec.dft
      rw [map_sum]
      refine sum_congr rfl fun i _ => ?_
      rw [map_mul, Complex.conj_conj, ← Complex.exp_conj]
      congr 2
      simp only [map_neg, map_div₀, map_mul, Complex.conj_I, Complex.conj_ofReal, map_natCast, Complex.conj_ofNat]
      ring
    have h2 := hf (fun i => conj (x i))
    have h3 : Spec.l2 n (specDft .backward n x) = Spec.l2 n (Spec.dft n (fun i => conj (x i))) := by
      unfold Spec.l2
      congr 1
      refine sum_congr rfl fun k _ => ?_
      show ‖Spec.idft n x k‖ ^ 2 = _
      rw [e, RCLike.norm_conj]
    rw [h3, h2]
    congr 1
    unfold Spec.l2
    congr 1
    exact sum_congr rfl fun k _ => by rw [RCLike.norm_conj]

private theorem explicit_dir (F : Rounding) (hu : F.u ≤ 2⁻¹ ^ 20) (hε : F.ε ≤ 2 * F.u) (n : ℕ) (h1 : 0 < n)
    (h2 : n * 2 + 1 ≤ 2 ^ 27) (x : ℕ → ℂ) (dir : Direction) :
    (Spec.bluesteinGain F.u F.ε (Nat.clog 2 (n * 2 + 1)) - 1)
        * (Real.sqrt (2 ^ Nat.clog 2 (n * 2 + 1)) * Real.sqrt (2 * n - 1) * Spec.l2 n x)
      ≤ 473 * Nat.clog 2 (n * 2 + 1) * F.u * (Real.sqrt n * Spec.l2 n (specDft dir n x)) := by
  have hb2 : 2 ≤ Nat.clog 2 (n * 2 + 1) := by
    have : Nat.clog 2 3 = 2 := by decide +kernel
    calc 2 = Nat.clog 2 3 := this.symm
      _ ≤ _ := Nat.clog_mono_right 2 (by omega)
  have hb27 : Nat.clog 2 (n * 2 + 1) ≤ 27 := Nat.clog_le_of_le_pow h2
  have hlt : 2 ^ (Nat.clog 2 (n * 2 + 1) - 1) < n * 2 + 1 := Nat.pow_pred_clog_lt_self (by norm_num) (by omega)
  generalize Nat.clog 2 (n * 2 + 1) = b at *
  have hg := bluesteinGain_le F hu hε hb2 hb27
  have hu0 := F.u_nonneg
  have h4 : (2 : ℝ) ^ b ≤ 4 * n := by
    have : 2 ^ b ≤ 4 * n := by
      obtain ⟨c, rfl⟩ : ∃ c, b = c + 1 := ⟨b - 1, by omega⟩
      rw [Nat.add_sub_cancel] at hlt
      rw [pow_succ]
      omega
    exact_mod_cast this
  rw [l2_specDft_any]
  set X := Spec.l2 n x
  have hX : 0 ≤ X := l2_nonneg _ _
  have hn : (0 : ℝ) ≤ n := Nat.cast_nonneg _
  have e1 : Real.sqrt (2 ^ b) * Real.sqrt (2 * n - 1) ≤ 2.83 * n := by
    have a1 : Real.sqrt (2 ^ b) ≤ Real.sqrt (4 * n) := Real.sqrt_le_sqrt h4
    have a2 : Real.sqrt (2 * n - 1) ≤ Real.sqrt (2 * n) := Real.sqrt_le_sqrt (by linarith)
    refine (mul_le_mul a1 a2 (Real.sqrt_nonneg _) (Real.sqrt_nonneg _)).trans ?_
    rw [← Real.sqrt_mul (by positivity)]
    apply Real.sqrt_le_iff.2 ⟨by positivity, by nlinarith⟩
  have e2 : Real.sqrt n * (Real.sqrt n * X) = n * X := by rw [← mul_assoc, Real.mul_self_sqrt hn]
  rw [e2]
  calc _ ≤ 167 * b * F.u * (2.83 * n * X) := by
        apply mul_le_mul hg _ (by positivity) (by positivity)
        exact mul_le_mul_of_nonneg_right e1 hX
    _ ≤ _ := by
        have : 0 ≤ b * F.u * (n * X) := by positivity
        linarith

/-- **C90**, explicit constant: for a unit roundoff of at most `2^-20` and `cos`/`sin` accurate to `2u`, the relative
error of the arbitrary-length plan is at most `473 · b · u · √n`. -/
theorem C90_dft_plan_explicit (F : Rounding) (hu : F.u ≤ 2⁻¹ ^ 20) (hε : F.ε ≤ 2 * F.u) (n : ℕ) (h1 : 0 < n)
    (h2 : n * 2 + 1 ≤ 2 ^ 27) (p : BluesteinPlanF F) (hp : BluesteinReachableF F n p) (x : List (FC F))
    (hx : x.length = n) :
    (∃ p' y, p.call x .forward = .ok (p', y) ∧ y.length = n ∧
      Spec.l2 n (fun k => vals y k - Spec.dft n (vals x) k)
        ≤ 473 * Nat.clog 2 (n * 2 + 1) * F.u * (Real.sqrt n * Spec.l2 n (Spec.dft n (vals x)))) ∧
    (∃ p' y, p.call x .backward = .ok (p', y) ∧ y.length = n ∧
      Spec.l2 n (fun k => vals y k - Spec.idft n (vals x) k)
        ≤ 473 * Nat.clog 2 (n * 2 + 1) * F.u * (Real.sqrt n * Spec.l2 n (Spec.idft n (vals x)))) := by
  obtain ⟨⟨p1, y1, a1, a2, a3⟩, ⟨p2, y2, b1, b2, b3⟩⟩ := (C90_dft_plan F n h1 h2).2 p hp x hx
  exact ⟨⟨p1, y1, a1, a2, a3.trans (explicit_dir F hu hε n h1 h2 _ .forward)⟩,
    ⟨p2, y2, b1, b2, b3.trans (explicit_dir F hu hε n h1 h2 _ .backward)⟩⟩

/-! ### The naive transform -/

/-- **C90**: the naive transform in rounded arithmetic.  Every output is off by at most
`(Spec.naiveGain − 1) · ∑ |x_n|`. -/
theorem C90_naive (F : Rounding) (N : ℕ) (x o : List (FC F)) (hx : x.length = N) (ho : o.length = N) :
    (∃ y, naiveDftF x o .forward = .ok y ∧ y.length = N ∧ ∀ k < N,
      ‖vals y k - Spec.dft N (vals x) k‖ ≤ (Spec.naiveGain F.u F.ε N - 1) * ∑ n ∈ range N, ‖vals x n‖) ∧
    (∃ y, naiveDftF x o .backward = .ok y ∧ y.length = N ∧ ∀ k < N,
      ‖vals y k - Spec.idft N (vals x) k‖ ≤ (Spec.naiveGain F.u F.ε N - 1) * ∑ n ∈ range N, ‖vals x n‖) := by
  rw [list_eq_vec (0 : FC F) hx, list_eq_vec (0 : FC F) ho]
  generalize (fun i => x.getD i 0) = f
  generalize (fun i => o.getD i 0) = g
  have key : ∀ dir, ∃ y, naiveDftF (vec N f) (vec N g) dir = .ok y ∧ y.length = N ∧ ∀ k < N,
      ‖vals y k - specDft dir N (vals (vec N f)) k‖
        ≤ (Spec.naiveGain F.u F.ε N - 1) * ∑ n ∈ range N, ‖vals (vec N f) n‖ := by
    intro dir
    refine ⟨_, naiveDftF_vec dir f g, length_vec _ _, fun k hk => ?_⟩
    rw [vals_vec _ hk, specDft_congr dir (fun m hm => vals_vec f hm),
      sum_congr rfl (fun n hn => by rw [vals_vec f (mem_range.1 hn)])]
    exact naiveDftF_err hk dir f
  exact ⟨key .forward, key .backward⟩

/-- Buffers of different lengths trip the assertion. -/
theorem C90_naive_wrong_length (F : Rounding) (x o : List (FC F)) (h : x.length ≠ o.length) (dir : Direction) :
    naiveDftF x o dir = .error .assertion := by
  unfold naiveDftF
  have : check (decide (x.length = o.length)) = .error .assertion := by
    rw [decide_eq_false h]; rfl
  simp only [this, bind_error]

theorem naiveGain_le (F : Rounding) (hu : F.u ≤ 2⁻¹ ^ 20) (hε : F.ε ≤ 2 * F.u) {N : ℕ} (h1 : 1 ≤ N)
    (h2 : N * F.u ≤ 2⁻¹ ^ 10) : Spec.naiveGain F.u F.ε N - 1 ≤ 63 * N * F.u := by
  have hu0 := F.u_nonneg
  have hu6 : F.u ≤ 0.000001 := hu.trans (by norm_num)
  have hN : (1 : ℝ) ≤ N := by exact_mod_cast h1
  have hun := unitErr_le F hu hε
  have hA := angleGain_le hu0 hu6 7 1 (by norm_num)
  rw [pow_one] at hA
  have hpi := Real.pi_lt_d4
  have hpi0 := Real.pi_pos
  set t := N * F.u with ht
  have ht1 : F.u ≤ t := by rw [ht]; nlinarith
  have hτ : Spec.naiveErr F.u F.ε N ≤ 50.3 * t + 4.25 * F.u := by
    unfold Spec.naiveErr
    have h3 : 2 * Real.pi * N * ((1 + F.u) ^ 7 * (1 - F.u)⁻¹ - 1) ≤ 2 * Real.pi * N * (8.001 * F.u) :=
      mul_le_mul_of_nonneg_left (hA.trans (by push_cast; linarith)) (by positivity)
    have e : 2 * Real.pi * N * (8.001 * F.u) = 16.002 * t * Real.pi := by rw [ht]; ring
    have : 16.002 * t * Real.pi ≤ 16.002 * t * 3.1416 := mul_le_mul_of_nonneg_left hpi.le (by linarith)
    linarith
  have e1 : (1 + F.u) ^ N ≤ Real.exp t := by
    rw [ht, Real.exp_nat_mul]
    exact pow_le_pow_left₀ (by linarith) (by linarith [Real.add_one_le_exp F.u]) _
  have e2 := le_exp (mulGain_le F hu)
  have e3 : 1 + Spec.naiveErr F.u F.ε N ≤ Real.exp (50.3 * t + 4.25 * F.u) := le_exp (by linarith)
  have q0 := one_le_mulGain F
  have n0 := naiveErr_nonneg F N
  unfold Spec.naiveGain
  have key : (1 + F.u) ^ N * Spec.mulGain F.u * (1 + Spec.naiveErr F.u F.ε N)
      ≤ Real.exp t * Real.exp (3 * F.u) * Real.exp (50.3 * t + 4.25 * F.u) := by
    gcongr
  rw [← Real.exp_add, ← Real.exp_add] at key
  have s1 : t + 3 * F.u + (50.3 * t + 4.25 * F.u) ≤ 58.55 * t := by linarith
  have ht3 : t ≤ 0.000977 := h2.trans (by norm_num)
  have := exp_le (s := t + 3 * F.u + (50.3 * t + 4.25 * F.u)) (by linarith) (by linarith)
  have e : 63 * N * F.u = 63 * t := by rw [ht]; ring
  rw [e]
  set s := t + 3 * F.u + (50.3 * t + 4.25 * F.u) with hs
  have s0 : 0 ≤ s := by rw [hs]; linarith
  have s2 : s ^ 2 ≤ 0.0573 * s := by
    rw [sq]
    exact mul_le_mul_of_nonneg_right (by linarith) s0
  linarith

/-- **C90**, explicit constant for the naive transform: the angle is not reduced, so the bound grows with `N`. -/
theorem C90_naive_explicit (F : Rounding) (hu : F.u ≤ 2⁻¹ ^ 20) (hε : F.ε ≤ 2 * F.u) (N : ℕ)
    (h : N * F.u ≤ 2⁻¹ ^ 10) (x o : List (FC F)) (hx : x.length = N) (ho : o.length = N) :
    (∃ y, naiveDftF x o .forward = .ok y ∧ y.length = N ∧ ∀ k < N,
      ‖vals y k - Spec.dft N (vals x) k‖ ≤ 63 * N * F.u * ∑ n ∈ range N, ‖vals x n‖) ∧
    (∃ y, naiveDftF x o .backward = .ok y ∧ y.length = N ∧ ∀ k < N,
      ‖vals y k - Spec.idft N (vals x) k‖ ≤ 63 * N * F.u * ∑ n ∈ range N, ‖vals x n‖) := by
  have hS : 0 ≤ ∑ n ∈ range N, ‖vals x n‖ := sum_nonneg fun _ _ => norm_nonneg _
  obtain ⟨⟨y, a1, a2, a3⟩, ⟨z, b1, b2, b3⟩⟩ := C90_naive F N x o hx ho
  exact ⟨⟨y, a1, a2, fun k hk => (a3 k hk).trans
      (mul_le_mul_of_nonneg_right (naiveGain_le F hu hε (by omega) h) hS)⟩,
    ⟨z, b1, b2, fun k hk => (b3 k hk).trans
      (mul_le_mul_of_nonneg_right (naiveGain_le F hu hε (by omega) h) hS)⟩⟩

/-! ### The DCT plan -/

/-- The plan after its construction and any number of successful calls. -/
inductive Dct2ReachableF (F : Rounding) (order : ℕ) : Dct2PlanF F → Prop
  | make {p} : Dct2PlanF.make F order = .ok p → Dct2ReachableF F order p
  | call {p p' x y} : Dct2ReachableF F order p → p.call x = .ok (p', y) → Dct2ReachableF F order p'

private theorem dct2ReachableF_form {F : Rounding} {b : ℕ} (h1 : 1 ≤ b) (h2 : b ≤ 27) {p : Dct2PlanF F}
    (h : Dct2ReachableF F b p) : ∃ f, p = dct2PlanFOf F b f := by
  induction h with
  | make h =>
    rw [dct2PlanF_make_eq h2] at h
    injection h with h
    exact ⟨_, h.symm⟩
  | @call p p' x y _ h ih =>
    obtain ⟨f, rfl⟩ := ih
    by_cases hx : x.length = 2 ^ b
    · obtain ⟨f', y', e, -⟩ := dct2F_call_vec h1 f (fun i => x.getD i 0)
      rw [← list_eq_vec 0 hx, h] at e
      injection e with e
      exact ⟨f', (Prod.ext_iff.1 e).1⟩
    · unfold Dct2PlanF.call at h
      have : check (decide (x.length = (dct2PlanFOf F b f).size)) = .error .assertion := by
        rw [decide_eq_false (show ¬ x.length = (dct2PlanFOf F b f).size from hx)]; rfl
      simp only [this, bind_error] at h
      simp at h

/-- **C90**: the DCT plan in rounded arithmetic, in every reachable state: the distance to the exact DCT-II is at most
`(Spec.dctGain − 1) · 2 · √(2^order) · ‖x‖₂`. -/
theorem C90_dct2 (F : Rounding) (order : ℕ) (h1 : 1 ≤ order) (h2 : order ≤ 27) :
    (∃ p, Dct2PlanF.make F order = .ok p) ∧
    ∀ p, Dct2ReachableF F order p → ∀ x : List (FR F), x.length = 2 ^ order →
      ∃ p' y, p.call x = .ok (p', y) ∧ y.length = 2 ^ order ∧
        Spec.l2 (2 ^ order) (fun k => ((valsR y k - Spec.dct2 (2 ^ order) (valsR x) k : ℝ) : ℂ))
          ≤ (Spec.dctGain F.u F.ε order - 1) * (2 * (Real.sqrt (2 ^ order) * normR (2 ^ order) x)) := by
  refine ⟨⟨_, dct2PlanF_make_eq h2⟩, fun p hp x hx => ?_⟩
  obtain ⟨f, rfl⟩ := dct2ReachableF_form h1 h2 hp
  rw [list_eq_vec (0 : FR F) hx]
  generalize (fun i => x.getD i 0) = a
  obtain ⟨f', y, e, k⟩ := dct2F_call_vec h1 f a
  refine ⟨_, _, e, length_vec _ _, ?_⟩
  unfold normR
  rw [sqrt_two_pow, l2_congr (f := fun i => (valsR (vec (2 ^ order) a) i : ℂ)) (g := fun i => ((a i).val : ℂ))
    (fun i hi => by beta_reduce; rw [valsR_vec a hi])]
  refine le_trans (le_of_eq (l2_congr fun i hi => ?_)) k
  rw [valsR_vec y hi]
  congr 2
  unfold Spec.dct2
  congr 1
  exact sum_congr rfl fun m hm => by rw [valsR_vec a (mem_range.1 hm)]

/-- A buffer of any other length trips the assertion. -/
theorem C90_dct2_wrong_length (F : Rounding) (order : ℕ) (h1 : 1 ≤ order) (h2 : order ≤ 27) (p : Dct2PlanF F)
    (hp : Dct2ReachableF F order p) (x : List (FR F)) (hx : x.length ≠ 2 ^ order) :
    p.call x = .error .assertion := by
  obtain ⟨f, rfl⟩ := dct2ReachableF_form h1 h2 hp
  unfold Dct2PlanF.call
  have : check (decide (x.length = (dct2PlanFOf F order f).size)) = .error .assertion := by
    rw [decide_eq_false (show ¬ x.length = (dct2PlanFOf F order f).size from hx)]; rfl
  simp only [this, bind_error]

theorem dctGain_le (F : Rounding) (hu : F.u ≤ 2⁻¹ ^ 20) (hε : F.ε ≤ 2 * F.u) {b : ℕ} (h1 : 1 ≤ b) (h2 : b ≤ 27) :
    Spec.dctGain F.u F.ε b - 1 ≤ 53 * b * F.u := by
  have hu0 := F.u_nonneg
  have hu6 : F.u ≤ 0.000001 := hu.trans (by norm_num)
  have hb : (1 : ℝ) ≤ b := by exact_mod_cast h1
  have hb27 : (b : ℝ) ≤ 27 := by exact_mod_cast h2
  have hun := unitErr_le F hu hε
  have hA := angleGain_le hu0 hu6 5 2 (by norm_num)
  have hpi := Real.pi_lt_d4
  have hpi0 := Real.pi_pos
  have hτ : Spec.dctErr F.u F.ε ≤ 15.3 * F.u := by
    unfold Spec.dctErr
    have h3 : Real.pi / 2 * ((1 + F.u) ^ 5 * ((1 - F.u)⁻¹) ^ 2 - 1) ≤ Real.pi / 2 * (7.001 * F.u) :=
      mul_le_mul_of_nonneg_left (hA.trans (by push_cast; linarith)) (by positivity)
    nlinarith
  have e1 := le_exp (mulGain_le F hu)
  have e2 : 1 + F.u ≤ Real.exp F.u := le_exp (by linarith)
  have e3 : 1 + Spec.dctErr F.u F.ε ≤ Real.exp (15.3 * F.u) := le_exp (by linarith)
  have e4 := le_exp (fftGain_le F hu hε h2)
  have q0 := one_le_mulGain F
  have d0 := dctErr_nonneg F
  have g0 := one_le_fftGain F b
  unfold Spec.dctGain
  have key : Spec.mulGain F.u * (1 + F.u) * (1 + Spec.dctErr F.u F.ε) * Spec.fftGain F.u F.ε b
      ≤ Real.exp (3 * F.u) * Real.exp F.u * Real.exp (15.3 * F.u) * Real.exp (32 * b * F.u) := by
    gcongr
  rw [← Real.exp_add, ← Real.exp_add, ← Real.exp_add] at key
  set s := 3 * F.u + F.u + 15.3 * F.u + 32 * b * F.u with hs
  have s0 : 0 ≤ s := by positivity
  have s1 : s ≤ 51.3 * b * F.u := by rw [hs]; nlinarith
  have s2 : s ≤ 0.005 := by nlinarith
  have := exp_le s0 (by linarith)
  nlinarith

/-- **C90**, explicit constant for the DCT plan. -/
theorem C90_dct2_explicit (F : Rounding) (hu : F.u ≤ 2⁻¹ ^ 20) (hε : F.ε ≤ 2 * F.u) (order : ℕ) (h1 : 1 ≤ order)
    (h2 : order ≤ 27) (p : Dct2PlanF F) (hp : Dct2ReachableF F order p) (x : List (FR F)) (hx : x.length = 2 ^ order) :
    ∃ p' y, p.call x = .ok (p', y) ∧ y.length = 2 ^ order ∧
      Spec.l2 (2 ^ order) (fun k => ((valsR y k - Spec.dct2 (2 ^ order) (valsR x) k : ℝ) : ℂ))
        ≤ 106 * order * F.u * (Real.sqrt (2 ^ order) * normR (2 ^ order) x) := by
  obtain ⟨p', y, a1, a2, a3⟩ := (C90_dct2 F order h1 h2).2 p hp x hx
  refine ⟨p', y, a1, a2, a3.trans ?_⟩
  have hg := dctGain_le F hu hε h1 h2
  have hX : 0 ≤ normR (2 ^ order) x := l2_nonneg _ _
  have : 0 ≤ 2 * (Real.sqrt (2 ^ order) * normR (2 ^ order) x) := by positivity
  have := mul_le_mul_of_nonneg_right hg this
  linarith

/-! ### Examples in single precision -/

/-- The prime length 997, on a plan that has been used before: the relative error is below 1%. -/
example (z x : List (FC binary32)) (hz : z.length = 997) (hx : x.length = 997) :
    ∃ p q w p' y, BluesteinPlanF.make binary32 997 = .ok p ∧ p.call z .backward = .ok (q, w) ∧
      q.call x .forward = .ok (p', y) ∧
      Spec.l2 997 (fun k => vals y k - Spec.dft 997 (vals x) k) ≤ 0.01 * Spec.l2 997 (Spec.dft 997 (vals x)) := by
  have hu : binary32.u ≤ 2⁻¹ ^ 20 := by show (2⁻¹ : ℝ) ^ 24 ≤ _; norm_num
  have hε : binary32.ε ≤ 2 * binary32.u := by show (2⁻¹ : ℝ) ^ 24 ≤ 2 * 2⁻¹ ^ 24; norm_num
  obtain ⟨p, hp⟩ := (C90_dft_plan binary32 997 (by norm_num) (by norm_num)).1
  have hr := BluesteinReachableF.make hp
  obtain ⟨q, w, e, -⟩ := (C90_dft_plan_explicit binary32 hu hε 997 (by norm_num) (by norm_num) p hr z hz).2
  obtain ⟨p', y, e', -, k⟩ :=
    (C90_dft_plan_explicit binary32 hu hε 997 (by norm_num) (by norm_num) q (hr.call e) x hx).1
  refine ⟨p, q, w, p', y, hp, e, e', k.trans ?_⟩
  have hc : Nat.clog 2 (997 * 2 + 1) = 11 := by decide +kernel
  rw [hc, ← mul_assoc]
  apply mul_le_mul_of_nonneg_right _ (l2_nonneg _ _)
  have hs : Real.sqrt ((997 : ℕ) : ℝ) ≤ 31.6 := Real.sqrt_le_iff.2 ⟨by norm_num, by norm_num⟩
  show 473 * ((11 : ℕ) : ℝ) * (2⁻¹ : ℝ) ^ 24 * Real.sqrt ((997 : ℕ) : ℝ) ≤ 0.01
  norm_num at hs ⊢
  linarith

/-- The naive transform of 1000 numbers. -/
example (x o : List (FC binary32)) (hx : x.length = 1000) (ho : o.length = 1000) :
    ∃ y, naiveDftF x o .forward = .ok y ∧ ∀ k < 1000,
      ‖vals y k - Spec.dft 1000 (vals x) k‖ ≤ 0.004 * ∑ n ∈ range 1000, ‖vals x n‖ := by
  have hu : binary32.u ≤ 2⁻¹ ^ 20 := by show (2⁻¹ : ℝ) ^ 24 ≤ _; norm_num
  have hε : binary32.ε ≤ 2 * binary32.u := by show (2⁻¹ : ℝ) ^ 24 ≤ 2 * 2⁻¹ ^ 24; norm_num
  obtain ⟨y, e, -, k⟩ := (C90_naive_explicit binary32 hu hε 1000
    (by show ((1000 : ℕ) : ℝ) * (2⁻¹ : ℝ) ^ 24 ≤ _; norm_num) x o hx ho).1
  refine ⟨y, e, fun m hm => (k m hm).trans (mul_le_mul_of_nonneg_right ?_ (sum_nonneg fun _ _ => norm_nonneg _))⟩
  show 63 * ((1000 : ℕ) : ℝ) * (2⁻¹ : ℝ) ^ 24 ≤ 0.004
  norm_num

/-- The DCT of 1024 samples. -/
example (x : List (FR binary32)) (hx : x.length = 2 ^ 10) :
    ∃ p p' y, Dct2PlanF.make binary32 10 = .ok p ∧ p.call x = .ok (p', y) ∧
      Spec.l2 (2 ^ 10) (fun k => ((valsR y k - Spec.dct2 (2 ^ 10) (valsR x) k : ℝ) : ℂ)) ≤ 0.0021 * normR (2 ^ 10) x := by
  have hu : binary32.u ≤ 2⁻¹ ^ 20 := by show (2⁻¹ : ℝ) ^ 24 ≤ _; norm_num
  have hε : binary32.ε ≤ 2 * binary32.u := by show (2⁻¹ : ℝ) ^ 24 ≤ 2 * 2⁻¹ ^ 24; norm_num
  obtain ⟨p, hp⟩ := (C90_dct2 binary32 10 (by norm_num) (by norm_num)).1
  obtain ⟨p', y, e, -, k⟩ := C90_dct2_explicit binary32 hu hε 10 (by norm_num) (by norm_num) p (.make hp) x hx
  refine ⟨p, p', y, hp, e, k.trans ?_⟩
  rw [← mul_assoc]
  apply mul_le_mul_of_nonneg_right _ (l2_nonneg _ _)
  have hs : Real.sqrt (2 ^ 10) = 32 := by
    rw [show (2 : ℝ) ^ 10 = 32 ^ 2 by norm_num, Real.sqrt_sq (by norm_num)]
  rw [hs]
  show 106 * ((10 : ℕ) : ℝ) * (2⁻¹ : ℝ) ^ 24 * 32 ≤ 0.0021
  norm_num

end Neo.Props
