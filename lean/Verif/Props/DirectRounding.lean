import Verif.Lemmas.DirectRounding
import Verif.Props.Rounding

/-! # C71: rounding errors of `direct_convolve` -/

namespace Neo.Props

open Neo Finset

/-- Elements of a real buffer as real numbers. -/
noncomputable def valsR {F : Rounding} (x : List (FR F)) (n : ℕ) : ℝ := (x.map FR.val).getD n 0

private theorem valsR_eq {F : Rounding} (x : List (FR F)) (n : ℕ) : valsR x n = (x.getD n 0).val := by
  unfold valsR
  rw [List.getD_eq_getElem?_getD, List.getD_eq_getElem?_getD, List.getElem?_map]
  cases x[n]? <;> rfl

private theorem vals_eq' {F : Rounding} (x : List (FC F)) (n : ℕ) : vals x n = (x.getD n 0).val := by
  unfold vals
  rw [List.getD_eq_getElem?_getD, List.getD_eq_getElem?_getD, List.getElem?_map]
  cases x[n]?
  · apply Complex.ext <;> rfl
  · rfl

private theorem conv_ofReal (a b : ℕ → ℝ) (k : ℕ) :
    Spec.conv (fun i => (a i : ℂ)) (fun i => (b i : ℂ)) k = ((Spec.conv a b k : ℝ) : ℂ) := by
  unfold Spec.conv
  rw [Complex.ofReal_sum]
  exact sum_congr rfl fun m _ => (Complex.ofReal_mul _ _).symm

/-- **C71**: `direct_convolve` on `float`/`double` samples.  For two non-empty inputs it produces `n + l - 1`
samples; sample `k` differs from the exact convolution of the two inputs by at most `(1+u)^(min n l + 1) - 1` times
the convolution of the absolute values. -/
theorem C71_real (F : Rounding) (x y : List (FR F)) (hx : x ≠ []) (hy : y ≠ []) :
    ∃ out, directConvolve x y = .ok out ∧ out.length = x.length + y.length - 1 ∧
      ∀ k < x.length + y.length - 1,
        |valsR out k - Spec.conv (valsR x) (valsR y) k|
          ≤ ((1 + F.u) ^ (min x.length y.length + 1) - 1)
            * Spec.conv (fun i => |valsR x i|) (fun i => |valsR y i|) k := by
  obtain ⟨out, h1, h2, h3⟩ := directConvolve_err (FR.approx F) x y hx hy
  refine ⟨out, h1, h2, fun k hk => ?_⟩
  have := h3 k hk
  simp only [← valsR_eq, Complex.norm_real, Real.norm_eq_abs] at this
  rw [conv_ofReal, ← Complex.ofReal_sub, Complex.norm_real, Real.norm_eq_abs] at this
  rw [pow_succ]
  exact this

/-- **C71**: the same for `std::complex` samples, whose products have relative error `√2 (2u + u²)`. -/
theorem C71_complex (F : Rounding) (x y : List (FC F)) (hx : x ≠ []) (hy : y ≠ []) :
    ∃ out, directConvolve x y = .ok out ∧ out.length = x.length + y.length - 1 ∧
      ∀ k < x.length + y.length - 1,
        ‖vals out k - Spec.conv (vals x) (vals y) k‖
          ≤ ((1 + F.u) ^ min x.length y.length * (1 + Real.sqrt 2 * (2 * F.u + F.u ^ 2)) - 1)
            * Spec.conv (fun i => ‖vals x i‖) (fun i => ‖vals y i‖) k := by
  obtain ⟨out, h1, h2, h3⟩ := directConvolve_err (FC.approx F) x y hx hy
  refine ⟨out, h1, h2, fun k hk => ?_⟩
  have := h3 k hk
  simp only [← vals_eq'] at this
  exact this

/-- **C71**: explicit constant.  As long as the shorter input has fewer than `1/u` samples the error is at most
`2 (min n l + 1) u` times the convolution of the absolute values. -/
theorem C71_explicit (F : Rounding) (x y : List (FR F)) (hx : x ≠ []) (hy : y ≠ [])
    (hn : (min x.length y.length + 1 : ℕ) * F.u ≤ 1) :
    ∃ out, directConvolve x y = .ok out ∧ out.length = x.length + y.length - 1 ∧
      ∀ k < x.length + y.length - 1,
        |valsR out k - Spec.conv (valsR x) (valsR y) k|
          ≤ 2 * ((min x.length y.length + 1 : ℕ) * F.u)
            * Spec.conv (fun i => |valsR x i|) (fun i => |valsR y i|) k := by
  obtain ⟨out, h1, h2, h3⟩ := C71_real F x y hx hy
  refine ⟨out, h1, h2, fun k hk => (h3 k hk).trans ?_⟩
  exact mul_le_mul_of_nonneg_right (pow_sub_one_le F.u_nonneg hn)
    (sum_nonneg fun m _ => mul_nonneg (abs_nonneg _) (abs_nonneg _))

/-- **C71**: for non-negative samples the relative error of every output sample is bounded by the same factor. -/
theorem C71_relative (F : Rounding) (x y : List (FR F)) (hx : x ≠ []) (hy : y ≠ [])
    (px : ∀ i, 0 ≤ valsR x i) (py : ∀ i, 0 ≤ valsR y i) :
    ∃ out, directConvolve x y = .ok out ∧ out.length = x.length + y.length - 1 ∧
      ∀ k < x.length + y.length - 1,
        |valsR out k - Spec.conv (valsR x) (valsR y) k|
          ≤ ((1 + F.u) ^ (min x.length y.length + 1) - 1) * Spec.conv (valsR x) (valsR y) k := by
  obtain ⟨out, h1, h2, h3⟩ := C71_real F x y hx hy
  refine ⟨out, h1, h2, fun k hk => ?_⟩
  have := h3 k hk
  rw [show (fun i => |valsR x i|) = valsR x from funext fun i => abs_of_nonneg (px i),
    show (fun i => |valsR y i|) = valsR y from funext fun i => abs_of_nonneg (py i)] at this
  exact this

/-- Single precision, a kernel of 4095 samples: the error is at most `0.0005` of the convolution of the absolute
values. -/
example (x y : List (FR binary32)) (hx : 4095 ≤ x.length) (hy : y.length = 4095) :
    ∃ out, directConvolve x y = .ok out ∧ ∀ k < x.length + 4094,
      |valsR out k - Spec.conv (valsR x) (valsR y) k|
        ≤ 0.0005 * Spec.conv (fun i => |valsR x i|) (fun i => |valsR y i|) k := by
  have hm : min x.length y.length = 4095 := by omega
  obtain ⟨out, h1, _, h3⟩ := C71_explicit binary32 x y (by rintro rfl; simp at hx) (by rintro rfl; simp at hy)
    (by rw [hm]; show _ * (2⁻¹ : ℝ) ^ 24 ≤ 1; norm_num)
  refine ⟨out, h1, fun k hk => (h3 k (by omega)).trans ?_⟩
  refine mul_le_mul_of_nonneg_right ?_ (sum_nonneg fun m _ => mul_nonneg (abs_nonneg _) (abs_nonneg _))
  rw [hm]
  show _ * (_ * (2⁻¹ : ℝ) ^ 24) ≤ _
  norm_num

end Neo.Props
