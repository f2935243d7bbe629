import Verif.Lemmas.RfftReach

/-!
# Properties of the real transforms: C08 – C10

`RfftReachable order p`: `p` is a plan of this order after any number of successful calls.
-/

namespace Neo.Props

open Finset ComplexConjugate

/-! ## C08 -/

/-- **C08**: on any plan state, `rfft` succeeds and writes exactly the bins `0 … N/2` of the DFT;
the rest of the output buffer is untouched. -/
theorem C08_rfft (order : ℕ) (h1 : 1 ≤ order) (h2 : order ≤ 27) (p : RfftPlan)
    (hp : RfftReachable order p) (x : List ℝ) (hx : x.length = 2 ^ order)
    (out : List ℂ) (hout : 2 ^ order / 2 + 1 ≤ out.length) :
    ∃ p' y, p.rfft x out = .ok (p', y) ∧ y.length = out.length ∧
      (∀ k ≤ 2 ^ order / 2, y[k]? = some (Spec.dft (2 ^ order) (fun n => (x.getD n 0 : ℂ)) k)) ∧
      (∀ k > 2 ^ order / 2, y[k]? = out[k]?) := by
  obtain ⟨f, rfl⟩ := rfftReachable_form h1 h2 hp
  obtain ⟨f', h⟩ := rfft_vec (m := out.length) h1 hout f (fun n => x.getD n 0)
    (fun n => out.getD n 0)
  rw [← list_eq_vec 0 hx, ← list_eq_vec 0 rfl] at h
  refine ⟨_, _, h, by simp, ?_, ?_⟩
  · intro k hk
    rw [getElem?_vec, if_pos (by omega), if_pos (by omega)]
  · intro k hk
    rw [getElem?_vec]
    by_cases hk2 : k < out.length
    · rw [if_pos hk2, if_neg (by omega)]
      simp [List.getElem?_eq_getElem hk2]
    · rw [if_neg hk2, List.getElem?_eq_none (by omega)]

/-- **C08**: the first and the last written bin are real, and the bins above `N/2` of the full
transform are the conjugates of the written ones. -/
theorem C08_symmetry (order : ℕ) (h1 : 1 ≤ order) (h2 : order ≤ 27) (p p' : RfftPlan)
    (hp : RfftReachable order p) (x : List ℝ) (hx : x.length = 2 ^ order)
    (out y : List ℂ) (hout : 2 ^ order / 2 + 1 ≤ out.length) (h : p.rfft x out = .ok (p', y)) :
    (y.getD 0 0).im = 0 ∧ (y.getD (2 ^ order / 2) 0).im = 0 ∧
    ∀ k, 2 ^ order / 2 < k → k < 2 ^ order →
      Spec.dft (2 ^ order) (fun n => (x.getD n 0 : ℂ)) k = conj (y.getD (2 ^ order - k) 0) := by
  obtain ⟨p'', y', h', -, hy, -⟩ := C08_rfft order h1 h2 p hp x hx out hout
  rw [h] at h'
  injection h' with h'
  injection h' with _ h'
  subst h'
  have hd : ∀ k ≤ 2 ^ order / 2, y.getD k 0
      = Spec.dft (2 ^ order) (fun n => (x.getD n 0 : ℂ)) k := by
    intro k hk
    rw [List.getD_eq_getElem?_getD, hy k hk]; rfl
  have hpow : 2 ^ order - 2 ^ order / 2 = 2 ^ order / 2 := by
    obtain ⟨c, rfl⟩ : ∃ c, order = c + 1 := ⟨order - 1, by omega⟩
    rw [pow_succ]; omega
  have hpos : 0 < 2 ^ order := by positivity
  refine ⟨?_, ?_, ?_⟩
  · rw [hd 0 (by omega), ← Complex.conj_eq_iff_im, ← dft_real_symm _ (Nat.zero_le _), Nat.sub_zero,
      dft_self hpos]
  · rw [hd _ le_rfl, ← Complex.conj_eq_iff_im, ← dft_real_symm _ (Nat.div_le_self _ _), hpow]
  · intro k hk1 hk2
    rw [hd _ (by omega), dft_real_symm _ hk2.le, Complex.conj_conj]

/-- The hypotheses are met by a fresh plan of order 1 and the input `(3, 1)`. -/
example : ∃ p, RfftReachable 1 p ∧ ∃ p' y,
    p.rfft [3, 1] [0, 0] = .ok (p', y) ∧ y[1]? = some 2 := by
  refine ⟨_, .make (rfftPlan_make_eq (by norm_num)), ?_⟩
  obtain ⟨p', y, h, -, hy, -⟩ := C08_rfft 1 le_rfl (by norm_num) _
    (.make (rfftPlan_make_eq (by norm_num))) [3, 1] rfl [0, 0] le_rfl
  refine ⟨p', y, h, ?_⟩
  rw [hy 1 le_rfl, ← dftRoot_forward]
  have : root 2 .forward = -1 := by simpa using root_half one_ne_zero .forward
  simp [Spec.dftRoot, Finset.sum_range_succ, this]
  norm_num

/-! ## C09 -/

/-- **C09**: on any plan state, `irfft` of `N/2+1` or more coefficients writes the real part of the
inverse DFT of the Hermitian extension of the first `N/2+1` of them. -/
theorem C09_irfft (order : ℕ) (h1 : 1 ≤ order) (h2 : order ≤ 27) (p : RfftPlan)
    (hp : RfftReachable order p) (c : List ℂ) (hc : 2 ^ order / 2 + 1 ≤ c.length)
    (hc2 : c.length ≤ 2 ^ order) (out : List ℝ) (hout : out.length = 2 ^ order) :
    ∃ p' y, p.irfft c out = .ok (p', y) ∧ y.length = 2 ^ order ∧
      ∀ n < 2 ^ order, y[n]? = some
        (Spec.idft (2 ^ order) (Spec.hermitian (2 ^ order) (fun k => c.getD k 0)) n).re := by
  obtain ⟨f, rfl⟩ := rfftReachable_form h1 h2 hp
  obtain ⟨f', h⟩ := irfft_vec (m := 2 ^ order) h1 hc hc2 le_rfl f (fun n => c.getD n 0)
    (fun n => out.getD n 0)
  rw [← list_eq_vec 0 hout, ← list_eq_vec 0 rfl] at h
  refine ⟨_, _, h, by simp, ?_⟩
  intro n hn
  rw [getElem?_vec, if_pos hn, if_pos hn]

/-- **C09**: coefficients beyond `N/2` (and the plan's history) do not influence the result. -/
theorem C09_irfft_extra (order : ℕ) (h1 : 1 ≤ order) (h2 : order ≤ 27) (p q : RfftPlan)
    (hp : RfftReachable order p) (hq : RfftReachable order q) (c d : List ℂ)
    (hc : 2 ^ order / 2 + 1 ≤ c.length) (hc2 : c.length ≤ 2 ^ order)
    (hd : 2 ^ order / 2 + 1 ≤ d.length) (hd2 : d.length ≤ 2 ^ order)
    (hcd : ∀ k ≤ 2 ^ order / 2, c[k]? = d[k]?)
    (out out' : List ℝ) (hout : out.length = 2 ^ order) (hout' : out'.length = 2 ^ order) :
    ∃ p' q' y, p.irfft c out = .ok (p', y) ∧ q.irfft d out' = .ok (q', y) := by
  obtain ⟨p', y, e1, l1, v1⟩ := C09_irfft order h1 h2 p hp c hc hc2 out hout
  obtain ⟨q', y', e2, l2, v2⟩ := C09_irfft order h1 h2 q hq d hd hd2 out' hout'
  refine ⟨p', q', y, e1, ?_⟩
  rw [e2]
  congr 2
  rw [eq_vec_iff.2 ⟨l1, v1⟩, eq_vec_iff.2 ⟨l2, v2⟩]
  apply vec_ext
  intro n _
  congr 1
  apply idft_congr
  intro k hk
  apply hermitian_congr _ hk
  intro k hk
  rw [List.getD_eq_getElem?_getD, List.getD_eq_getElem?_getD, hcd k hk]

/-- **C09**: `irfft(rfft(x)) = N·x`, also when the spectrum buffer is larger than needed. -/
theorem C09_roundtrip (order : ℕ) (h1 : 1 ≤ order) (h2 : order ≤ 27) (p : RfftPlan)
    (hp : RfftReachable order p) (x : List ℝ) (hx : x.length = 2 ^ order) (spec : List ℂ)
    (hs : 2 ^ order / 2 + 1 ≤ spec.length) (hs2 : spec.length ≤ 2 ^ order)
    (out : List ℝ) (hout : out.length = 2 ^ order) :
    ∃ p' X p'', p.rfft x spec = .ok (p', X) ∧
      p'.irfft X out = .ok (p'', x.map ((2 ^ order : ℝ) * ·)) := by
  obtain ⟨p', X, e1, l1, v1, -⟩ := C08_rfft order h1 h2 p hp x hx spec hs
  obtain ⟨p'', y, e2, l2, v2⟩ := C09_irfft order h1 h2 p' (hp.rfft e1) X (by omega) (by omega)
    out hout
  refine ⟨p', X, p'', e1, ?_⟩
  rw [e2]
  congr 2
  rw [eq_vec_iff.2 ⟨l2, v2⟩]
  conv_rhs => rw [list_eq_vec 0 hx, map_vec]
  apply vec_ext
  intro n hn
  have e : Spec.idft (2 ^ order) (Spec.hermitian (2 ^ order) (fun k => X.getD k 0)) n
      = Spec.idft (2 ^ order) (Spec.dft (2 ^ order) (fun n => (x.getD n 0 : ℂ))) n := by
    apply idft_congr
    intro k hk
    rw [← hermitian_dft (fun n => x.getD n 0) hk]
    apply hermitian_congr _ hk
    intro k hk
    rw [List.getD_eq_getElem?_getD, v1 k hk]; rfl
  rw [e, idft_dft _ hn]
  have : ((2 ^ order : ℕ) : ℂ) * (x.getD n 0 : ℂ) = (((2 ^ order : ℝ) * x.getD n 0 : ℝ) : ℂ) := by
    push_cast; ring
  rw [this, Complex.ofReal_re]

/-- The hypotheses are met: order 2, a plan that has already been used. -/
example : ∃ p p' : RfftPlan, ∃ y, RfftReachable 2 p ∧ p.rfft [1, 2, 3, 4] [0, 0, 0] = .ok (p', y) ∧
    ∃ q X q', p'.rfft [5, 0, 2, 1] [0, 0, 0, 7] = .ok (q, X) ∧
      q.irfft X [0, 0, 0, 0] = .ok (q', [5, 0, 2, 1].map ((2 ^ 2 : ℝ) * ·)) := by
  have hr := RfftReachable.make (rfftPlan_make_eq (b := 2) (by norm_num))
  obtain ⟨p', y, h, -⟩ := C08_rfft 2 (by norm_num) (by norm_num) _ hr [1, 2, 3, 4] rfl [0, 0, 0]
    (by norm_num)
  exact ⟨_, p', y, hr, h, C09_roundtrip 2 (by norm_num) (by norm_num) p' (hr.rfft h) [5, 0, 2, 1]
    rfl [0, 0, 0, 7] (by norm_num) (by norm_num) [0, 0, 0, 0] rfl⟩

/-! ## C10 -/

/-- **C10**: for every transform size `N ≥ 1`, if `z` is the `N`-point DFT of `a + i b` with `a`, `b`
real, then `rfft_deinterleave` succeeds and writes the bins `0 … N/2` of the DFTs of `a` and `b`. -/
theorem C10_deinterleave (N : ℕ) (hN : 1 ≤ N) (a b : ℕ → ℝ) (z x y : List ℂ) (hz : z.length = N)
    (hzv : ∀ k < N, z[k]? = some (Spec.dft N (fun n => ⟨a n, b n⟩) k))
    (hx : x.length = N / 2 + 1) (hy : y.length = N / 2 + 1) :
    ∃ x' y', rfftDeinterleave z x y = .ok (x', y') ∧
      x'.length = N / 2 + 1 ∧ (∀ k ≤ N / 2, x'[k]? = some (Spec.dft N (fun n => (a n : ℂ)) k)) ∧
      y'.length = N / 2 + 1 ∧ (∀ k ≤ N / 2, y'[k]? = some (Spec.dft N (fun n => (b n : ℂ)) k)) := by
  have h := rfftDeinterleave_vec hN le_rfl le_rfl a b (fun n => x.getD n 0) (fun n => y.getD n 0)
  rw [← list_eq_vec 0 hx, ← list_eq_vec 0 hy] at h
  have e : z = vec N (Spec.dft N (fun n => (a n : ℂ) + (b n : ℂ) * Complex.I)) := by
    rw [eq_vec_iff]
    refine ⟨hz, fun k hk => ?_⟩
    rw [hzv k hk]
    congr 3
    funext n
    exact Complex.mk_eq_add_mul_I _ _
  rw [← e] at h
  refine ⟨_, _, h, by simp, ?_, by simp, ?_⟩ <;>
  · intro k hk
    rw [getElem?_vec, if_pos (by omega), if_pos (by omega)]

/-- **C10**, end to end with the FFT plan: pack, `fft`, deinterleave. -/
theorem C10_fft_deinterleave (order : ℕ) (h1 : 1 ≤ order) (h2 : order ≤ 27) (z : List ℂ)
    (hz : z.length = 2 ^ order) (x y : List ℂ)
    (hx : x.length = 2 ^ order / 2 + 1) (hy : y.length = 2 ^ order / 2 + 1) :
    ∃ p Z x' y', Dit2Plan.make order = .ok p ∧ fft p z = .ok Z ∧
      rfftDeinterleave Z x y = .ok (x', y') ∧
      (∀ k ≤ 2 ^ order / 2,
        x'[k]? = some (Spec.dft (2 ^ order) (fun n => ((z.getD n 0).re : ℂ)) k)) ∧
      (∀ k ≤ 2 ^ order / 2,
        y'[k]? = some (Spec.dft (2 ^ order) (fun n => ((z.getD n 0).im : ℂ)) k)) := by
  have hf := dit2_call h1 (fun n => z.getD n 0) .forward
  rw [← list_eq_vec 0 hz] at hf
  obtain ⟨x', y', e, -, hx', -, hy'⟩ := C10_deinterleave (2 ^ order) Nat.one_le_two_pow
    (fun n => (z.getD n 0).re) (fun n => (z.getD n 0).im) _ x y (length_vec ..)
    (fun k hk => by rw [getElem?_vec, if_pos hk]) hx hy
  exact ⟨_, _, x', y', dit2Plan_make_eq h2, hf, e, hx', hy'⟩

/-- The hypotheses are met for the odd size 3. -/
example : ∃ x' y', rfftDeinterleave
    (vec 3 (Spec.dft 3 (fun n => ⟨(n : ℝ), 1⟩))) [0, 0] [0, 0] = .ok (x', y') := by
  obtain ⟨x', y', h, -⟩ := C10_deinterleave 3 (by norm_num) (fun n => (n : ℝ)) (fun _ => 1)
    (vec 3 (Spec.dft 3 (fun n => ⟨(n : ℝ), 1⟩))) [0, 0] [0, 0] (length_vec ..)
    (fun k hk => by rw [getElem?_vec, if_pos hk]) rfl rfl
  exact ⟨x', y', h⟩

end Neo.Props
