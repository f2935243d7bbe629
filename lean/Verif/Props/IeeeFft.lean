import Verif.Props.IeeeConv
import Verif.Props.StdComplex

/-! # C105: finiteness and accuracy of the complex transforms and of round trips in IEEE 754 arithmetic -/

namespace Neo.Props

open Neo Spec Finset

variable {f : Fmt}

/-- A finite complex number. -/
def point (z : ℂ) : IC f := ⟨.fin z.re, .fin z.im⟩

/-- The discrete Fourier transform in the direction `dir`, without scaling, from the definition. -/
noncomputable def fourier (dir : Direction) (N : ℕ) (x : List ℂ) (k : ℕ) : ℂ :=
  ∑ n ∈ range N, x.getD n 0 * Complex.exp ((if dir = .forward then -1 else 1) * (2 * Real.pi * Complex.I * n * k / N))

/-- The opposite direction. -/
def opposite : Direction → Direction
  | .forward => .backward
  | .backward => .forward

private theorem fourier_eq (dir : Direction) (N : ℕ) (x : List ℂ) (k : ℕ) :
    fourier dir N x k = specDft dir N (fun n => x.getD n 0) k := by
  unfold fourier specDft
  split
  · unfold Spec.dft
    refine sum_congr rfl fun n _ => ?_
    congr 2
    push_cast
    ring
  · unfold Spec.idft
    refine sum_congr rfl fun n _ => ?_
    congr 2
    push_cast
    ring

private theorem specDft_opposite (dir : Direction) (N : ℕ) (x : ℕ → ℂ) {k : ℕ} (hk : k < N) :
    specDft (opposite dir) N (specDft dir N x) k = N * x k := by
  cases dir
  · exact idft_dft x hk
  · exact dft_idft x hk

private theorem near_point {z : ℂ} {η : ℝ} (hη : 0 ≤ η) : NearC (point z : IC f) z (‖z‖ + η) 1 :=
  ⟨z.re, z.im, rfl, by linarith, by
    rw [show (⟨z.re, z.im⟩ : ℂ) = z from rfl, sub_self, norm_zero, sub_self, zero_mul]⟩

private theorem sum_allow (x : List ℂ) (N : ℕ) (η : ℝ) :
    ∑ i ∈ range N, (‖x.getD i 0‖ + η) = ∑ n ∈ range N, ‖x.getD n 0‖ + N * η := by
  rw [sum_add_distrib, sum_const, card_range, nsmul_eq_mul]

private theorem map_point (x : List ℂ) {N : ℕ} (hx : x.length = N) :
    x.map (point (f := f)) = vec N (fun n => point (x.getD n 0)) := by
  conv_lhs => rw [eq_vec_getD x 0, map_vec, hx]

/-- **C105** (complex transform).  The complex transform of order `b` in the IEEE format `f`, with tables accurate to `ε`,
in both directions and for every kernel.  If `S = ∑ (‖xₙ‖ + η)`, where `η` is at least the smallest normal number, stays
below the overflow threshold after the growth of the errors, then both parts of all bins are finite and every bin is within
`(growth - 1) S` of the Fourier transform.  Nothing is assumed about overflow or underflow of intermediate results. -/
theorem C105_fft (hf : f.Ieee) {b : ℕ} (hb : 1 ≤ b) (hb2 : b ≤ 27) (k : Kernel) (hk : k = .v4 → 2 ≤ b)
    {tw : ℕ → ℕ → Direction → IC f} {ε : ℝ} (hw : TwAccurate tw (2 ^ b) ε) (dir : Direction) (x : List ℂ)
    (hx : x.length = 2 ^ b) {η : ℝ} (hη : f.minNormal ≤ η)
    (ho : fftGrowth f ε b * (∑ n ∈ range (2 ^ b), ‖x.getD n 0‖ + 2 ^ b * η) < (2 : ℝ) ^ f.emax) :
    ∃ (p : _) (y : List ℂ), Dit2Plan.makeG (ieeeArith f tw) b = .ok p ∧
      p.callWith k.runG (x.map point) dir = .ok (y.map point) ∧ y.length = 2 ^ b ∧
      ∀ i < 2 ^ b, ‖y.getD i 0 - fourier dir (2 ^ b) x i‖
        ≤ (fftGrowth f ε b - 1) * (∑ n ∈ range (2 ^ b), ‖x.getD n 0‖ + 2 ^ b * η) := by
  have hε := tw_nonneg hb hw
  have hν := minNormal_pos f
  have hS := sum_allow x (2 ^ b) η
  push_cast at hS
  have key := fun i (hi : i < 2 ^ b) => nearC_val (ditGn_near hf hb (by linarith : 1 ≤ 1 + ε) (tw_near hb hw) le_rfl
    (x := fun n => (point (x.getD n 0) : IC f)) (X := fun n => x.getD n 0) (m := fun n => ‖x.getD n 0‖ + η)
    (fun n _ => near_point (by linarith)) (fun n _ => by linarith [norm_nonneg (x.getD n 0)])
    (by rw [hS, one_mul]; exact ho) dir hi)
  rw [hS, one_mul] at key
  choose! y hy1 hy2 using key
  refine ⟨_, vec (2 ^ b) y, dit2Plan_makeG_eq _ hb2, ?_, length_vec _ _, fun i hi => ?_⟩
  · rw [map_point x hx, map_vec]
    refine (kernelG_fn hb k (fun _ => IC.mul_comm') hk _ dir).trans (congrArg Except.ok (vec_ext fun i hi => ?_))
    exact hy1 i hi
  · rw [getD_vec _ _ _ _ hi, fourier_eq]
    exact hy2 i hi

/-- **C105** (round trip).  Transforming the result back with the same plan, without scaling: if `2 ^ b S` stays below the
overflow threshold after the growth of the errors in both transforms, then all values are finite and each is within
`(growth² - 1) 2 ^ b S` of `2 ^ b` times the number it comes from. -/
theorem C105_round_trip (hf : f.Ieee) {b : ℕ} (hb : 1 ≤ b) (hb2 : b ≤ 27) (k k' : Kernel) (hk : k = .v4 → 2 ≤ b)
    (hk' : k' = .v4 → 2 ≤ b)
    {tw : ℕ → ℕ → Direction → IC f} {ε : ℝ} (hw : TwAccurate tw (2 ^ b) ε) (dir : Direction) (x : List ℂ)
    (hx : x.length = 2 ^ b) {η : ℝ} (hη : f.minNormal ≤ η)
    (ho : fftGrowth f ε b ^ 2 * (2 ^ b * (∑ n ∈ range (2 ^ b), ‖x.getD n 0‖ + 2 ^ b * η)) < (2 : ℝ) ^ f.emax) :
    ∃ (p : _) (y : List (IC f)) (z : List ℂ), Dit2Plan.makeG (ieeeArith f tw) b = .ok p ∧
      p.callWith k.runG (x.map point) dir = .ok y ∧ p.callWith k'.runG y (opposite dir) = .ok (z.map point) ∧
      z.length = 2 ^ b ∧
      ∀ i < 2 ^ b, ‖z.getD i 0 - 2 ^ b * x.getD i 0‖
        ≤ (fftGrowth f ε b ^ 2 - 1) * (2 ^ b * (∑ n ∈ range (2 ^ b), ‖x.getD n 0‖ + 2 ^ b * η)) := by
  have hε := tw_nonneg hb hw
  have hν := minNormal_pos f
  have hS := sum_allow x (2 ^ b) η
  push_cast at hS
  have hg := one_le_fft (f := f) hε b
  have h2 : (1 : ℝ) ≤ 2 ^ b := one_le_pow₀ (by norm_num)
  set S := ∑ n ∈ range (2 ^ b), ‖x.getD n 0‖ + 2 ^ b * η with hSd
  have hSη : f.minNormal ≤ S := by
    have h0 : 0 ≤ ∑ n ∈ range (2 ^ b), ‖x.getD n 0‖ := sum_nonneg fun _ _ => norm_nonneg _
    have : η ≤ 2 ^ b * η := le_mul_of_one_le_left (by linarith) h2
    linarith
  have hS0 : 0 < S := hν.trans_le hSη
  have hsum : ∑ _i ∈ range (2 ^ b), S = 2 ^ b * S := by
    rw [sum_const, card_range, nsmul_eq_mul]
    push_cast
    rfl
  have key := fun i (hi : i < 2 ^ b) => ditGn_near hf hb (by linarith : 1 ≤ 1 + ε) (tw_near hb hw) le_rfl
    (x := fun n => (point (x.getD n 0) : IC f)) (X := fun n => x.getD n 0) (m := fun n => ‖x.getD n 0‖ + η)
    (fun n _ => near_point (by linarith)) (fun n _ => by linarith [norm_nonneg (x.getD n 0)])
    (by
      rw [hS, one_mul, growth_eq]
      refine lt_of_le_of_lt ?_ ho
      have q1 : fftGrowth f ε b ≤ fftGrowth f ε b ^ 2 := by nlinarith
      have q2 : S ≤ 2 ^ b * S := le_mul_of_one_le_left hS0.le h2
      exact mul_le_mul q1 q2 hS0.le (by positivity)) dir hi
  rw [hS, one_mul, growth_eq] at key
  have key2 := fun i (hi : i < 2 ^ b) => nearC_val (ditGn_near hf hb (by linarith : 1 ≤ 1 + ε) (tw_near hb hw) hg
    key (fun _ _ => hSη) (by
      rw [hsum, growth_eq, ← pow_two]
      exact ho) (opposite dir) hi)
  rw [hsum, growth_eq, ← pow_two] at key2
  choose! z hz1 hz2 using key2
  refine ⟨_, vec (2 ^ b) (ditGn (ieeeArith f tw) b dir (fun n => point (x.getD n 0))), vec (2 ^ b) z,
    dit2Plan_makeG_eq _ hb2, ?_, ?_, length_vec _ _, fun i hi => ?_⟩
  · rw [map_point x hx]
    exact kernelG_fn hb k (fun _ => IC.mul_comm') hk _ dir
  · rw [map_vec]
    refine (kernelG_fn hb k' (fun _ => IC.mul_comm') hk' _ _).trans (congrArg Except.ok (vec_ext fun i hi => ?_))
    exact hz1 i hi
  · rw [getD_vec _ _ _ _ hi]
    have := hz2 i hi
    rw [specDft_opposite _ _ _ hi] at this
    push_cast at this
    exact this

/-- **C105** (round trip, scaled).  Multiplied by `1 / 2 ^ b`, the numbers of the round trip are within `(growth² - 1) S` of
those it started from. -/
theorem C105_scaled (hf : f.Ieee) {b : ℕ} (hb : 1 ≤ b) (hb2 : b ≤ 27) (k k' : Kernel) (hk : k = .v4 → 2 ≤ b)
    (hk' : k' = .v4 → 2 ≤ b)
    {tw : ℕ → ℕ → Direction → IC f} {ε : ℝ} (hw : TwAccurate tw (2 ^ b) ε) (dir : Direction) (x : List ℂ)
    (hx : x.length = 2 ^ b) {η : ℝ} (hη : f.minNormal ≤ η)
    (ho : fftGrowth f ε b ^ 2 * (2 ^ b * (∑ n ∈ range (2 ^ b), ‖x.getD n 0‖ + 2 ^ b * η)) < (2 : ℝ) ^ f.emax) :
    ∃ (p : _) (y : List (IC f)) (z : List ℂ), Dit2Plan.makeG (ieeeArith f tw) b = .ok p ∧
      p.callWith k.runG (x.map point) dir = .ok y ∧ p.callWith k'.runG y (opposite dir) = .ok (z.map point) ∧
      z.length = 2 ^ b ∧
      ∀ i < 2 ^ b, ‖z.getD i 0 / 2 ^ b - x.getD i 0‖
        ≤ (fftGrowth f ε b ^ 2 - 1) * (∑ n ∈ range (2 ^ b), ‖x.getD n 0‖ + 2 ^ b * η) := by
  obtain ⟨p, y, z, e1, e2, e3, e4, h⟩ := C105_round_trip hf hb hb2 k k' hk hk' hw dir x hx hη ho
  refine ⟨p, y, z, e1, e2, e3, e4, fun i hi => ?_⟩
  have h2 : (0 : ℝ) < 2 ^ b := by positivity
  have h2' : ((2 : ℂ) ^ b) ≠ 0 := pow_ne_zero _ two_ne_zero
  have e : z.getD i 0 / 2 ^ b - x.getD i 0 = (z.getD i 0 - 2 ^ b * x.getD i 0) / 2 ^ b := by
    rw [sub_div, mul_div_cancel_left₀ _ h2']
  rw [e, norm_div, norm_pow, Complex.norm_ofNat, div_le_iff₀ h2]
  refine (h i hi).trans (le_of_eq ?_)
  ring

/-- **C105** (real round trip).  `rfft` and then `irfft` with the same plan, whatever its buffer holds: under the same
conditions all samples are finite, and each is within `(growth² - 1) 2 ^ b S` of `2 ^ b` times the sample it comes from. -/
theorem C105_real_round_trip (hf : f.Ieee) {b : ℕ} (hb : 1 ≤ b) (hb2 : b ≤ 27)
    {tw : ℕ → ℕ → Direction → IC f} {ε : ℝ} (hw : TwAccurate tw (2 ^ b) ε) (x : List ℝ)
    (hx : x.length = 2 ^ b) {η : ℝ} (hη : f.minNormal ≤ η)
    (ho : fftGrowth f ε b ^ 2 * (2 ^ b * (∑ n ∈ range (2 ^ b), |x.getD n 0| + 2 ^ b * η)) < (2 : ℝ) ^ f.emax) :
    ∃ p : RfftPlanG (ieeeArith f tw), RfftPlanG.make (ieeeArith f tw) b = .ok p ∧
      ∀ (buf out : List (IC f)) (out' : List (IR f)), buf.length = 2 ^ b → out.length = 2 ^ b / 2 + 1 →
        out'.length = 2 ^ b →
        ∃ (q q' : RfftPlanG (ieeeArith f tw)) (y : List (IC f)) (z : List ℝ),
          ({ p with buffer := buf } : RfftPlanG (ieeeArith f tw)).rfft (x.map sample) out = .ok (q, y) ∧
          q.irfft y out' = .ok (q', z.map sample) ∧ z.length = 2 ^ b ∧
          ∀ i < 2 ^ b, |z.getD i 0 - 2 ^ b * x.getD i 0|
            ≤ (fftGrowth f ε b ^ 2 - 1) * (2 ^ b * (∑ n ∈ range (2 ^ b), |x.getD n 0| + 2 ^ b * η)) := by
  have hε := tw_nonneg hb hw
  have hν := minNormal_pos f
  have hS : ∑ i ∈ range (2 ^ b), (|x.getD i 0| + η) = ∑ n ∈ range (2 ^ b), |x.getD n 0| + 2 ^ b * η := by
    rw [sum_add_distrib, sum_const, card_range, nsmul_eq_mul]
    push_cast
    rfl
  have hg := one_le_fft (f := f) hε b
  have h2 : (1 : ℝ) ≤ 2 ^ b := one_le_pow₀ (by norm_num)
  have hhalf := half_lt hb
  set S := ∑ n ∈ range (2 ^ b), |x.getD n 0| + 2 ^ b * η with hSd
  have hSη : f.minNormal ≤ S := by
    have h0 : 0 ≤ ∑ n ∈ range (2 ^ b), |x.getD n 0| := sum_nonneg fun _ _ => abs_nonneg _
    have : η ≤ 2 ^ b * η := le_mul_of_one_le_left (by linarith) h2
    linarith
  have hS0 : 0 < S := hν.trans_le hSη
  have key := fun i (hi : i < 2 ^ b) => rfftGn_near hf hb (by linarith : 1 ≤ 1 + ε) (tw_near hb hw) le_rfl
    (x := fun n => (sample (x.getD n 0) : IR f)) (X := fun n => x.getD n 0) (m := fun n => |x.getD n 0| + η)
    (fun n _ => near_sample (by linarith)) (fun n _ => by linarith [abs_nonneg (x.getD n 0)])
    (by
      rw [hS, one_mul, growth_eq]
      refine lt_of_le_of_lt ?_ ho
      have q1 : fftGrowth f ε b ≤ fftGrowth f ε b ^ 2 := by nlinarith
      have q2 : S ≤ 2 ^ b * S := le_mul_of_one_le_left hS0.le h2
      exact mul_le_mul q1 q2 hS0.le (by positivity)) hi
  rw [hS, one_mul, growth_eq] at key
  refine ⟨_, rfftPlanG_make_eq hb2, fun buf out out' hbuf hout hout' => ?_⟩
  have hp : rfftPlanGOf (ieeeArith f tw) b (fun i => buf.getD i 0)
      = { rfftPlanGOf (ieeeArith f tw) b (fun _ => 0) with buffer := buf } := by
    unfold rfftPlanGOf
    rw [← list_eq_vec 0 hbuf]
  obtain ⟨g, e⟩ := rfftG_fn (A := ieeeArith f tw) hb (m := out.length) hout.ge (fun i => buf.getD i 0)
    (fun n => (sample (x.getD n 0) : IR f)) (fun i => out.getD i 0)
  rw [← list_eq_vec 0 (rfl : out.length = out.length), hp, hout] at e
  have key2 := fun i (hi : i < 2 ^ b) => near_val (irfftGn_near hf hb (by linarith : 1 ≤ 1 + ε) (tw_near hb hw) hg
    (Y := fun k => if k < 2 ^ b / 2 + 1 then rfftGn (ieeeArith f tw) b (fun n => sample (x.getD n 0)) k
      else out.getD k 0)
    (fun k hk => by
      rw [if_pos (Nat.lt_succ_of_le hk)]
      exact key k (by omega)) hSη (by
      rw [growth_eq, ← pow_two]
      exact ho) hi)
  rw [growth_eq, ← pow_two] at key2
  obtain ⟨g', e'⟩ := irfftG_fn (A := ieeeArith f tw) hb (l := 2 ^ b / 2 + 1) le_rfl hhalf hout'.ge g
    (fun k => if k < 2 ^ b / 2 + 1 then rfftGn (ieeeArith f tw) b (fun n => sample (x.getD n 0)) k
      else out.getD k 0) (fun i => out'.getD i 0)
  rw [← list_eq_vec 0 (rfl : out'.length = out'.length), hout'] at e'
  have hxs : x.map (sample (f := f)) = vec (2 ^ b) (fun n => sample (x.getD n 0)) := by
    conv_lhs => rw [eq_vec_getD x 0, map_vec, hx]
  refine ⟨_, rfftPlanGOf (ieeeArith f tw) b g', _, vec (2 ^ b) (fun n => toReal (irfftGn (ieeeArith f tw) b (fun k => if k < 2 ^ b / 2 + 1 then
    rfftGn (ieeeArith f tw) b (fun n => sample (x.getD n 0)) k else out.getD k 0) n)), ?_, e'.trans ?_, length_vec _ _, ?_⟩
  · rw [hxs]
    exact e
  · rw [map_vec]
    refine congrArg Except.ok (Prod.ext rfl (vec_ext fun i hi => ?_))
    rw [if_pos hi]
    exact (key2 i hi).1
  · intro i hi
    rw [getD_vec _ _ _ _ hi]
    have h := (key2 i hi).2
    have e3 : (Spec.idft (2 ^ b) (Spec.hermitian (2 ^ b) (Spec.dft (2 ^ b) fun n => ((x.getD n 0 : ℝ) : ℂ))) i).re
        = 2 ^ b * x.getD i 0 := by
      rw [idft_congr (fun k hk => hermitian_dft _ hk), idft_dft _ hi, ← Complex.ofReal_natCast, ← Complex.ofReal_mul,
        Complex.ofReal_re]
      push_cast
      rfl
    rw [e3] at h
    exact h

/-- **C105** (`std::complex`).  `C105_fft` and `C105_round_trip` hold with the default complex type `std::complex` as well:
the transforms give the same finite numbers. -/
theorem C105_std (hf : f.Ieee) {b : ℕ} (hb : 1 ≤ b) (hb2 : b ≤ 27) (k k' : Kernel) (hk : k = .v4 → 2 ≤ b)
    (hk' : k' = .v4 → 2 ≤ b)
    {tw : ℕ → ℕ → Direction → IC f} {ε : ℝ} (hw : TwAccurate tw (2 ^ b) ε) (dir : Direction) (x : List ℂ)
    (hx : x.length = 2 ^ b) {η : ℝ} (hη : f.minNormal ≤ η)
    (ho : fftGrowth f ε b ^ 2 * (2 ^ b * (∑ n ∈ range (2 ^ b), ‖x.getD n 0‖ + 2 ^ b * η)) < (2 : ℝ) ^ f.emax) :
    ∃ (p : _) (y z : List ℂ), Dit2Plan.makeG (stdArith f tw) b = .ok p ∧
      p.callWith k.runG (x.map fun v => (point v).std) dir = .ok (y.map fun v => (point v).std) ∧
      p.callWith k'.runG (y.map fun v => (point v).std) (opposite dir) = .ok (z.map fun v => (point v).std) ∧
      y.length = 2 ^ b ∧ z.length = 2 ^ b ∧
      (∀ i < 2 ^ b, ‖y.getD i 0 - fourier dir (2 ^ b) x i‖
        ≤ (fftGrowth f ε b - 1) * (∑ n ∈ range (2 ^ b), ‖x.getD n 0‖ + 2 ^ b * η)) ∧
      ∀ i < 2 ^ b, ‖z.getD i 0 / 2 ^ b - x.getD i 0‖
        ≤ (fftGrowth f ε b ^ 2 - 1) * (∑ n ∈ range (2 ^ b), ‖x.getD n 0‖ + 2 ^ b * η) := by
  have hε := tw_nonneg hb hw
  have hg := one_le_fft (f := f) hε b
  have h2 : (1 : ℝ) ≤ 2 ^ b := one_le_pow₀ (by norm_num)
  have hS0 : 0 ≤ ∑ n ∈ range (2 ^ b), ‖x.getD n 0‖ + 2 ^ b * η :=
    add_nonneg (sum_nonneg fun _ _ => norm_nonneg _)
      (mul_nonneg (by linarith) ((minNormal_pos f).le.trans hη))
  have ho1 : fftGrowth f ε b * (∑ n ∈ range (2 ^ b), ‖x.getD n 0‖ + 2 ^ b * η) < (2 : ℝ) ^ f.emax := by
    refine lt_of_le_of_lt ?_ ho
    have q1 : fftGrowth f ε b ≤ fftGrowth f ε b ^ 2 := by nlinarith
    exact mul_le_mul q1 (le_mul_of_one_le_left hS0 h2) hS0 (by positivity)
  obtain ⟨p1, y, m1, c1, ly, hy⟩ := C105_fft hf hb hb2 k hk hw dir x hx hη ho1
  obtain ⟨p2, y2, z, m2, c2, c3, lz, hz⟩ := C105_scaled hf hb hb2 k k' hk hk' hw dir x hx hη ho
  obtain rfl : p1 = p2 := Except.ok.inj (m1.symm.trans m2)
  obtain rfl : y.map point = y2 := Except.ok.inj (c1.symm.trans c2)
  have std : ∀ (κ : Kernel), (κ = .v4 → 2 ≤ b) → ∃ p', Dit2Plan.makeG (stdArith f tw) b = .ok p' ∧
      ∀ (d : Direction) (u v : List ℂ), u.length = 2 ^ b → v.length = 2 ^ b →
        p1.callWith κ.runG (u.map point) d = .ok (v.map point) →
        p'.callWith κ.runG (u.map fun v => (point v).std) d = .ok (v.map fun v => (point v).std) := by
    intro κ hκ
    obtain ⟨p, p', e1, e2, h⟩ := C101_fft tw b hb hb2 κ hκ
    obtain rfl : p1 = p := Except.ok.inj (m1.symm.trans e1)
    refine ⟨p', e2, fun d u v lu lv c => ?_⟩
    obtain ⟨w, w', a1, a2, -, l2, a3⟩ := h (u.map point) d ((List.length_map ..).trans lu)
    obtain rfl : w = v.map point := Except.ok.inj (a1.symm.trans c)
    rw [List.map_map] at a2
    refine a2.trans (congrArg Except.ok ?_)
    rw [list_eq_vec 0 l2, eq_vec_getD v 0, map_vec, lv]
    refine vec_ext fun i hi => ?_
    have := a3 i hi
    have e : (v.map (point (f := f))).getD i 0 = point (v.getD i 0) := by
      rw [map_point v lv, getD_vec _ _ _ _ hi]
    rw [e] at this
    rcases this with ⟨h1, h2⟩ | ⟨h1, -⟩
    · exact SC.ext h1.symm h2.symm
    · exact absurd rfl (h1 (v.getD i 0).re)
  obtain ⟨p', e1, s1⟩ := std k hk
  obtain ⟨p'', e2, s2⟩ := std k' hk'
  obtain rfl : p' = p'' := Except.ok.inj (e1.symm.trans e2)
  exact ⟨p', y, z, e1, s1 dir x y hx ly c1, s2 _ y z ly lz c3, ly, lz, hy, hz⟩

/-- **C105** (the constants).  With correctly rounded tables the growth of the errors of a transform is at most
`1 + 18 b u` and that of a round trip at most `1 + 36 b u`, as long as `36 b u ≤ 1`: for binary32 and all orders up to 27
less than `1 + 3e-5` and `1 + 6e-5`. -/
theorem C105_growth (f : Fmt) (b : ℕ) (h : 36 * b * f.u ≤ 1) :
    1 ≤ fftGrowth f (2 * f.u) b ∧ fftGrowth f (2 * f.u) b ≤ 1 + 18 * b * f.u ∧
      fftGrowth f (2 * f.u) b ^ 2 ≤ 1 + 36 * b * f.u := by
  have hu := u_pos f
  have h1 : fftGrowth f (2 * f.u) b ≤ Real.exp (b * (9 * f.u)) := by
    unfold fftGrowth
    rw [Real.exp_nat_mul]
    apply pow_le_pow_left₀ (by positivity)
    rw [show 9 * f.u = 2 * f.u + 5 * f.u + 2 * f.u by ring, Real.exp_add, Real.exp_add]
    gcongr <;> exact (add_comm _ _).trans_le (Real.add_one_le_exp _)
  have h0 : 1 ≤ fftGrowth f (2 * f.u) b := one_le_fft (by linarith) b
  have hbu : 0 ≤ b * f.u := by positivity
  have ex : ∀ t : ℝ, 0 ≤ t → t ≤ 1 / 2 → Real.exp t ≤ 1 + 2 * t := fun t t0 t1 => by
    have := Real.abs_exp_sub_one_sub_id_le (x := t) (by rw [abs_of_nonneg t0]; linarith)
    have := (abs_le.1 this).2
    nlinarith
  refine ⟨h0, h1.trans ((ex _ (by positivity) (by nlinarith)).trans (by linarith)), ?_⟩
  refine (pow_le_pow_left₀ (by linarith) h1 2).trans ?_
  rw [← Real.exp_nat_mul]
  refine (ex _ (by positivity) (by push_cast; nlinarith)).trans ?_
  push_cast
  linarith

/-- The hypotheses of the round trip hold in binary16 for four points and correctly rounded tables. -/
example : binary16.Ieee ∧
    fftGrowth binary16 (2 * binary16.u) 2 ^ 2 * (2 ^ 2 * (∑ n ∈ range (2 ^ 2),
      ‖[(1 : ℂ), -2000, Complex.I, 8000 * Complex.I].getD n 0‖ + 2 ^ 2 * binary16.minNormal)) < (2 : ℝ) ^ binary16.emax ∧
    ∃ tw : ℕ → ℕ → Direction → IC binary16, TwAccurate tw (2 ^ 2) (2 * binary16.u) := by
  have hu : binary16.u = 1 / 2048 := by
    show (2 : ℝ) ^ (-((11 : ℕ) : ℤ)) = _
    norm_num
  have hν : binary16.minNormal = 1 / 16384 := by
    show (2 : ℝ) ^ ((-24 : ℤ) + ((11 : ℕ) : ℤ) - 1) = _
    norm_num
  have hm : (2 : ℝ) ^ binary16.emax = 65536 := by
    show (2 : ℝ) ^ (16 : ℤ) = _
    norm_num
  refine ⟨by unfold Fmt.Ieee binary16; norm_num, ?_,
    ⟨_, C96_tables (by unfold Fmt.Ieee binary16; norm_num) (2 ^ 2) _ (fun _ _ => rfl)⟩⟩
  unfold fftGrowth
  rw [hu, hν, hm]
  norm_num [sum_range_succ]

/-- **C105** (overflow).  The bound on the sum cannot be replaced by a bound on the samples: in every format, with exact
tables, the two-point transform of two samples `2 ^ (emax - 1)`, half the overflow threshold, has the bins infinity and 0,
while that of `2 ^ (emax - 2)` twice has the exact bins `2 ^ (emax - 1)` and 0. -/
theorem C105_overflow (hf : f.Ieee) (k : Kernel) (hk : k ≠ .v4) (dir : Direction) :
    ∃ p, Dit2Plan.makeG (ieeeArith f (fun _ _ _ => ⟨.fin 1, .fin 0⟩)) 1 = .ok p ∧
      TwAccurate (f := f) (fun _ _ _ => ⟨.fin 1, .fin 0⟩) (2 ^ 1) 0 ∧
      p.callWith k.runG ([((2 ^ (f.emax - 1) : ℝ) : ℂ), ((2 ^ (f.emax - 1) : ℝ) : ℂ)].map point) dir
        = .ok [⟨.inf false, .fin 0⟩, ⟨.fin 0, .fin 0⟩] ∧
      p.callWith k.runG ([((2 ^ (f.emax - 2) : ℝ) : ℂ), ((2 ^ (f.emax - 2) : ℝ) : ℂ)].map point) dir
        = .ok [⟨.fin (2 ^ (f.emax - 1)), .fin 0⟩, ⟨.fin 0, .fin 0⟩] := by
  have r0 : f.round (.fin 0) = .fin 0 := by
    rw [round_fin_of_lt (by rw [rndInf_zero, abs_zero]; positivity), rndInf_zero]
  have grid : ∀ j : ℤ, f.emin ≤ j → f.rndInf ((2 : ℝ) ^ j) = (2 : ℝ) ^ j := fun j h1 => rndInf_exact ⟨1, j, by
    rw [abs_one]
    exact one_lt_pow₀ (by norm_num) (by have := hf.1; omega), h1, by norm_num⟩
  have hpos : ∀ j : ℤ, |(2 : ℝ) ^ j| = 2 ^ j := fun j => abs_of_pos (by positivity)
  have rp : ∀ j : ℤ, f.emin ≤ j → j < f.emax → f.round (.fin ((2 : ℝ) ^ j)) = .fin ((2 : ℝ) ^ j) := fun j h1 h2 => by
    rw [round_fin_of_lt (by rw [grid j h1, hpos]; exact zpow_lt_zpow_right₀ (by norm_num) h2), grid j h1]
  have dbl : ∀ j : ℤ, (2 : ℝ) ^ j + 2 ^ j = 2 ^ (j + 1) := fun j => by
    rw [zpow_add₀ (by norm_num), zpow_one]
    ring
  have he := hf.2
  have run : ∀ j : ℤ, f.emin ≤ j → j < f.emax → Dit2Plan.callWith k.runG
      (dit2PlanGOf (ieeeArith f (fun _ _ _ => ⟨.fin 1, .fin 0⟩)) 1)
      ([((2 ^ j : ℝ) : ℂ), ((2 ^ j : ℝ) : ℂ)].map point) dir
        = .ok [⟨f.round (.fin (2 ^ (j + 1))), .fin 0⟩, ⟨.fin 0, .fin 0⟩] := by
    intro j h1 h2
    rw [map_point (N := 2 ^ 1) _ rfl]
    refine (kernelG_fn le_rfl k (fun _ => IC.mul_comm') (fun h => absurd h hk) _ dir).trans ?_
    have e : ∀ (A : Arith (IR f) (IC f)) (x : ℕ → IC f), vec (2 ^ 1) (ditGn A 1 dir x)
        = [x 0 + x 1, x 0 - x 1] := fun A x => by
      have a0 : ditGn A 1 dir x 0 = x 0 + x 1 := rfl
      have a1 : ditGn A 1 dir x 1 = x 0 - x 1 := rfl
      rw [← a0, ← a1]
      rfl
    rw [e]
    have pt : (point ((2 ^ j : ℝ) : ℂ) : IC f) = ⟨.fin (2 ^ j), .fin 0⟩ := rfl
    have x0 : [((2 ^ j : ℝ) : ℂ), ((2 ^ j : ℝ) : ℂ)].getD 0 0 = ((2 ^ j : ℝ) : ℂ) := rfl
    have x1 : [((2 ^ j : ℝ) : ℂ), ((2 ^ j : ℝ) : ℂ)].getD 1 0 = ((2 ^ j : ℝ) : ℂ) := rfl
    have sm : (⟨.fin (2 ^ j), .fin 0⟩ : IC f) + ⟨.fin (2 ^ j), .fin 0⟩ = ⟨f.round (.fin (2 ^ (j + 1))), .fin 0⟩ := by
      show (⟨f.round (.fin (2 ^ j + 2 ^ j)), f.round (.fin (0 + 0))⟩ : IC f) = _
      rw [add_zero, r0, dbl]
    have df : (⟨.fin (2 ^ j), .fin 0⟩ : IC f) - ⟨.fin (2 ^ j), .fin 0⟩ = ⟨.fin 0, .fin 0⟩ := by
      show (⟨f.round (.fin (2 ^ j + -2 ^ j)), f.round (.fin (0 + -0))⟩ : IC f) = _
      rw [neg_zero, add_zero, add_neg_cancel, r0]
    rw [x0, x1, pt, sm, df]
  refine ⟨_, dit2Plan_makeG_eq _ (by norm_num), ?_, ?_, ?_⟩
  · intro d i hi
    obtain rfl : i = 0 := by omega
    refine ⟨1, 0, rfl, ?_⟩
    rw [show (⟨1, 0⟩ : ℂ) = 1 from rfl]
    simp
  · rw [run _ (by omega) (by omega), sub_add_cancel]
    have : f.round (.fin ((2 : ℝ) ^ f.emax)) = .inf false := by
      unfold Fmt.round
      dsimp only
      rw [grid _ (by omega), hpos, if_neg (lt_irrefl _), decide_eq_false (not_lt.2 (by positivity))]
    rw [this]
  · rw [run _ (by omega) (by omega), show f.emax - 2 + 1 = f.emax - 1 by ring, rp _ (by omega) (by omega)]

end Neo.Props
