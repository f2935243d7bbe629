import Verif.Lemmas.AnyConv
import Verif.Props.StdComplex

/-! # C104: `fft_convolve` and `direct_convolve` in IEEE arithmetic -/

namespace Neo.Props

open Neo Spec Finset

variable {f : Fmt}

/-- Error growth of `fft_convolve`: three transforms, the product of the spectra and the scaling. -/
noncomputable def oneShotGrowth (f : Fmt) (ε : ℝ) (b : ℕ) : ℝ := fftGrowth f ε b ^ 3 * (1 + 5 * f.u) * (1 + f.u)

private theorem sum_zext (x : List ℝ) {K : ℕ} (h : x.length ≤ K) :
    ∑ i ∈ range K, |x.getD i 0| = ∑ i ∈ range x.length, |x.getD i 0| := by
  refine (sum_subset (range_mono h) fun i _ hi => ?_).symm
  rw [List.getD_eq_default _ _ (by rw [mem_range] at hi; omega), abs_zero]

private theorem zext_sample (x : List ℝ) (i : ℕ) :
    zext x.length (fun i => (sample (x.getD i 0) : IR f)) i = sample (x.getD i 0) := by
  unfold zext
  split
  · rfl
  · rw [List.getD_eq_default _ _ (by omega)]
    rfl

private theorem map_sample_eq (x : List ℝ) : x.map (sample (f := f)) = vec x.length (fun i => sample (x.getD i 0)) := by
  conv_lhs => rw [eq_vec_getD x 0, map_vec]

/-- The spectrum of a zero-padded operand. -/
private theorem spectrum_near (hf : f.Ieee) {b : ℕ} (hb : 1 ≤ b) {tw : ℕ → ℕ → Direction → IC f} {ε : ℝ}
    (hw : TwAccurate tw (2 ^ b) ε) (x : List ℝ) (hx : x.length ≤ 2 ^ b) {X : ℝ}
    (hX : ∑ i ∈ range x.length, |x.getD i 0| + 2 ^ b * f.minNormal ≤ X)
    (ho : fftGrowth f ε b * X < (2 : ℝ) ^ f.emax) {k : ℕ} (hk : k < 2 ^ b) :
    NearC (rfftGn (ieeeArith f tw) b (zext x.length fun i => sample (x.getD i 0)) k)
      (Spec.dft (2 ^ b) (fun n => ((x.getD n 0 : ℝ) : ℂ)) k) X (fftGrowth f ε b) := by
  have hε := tw_nonneg hb hw
  set S := ∑ i ∈ range x.length, |x.getD i 0| with hS
  set δ := (X - S) / 2 ^ b with hδ
  have h2 : (0 : ℝ) < 2 ^ b := by positivity
  have hδ1 : f.minNormal ≤ δ := by
    rw [hδ, le_div_iff₀ h2]
    linarith
  have hsum : ∑ i ∈ range (2 ^ b), (|x.getD i 0| + δ) = X := by
    rw [sum_add_distrib, sum_zext x hx, sum_const, card_range, nsmul_eq_mul, hδ]
    push_cast
    rw [mul_div_cancel₀ _ h2.ne', ← hS]
    ring
  have hν := minNormal_pos f
  have key := rfftGn_near hf hb (by linarith : 1 ≤ 1 + ε) (tw_near hb hw) le_rfl
    (x := zext x.length fun i => (sample (x.getD i 0) : IR f)) (X := fun n => x.getD n 0)
    (m := fun n => |x.getD n 0| + δ)
    (fun n _ => by rw [zext_sample]; exact near_sample (by linarith))
    (fun n _ => by linarith [abs_nonneg (x.getD n 0)]) (by rw [hsum, one_mul]; exact ho) hk
  rw [hsum, one_mul] at key
  exact key

private theorem growth_facts {ε : ℝ} (hε : 0 ≤ ε) (b : ℕ) :
    fftGrowth f ε b ≤ oneShotGrowth f ε b ∧
    fftGrowth f ε b * fftGrowth f ε b * (1 + 5 * f.u) ≤ oneShotGrowth f ε b ∧
    fftGrowth f ε b * fftGrowth f ε b * (1 + 5 * f.u) * fftGrowth f ε b ≤ oneShotGrowth f ε b := by
  have hu := u_pos f
  have hg := one_le_fft (f := f) hε b
  set g := fftGrowth f ε b
  have e : oneShotGrowth f ε b = g * g * (1 + 5 * f.u) * g * (1 + f.u) := by unfold oneShotGrowth; ring
  have h0 : 0 ≤ g * g * (1 + 5 * f.u) * g := by positivity
  have h3 : g * g * (1 + 5 * f.u) * g ≤ oneShotGrowth f ε b := by
    rw [e]
    exact le_mul_of_one_le_right h0 (by linarith)
  have h2 : g * g * (1 + 5 * f.u) ≤ g * g * (1 + 5 * f.u) * g := le_mul_of_one_le_right (by positivity) hg
  have h1 : g ≤ g * g * (1 + 5 * f.u) := by
    rw [mul_assoc]
    exact le_mul_of_one_le_right (by linarith) (one_le_mul_of_one_le_of_one_le hg (by linarith))
  exact ⟨h1.trans (h2.trans h3), h2.trans h3, h3⟩

/-- **C104** (`fft_convolve`, accuracy).  Two operands of at least two finite samples in the IEEE format `f`, tables
accurate to `ε`, transforms of `2 ^ b` points.  `X` and `Y` bound the sums of the magnitudes of the samples plus an
underflow allowance for every bin.  If `X`, `Y` and the largest possible intermediate result `2^b X Y` stay below the
overflow threshold after the growth `Γ` of the errors, then every output sample is finite and within `(Γ - 1) X Y` of the
exact convolution.  Nothing is assumed about overflow or underflow of intermediate results. -/
theorem C104_fft_convolve (hf : f.Ieee) (x y : List ℝ) (hx : 2 ≤ x.length) (hy : 2 ≤ y.length)
    (hs : x.length + y.length - 1 ≤ 2 ^ 27) {b : ℕ} (hb : b = Nat.clog 2 (x.length + y.length - 1))
    (hbe : (b : ℤ) < f.emax) {tw : ℕ → ℕ → Direction → IC f} {ε : ℝ} (hw : TwAccurate tw (2 ^ b) ε) {X Y : ℝ}
    (hX : ∑ i ∈ range x.length, |x.getD i 0| + 2 ^ b * f.minNormal ≤ X)
    (hY : ∑ i ∈ range y.length, |y.getD i 0| + 2 ^ b * f.minNormal ≤ Y) (hXY : f.minNormal ≤ X * Y)
    (o1 : oneShotGrowth f ε b * X < (2 : ℝ) ^ f.emax) (o2 : oneShotGrowth f ε b * Y < (2 : ℝ) ^ f.emax)
    (o3 : oneShotGrowth f ε b * (2 ^ b * (X * Y)) < (2 : ℝ) ^ f.emax) :
    ∃ out : List ℝ, fftConvolveG (ieeeArith f tw) (x.map sample) (y.map sample) = .ok (out.map sample) ∧
      out.length = x.length + y.length - 1 ∧
      ∀ k < x.length + y.length - 1,
        |out.getD k 0 - Spec.conv (fun i => x.getD i 0) (fun i => y.getD i 0) k|
          ≤ (oneShotGrowth f ε b - 1) * (X * Y) := by
  obtain ⟨b1, b2, b3⟩ := clog_bounds hx hy hs
  rw [← hb] at b1 b2 b3
  have hε := tw_nonneg b1 hw
  have hu := u_pos f
  have hν := minNormal_pos f
  have hg := one_le_fft (f := f) hε b
  obtain ⟨g1, g2, g3⟩ := growth_facts (f := f) hε b
  have h2 : (1 : ℝ) ≤ 2 ^ b := one_le_pow₀ (by norm_num)
  have pos : ∀ (z : List ℝ) {Z : ℝ}, ∑ i ∈ range z.length, |z.getD i 0| + 2 ^ b * f.minNormal ≤ Z → 0 < Z := fun z Z h => by
    have h1 : 0 ≤ ∑ i ∈ range z.length, |z.getD i 0| := sum_nonneg fun _ _ => abs_nonneg _
    have : 0 < 2 ^ b * f.minNormal := by positivity
    linarith
  have hX0 := pos x hX
  have hY0 := pos y hY
  have hXY0 : 0 < X * Y := mul_pos hX0 hY0
  have hxl : x.length ≤ 2 ^ b := by omega
  have hyl : y.length ≤ 2 ^ b := by omega
  have hN := half_lt b1
  set Z : ℕ → ℂ := fun k => Spec.dft (2 ^ b) (fun n => ((x.getD n 0 : ℝ) : ℂ)) k
    * Spec.dft (2 ^ b) (fun n => ((y.getD n 0 : ℝ) : ℂ)) k with hZ
  have key : ∀ k < 2 ^ b, NearR (fcOut (ieeeArith f tw) x.length y.length b (fun i => sample (x.getD i 0))
      (fun i => sample (y.getD i 0)) k) (specOut (2 ^ b) Z k) (X * Y) (oneShotGrowth f ε b) := by
    intro k hk
    have k1 := specOutG_near hf b1 hbe (by linarith : 1 ≤ 1 + ε) (tw_near b1 hw) (M := X * Y) (Z := Z)
      (Y := fun k => rfftGn (ieeeArith f tw) b (zext x.length fun i => sample (x.getD i 0)) k
        * rfftGn (ieeeArith f tw) b (zext y.length fun i => sample (y.getD i 0)) k)
      (γ := fftGrowth f ε b * fftGrowth f ε b * (1 + 5 * f.u))
      (one_le_mul_of_one_le_of_one_le (one_le_mul_of_one_le_of_one_le hg hg) (by linarith))
      (fun j hj => NearC.mul hf
        (spectrum_near hf b1 hw x hxl hX (lt_of_le_of_lt (mul_le_mul_of_nonneg_right g1 hX0.le) o1) (by omega))
        (spectrum_near hf b1 hw y hyl hY (lt_of_le_of_lt (mul_le_mul_of_nonneg_right g1 hY0.le) o2) (by omega))
        hg hg hXY (lt_of_le_of_lt (mul_le_mul g2 (le_mul_of_one_le_left hXY0.le h2) hXY0.le (by linarith)) o3)) hXY
      (by
        rw [growth_eq]
        exact lt_of_le_of_lt (mul_le_mul_of_nonneg_right g3 (by positivity)) o3) hk
    rw [growth_eq] at k1
    have e : oneShotGrowth f ε b
        = fftGrowth f ε b * fftGrowth f ε b * (1 + 5 * f.u) * fftGrowth f ε b * (1 + f.u) := by
      unfold oneShotGrowth; ring
    rw [e]
    exact k1
  refine ⟨vec (x.length + y.length - 1) (fun k => toReal (fcOut (ieeeArith f tw) x.length y.length b
    (fun i => sample (x.getD i 0)) (fun i => sample (y.getD i 0)) k)), ?_, length_vec .., fun k hk => ?_⟩
  · rw [map_sample_eq x, map_sample_eq y, fftConvolveG_eq hx hy hs, ← hb, map_vec]
    exact congrArg Except.ok (vec_ext fun k hk => (near_val (key k (by omega))).1)
  · rw [getD_vec _ _ _ _ hk]
    have k2 := (near_val (key k (by omega))).2
    rwa [hZ, specOut_mul _ _ (by omega),
      circConv_eq_conv (P := x.length) (Q := y.length) (fun m hm => List.getD_eq_default _ _ hm)
        (fun m hm => List.getD_eq_default _ _ hm) (by omega) (by omega), conv_comm] at k2


/-- **C104** (`fft_convolve`, the constant).  With correctly rounded tables: relative to the sums of magnitudes, the error
is at most `2 (27 b + 7) u`. -/
theorem C104_fft_convolve_unit (hf : f.Ieee) (x y : List ℝ) (hx : 2 ≤ x.length) (hy : 2 ≤ y.length)
    (hs : x.length + y.length - 1 ≤ 2 ^ 27) {b : ℕ} (hb : b = Nat.clog 2 (x.length + y.length - 1))
    (hbe : (b : ℤ) < f.emax) {tw : ℕ → ℕ → Direction → IC f}
    (htw : ∀ k dir, tw (2 ^ b) k dir
      = ⟨f.round (.fin (Real.cos ((if dir = .forward then -1 else 1) * (2 * Real.pi * k / (2 ^ b : ℕ))))),
        f.round (.fin (Real.sin ((if dir = .forward then -1 else 1) * (2 * Real.pi * k / (2 ^ b : ℕ)))))⟩)
    (hE : (27 * b + 7) * f.u ≤ 1 / 2) {X Y : ℝ}
    (hX : ∑ i ∈ range x.length, |x.getD i 0| + 2 ^ b * f.minNormal ≤ X)
    (hY : ∑ i ∈ range y.length, |y.getD i 0| + 2 ^ b * f.minNormal ≤ Y) (hXY : f.minNormal ≤ X * Y)
    (o1 : 2 * X < (2 : ℝ) ^ f.emax) (o2 : 2 * Y < (2 : ℝ) ^ f.emax) (o3 : 2 * (2 ^ b * (X * Y)) < (2 : ℝ) ^ f.emax) :
    ∃ out : List ℝ, fftConvolveG (ieeeArith f tw) (x.map sample) (y.map sample) = .ok (out.map sample) ∧
      out.length = x.length + y.length - 1 ∧
      ∀ k < x.length + y.length - 1,
        |out.getD k 0 - Spec.conv (fun i => x.getD i 0) (fun i => y.getD i 0) k|
          ≤ 2 * ((27 * b + 7) * f.u) * (X * Y) := by
  have hw : TwAccurate tw (2 ^ b) (2 * f.u) := by
    intro dir k hk
    have := C96_tables hf (2 ^ b) _ (fun _ _ => rfl) dir k hk
    rw [htw]
    exact this
  have hu := u_pos f
  have hν := minNormal_pos f
  have pos : ∀ (z : List ℝ) {Z : ℝ}, ∑ i ∈ range z.length, |z.getD i 0| + 2 ^ b * f.minNormal ≤ Z → 0 < Z := fun z Z h => by
    have h1 : 0 ≤ ∑ i ∈ range z.length, |z.getD i 0| := sum_nonneg fun _ _ => abs_nonneg _
    have : 0 < 2 ^ b * f.minNormal := by positivity
    linarith
  have hX0 := pos x hX
  have hY0 := pos y hY
  have hE' : (27 * b + 2 * (0 : ℕ) + 7) * f.u ≤ 1 / 2 := by push_cast; linarith
  have hG : oneShotGrowth f (2 * f.u) b ≤ 1 + 2 * ((27 * b + 7) * f.u) := by
    have h := (C96_growth f b 0 hE').2
    refine le_trans ?_ (le_trans h (le_of_eq (by push_cast; ring)))
    have e : convGrowth f (2 * f.u) b 0 = oneShotGrowth f (2 * f.u) b * (1 + f.u) := by
      unfold convGrowth oneShotGrowth; ring
    rw [e]
    exact le_mul_of_one_le_right (by unfold oneShotGrowth fftGrowth; positivity) (by linarith)
  have hG2 : oneShotGrowth f (2 * f.u) b ≤ 2 := by linarith
  obtain ⟨out, h1, h2, h3⟩ := C104_fft_convolve hf x y hx hy hs hb hbe hw hX hY hXY
    (lt_of_le_of_lt (mul_le_mul_of_nonneg_right hG2 hX0.le) o1) (lt_of_le_of_lt (mul_le_mul_of_nonneg_right hG2 hY0.le) o2)
    (lt_of_le_of_lt (mul_le_mul_of_nonneg_right hG2 (by positivity)) o3)
  exact ⟨out, h1, h2, fun k hk => (h3 k hk).trans
    (mul_le_mul_of_nonneg_right (by linarith) (mul_pos hX0 hY0).le)⟩

/-- **C104** (`fft_convolve`, infinities and NaN).  One infinite or NaN sample, in either operand and anywhere, leaves no
finite sample in the output. -/
theorem C104_fft_nonfinite (tw : ℕ → ℕ → Direction → IC f) (x y : List (IR f)) (hx : 2 ≤ x.length) (hy : 2 ≤ y.length)
    (hs : x.length + y.length - 1 ≤ 2 ^ 27) (h : ∃ z ∈ x ++ y, z.val.NonFinite) :
    ∃ out, fftConvolveG (ieeeArith f tw) x y = .ok out ∧ out.length = x.length + y.length - 1 ∧
      ∀ r ∈ out, r.val.NonFinite := by
  obtain ⟨b1, b2, b3⟩ := clog_bounds hx hy hs
  have e := fftConvolveG_eq (A := ieeeArith f tw) hx hy hs (fun i => x.getD i 0) (fun i => y.getD i 0)
  rw [← list_eq_vec 0 rfl, ← list_eq_vec 0 rfl] at e
  refine ⟨_, e, length_vec .., fun r hr => ?_⟩
  obtain ⟨k, hk, rfl⟩ := List.mem_map.1 hr
  refine fcOut_nonFinite (by omega) (by omega) ?_ (lt_of_lt_of_le (List.mem_range.1 hk) b3)
  have key : ∀ {w : List (IR f)} {z}, z ∈ w → z.val.NonFinite → ∃ i < w.length, (w.getD i 0).val.NonFinite := by
    intro w z hz h0
    obtain ⟨i, hi, rfl⟩ := List.getElem_of_mem hz
    exact ⟨i, hi, by rw [List.getD_eq_getElem _ _ hi]; exact h0⟩
  obtain ⟨z, hz, h0⟩ := h
  rcases List.mem_append.1 hz with hz | hz
  · exact Or.inl (key hz h0)
  · exact Or.inr (key hz h0)

/-- **C104** (`fft_convolve`, `std::complex`).  The two complex types give the same samples, or, where they differ,
neither gives a finite one; and if one result is finite throughout, the other is the same. -/
theorem C104_fft_std (tw : ℕ → ℕ → Direction → IC f) (x y : List (IR f)) (hx : 2 ≤ x.length) (hy : 2 ≤ y.length)
    (hs : x.length + y.length - 1 ≤ 2 ^ 27) :
    ∃ out out', fftConvolveG (ieeeArith f tw) x y = .ok out ∧ fftConvolveG (stdArith f tw) x y = .ok out' ∧
      out.length = x.length + y.length - 1 ∧ out'.length = x.length + y.length - 1 ∧
      (∀ k, FVal.Agree (out.getD k 0).val (out'.getD k 0).val) ∧
      ((∀ r ∈ out, ¬ r.val.NonFinite) → out' = out) := by
  obtain ⟨b1, b2, b3⟩ := clog_bounds hx hy hs
  have e := fftConvolveG_eq (A := ieeeArith f tw) hx hy hs (fun i => x.getD i 0) (fun i => y.getD i 0)
  have e' := fftConvolveG_eq (A := stdArith f tw) hx hy hs (fun i => x.getD i 0) (fun i => y.getD i 0)
  rw [← list_eq_vec 0 rfl, ← list_eq_vec 0 rfl] at e e'
  have hN := half_lt b1
  have key : ∀ k < x.length + y.length - 1, SameR
      (fcOut (ieeeArith f tw) x.length y.length (Nat.clog 2 (x.length + y.length - 1)) (fun i => x.getD i 0) (fun i => y.getD i 0) k)
      (fcOut (stdArith f tw) x.length y.length (Nat.clog 2 (x.length + y.length - 1)) (fun i => x.getD i 0) (fun i => y.getD i 0) k) := fun k hk =>
    specOutG_rel (std_rel tw) (fun j hj => (std_rel tw).mul _ _ _ _ (rfftGn_rel (std_rel tw) _ (by omega))
      (rfftGn_rel (std_rel tw) _ (by omega))) (by omega)
  refine ⟨_, _, e, e', length_vec .., length_vec .., fun k => ?_, fun hfin => vec_ext fun k hk => ?_⟩
  · by_cases hk : k < x.length + y.length - 1
    · rw [getD_vec _ _ _ _ hk, getD_vec _ _ _ _ hk]
      exact key k hk
    · rw [List.getD_eq_default _ _ (by rw [length_vec]; omega), List.getD_eq_default _ _ (by rw [length_vec]; omega)]
      exact Or.inl rfl
  · rcases key k hk with h | h
    · exact (IR.ext h).symm
    · exact absurd h.1 (hfin _ (List.mem_map.2 ⟨k, List.mem_range.2 hk, rfl⟩))

section any
variable {R C : Type} [Zero R] [Add R] [Mul R] [Zero C] [AddCommMagma C] [Sub C] [Mul C] {A : Arith R C}

/-- **C104** (`fft_convolver`, no memory).  Any number of calls of one `fft_convolver`, with any operands, infinities and
NaN included, and whatever the output buffers hold: each call gives what a fresh `fft_convolve` gives.  In any arithmetic
with commutative addition of complex numbers. -/
theorem C104_fft_no_memory {n l : ℕ} (hn : 2 ≤ n) (hl : 2 ≤ l) (hs : n + l - 1 ≤ 2 ^ 27) :
    ∃ c, FftConvolverG.make A n l = .ok c ∧
      ∀ calls : List (List R × List R × List R),
        (∀ c ∈ calls, c.1.length = n ∧ c.2.1.length = l ∧ c.2.2.length = n + l - 1) →
        ∃ outs, c.run calls = .ok outs ∧ calls.map (fun c => fftConvolveG A c.1 c.2.1) = outs.map .ok := by
  obtain ⟨b1, b2, b3⟩ := clog_bounds hn hl hs
  refine ⟨_, fftConvolverG_make_eq (by omega) (by omega) b2, fun calls hc =>
    ⟨_, fftConvolverG_run (by omega) (by omega) b1 b3 calls hc _ _ _ _, ?_⟩⟩
  rw [List.map_map]
  refine List.map_congr_left fun c h => ?_
  obtain ⟨h1, h2, -⟩ := hc c h
  have e := fftConvolveG_eq (A := A) hn hl hs (fun i => c.1.getD i 0) (fun i => c.2.1.getD i 0)
  rw [← list_eq_vec 0 h1, ← list_eq_vec 0 h2] at e
  exact e

/-- **C104** (`fft_convolve`, order of the operands).  Exchanging signal and patch does not change a bit of the result, if
multiplication of complex numbers is commutative, as it is in `neo::scalar_complex` and in `std::complex`. -/
theorem C104_fft_swap (hm : ∀ z w : C, z * w = w * z) (x y : List R) (hx : 2 ≤ x.length) (hy : 2 ≤ y.length)
    (hs : x.length + y.length - 1 ≤ 2 ^ 27) : fftConvolveG A x y = fftConvolveG A y x := by
  have e := fftConvolveG_eq (A := A) hx hy hs (fun i => x.getD i 0) (fun i => y.getD i 0)
  have e' := fftConvolveG_eq (A := A) hy hx (by omega) (fun i => y.getD i 0) (fun i => x.getD i 0)
  rw [← list_eq_vec 0 rfl, ← list_eq_vec 0 rfl] at e e'
  rw [e, e', Nat.add_comm y.length x.length]
  refine congrArg Except.ok (vec_ext fun k _ => ?_)
  unfold fcOut
  refine congrArg (fun Y => specOutG A _ Y k) (funext fun j => hm _ _)

end any

example (z w : IC f) : z * w = w * z := IC.mul_comm' z w
example (z w : SC f) : z * w = w * z := SC.mul_comm' z w

/-! ## `direct_convolve` -/

section direct
variable {R : Type} [Zero R] [Add R] [Mul R]

private theorem direct_eq (x y : List R) (hx : x ≠ []) (hy : y ≠ []) :
    directConvolve x y = .ok (vec (x.length + y.length - 1) (fun k =>
      if y.length ≤ x.length then accum (fun m => x.getD m 0 * y.getD (k - m) 0) 0 (dLo y.length k) (dCnt x.length y.length k)
      else accum (fun m => y.getD m 0 * x.getD (k - m) 0) 0 (dLo x.length k) (dCnt y.length x.length k))) := by
  have e := directConvolve_fold (fun i => x.getD i 0) (fun i => y.getD i 0) (List.length_pos_of_ne_nil hx)
    (List.length_pos_of_ne_nil hy)
  rwa [← list_eq_vec 0 rfl, ← list_eq_vec 0 rfl] at e

/-- **C104** (`direct_convolve`, what a sample reads).  In any arithmetic whatever, output sample `k` is determined by
the samples `x i` with `k < i + l` and `i ≤ k` and, likewise, the samples `y j` with `k < j + n` and `j ≤ k`. -/
theorem C104_direct_reads (x y x' y' : List R) (hx : x ≠ []) (hy : y ≠ []) (hx' : x'.length = x.length)
    (hy' : y'.length = y.length) :
    ∃ out out', directConvolve x y = .ok out ∧ directConvolve x' y' = .ok out' ∧
      out.length = x.length + y.length - 1 ∧ out'.length = x.length + y.length - 1 ∧
      ∀ k < x.length + y.length - 1, (∀ i ≤ k, k < i + y.length → x'.getD i 0 = x.getD i 0) →
        (∀ j ≤ k, k < j + x.length → y'.getD j 0 = y.getD j 0) → out'.getD k 0 = out.getD k 0 := by
  have n1 := List.length_pos_of_ne_nil hx
  have n2 := List.length_pos_of_ne_nil hy
  have e' := direct_eq x' y' (List.ne_nil_of_length_pos (by omega)) (List.ne_nil_of_length_pos (by omega))
  rw [hx', hy'] at e'
  refine ⟨_, _, direct_eq x y hx hy, e', length_vec .., length_vec .., fun k hk h1 h2 => ?_⟩
  rw [getD_vec _ _ _ _ hk, getD_vec _ _ _ _ hk]
  split
  · refine accum_congr' _ fun m m1 m2 => ?_
    unfold dCnt dLo at *
    rw [h1 m (by omega) (by omega), h2 (k - m) (by omega) (by omega)]
  · refine accum_congr' _ fun m m1 m2 => ?_
    unfold dCnt dLo at *
    rw [h1 (k - m) (by omega) (by omega), h2 m (by omega) (by omega)]

/-- **C104** (`direct_convolve`, order of the operands).  In any arithmetic: operands of different lengths may be exchanged
without changing a bit. -/
theorem C104_direct_swap (x y : List R) (h : x.length ≠ y.length) : directConvolve x y = directConvolve y x := by
  unfold directConvolve directConvolveInto outputSizeFull
  rw [Nat.add_comm y.length x.length]
  by_cases c : x.length + y.length = 0
  · rw [if_pos c, if_pos c]
  · rw [if_neg c, if_neg c]
    simp only [Nat.add_comm y.length x.length]
    by_cases c2 : y.length ≤ x.length
    · rw [if_pos c2, if_neg (by omega)]
    · rw [if_neg c2, if_pos (by omega)]

end direct

section tie
private theorem r_int (m : ℤ) (k : ℤ) (hm : |m| < 2 ^ 24) (hk : -149 ≤ k) (hk2 : k ≤ 100) :
    binary32.round (.fin (m * (2 : ℝ) ^ k)) = .fin (m * (2 : ℝ) ^ k) := by
  apply round_mem ⟨m, k, hm, hk, rfl⟩
  rw [abs_mul, abs_of_pos (two_zpow_pos k)]
  have h1 : |(m : ℝ)| < 2 ^ 24 := by exact_mod_cast hm
  calc |(m : ℝ)| * (2 : ℝ) ^ k < 2 ^ 24 * (2 : ℝ) ^ k := mul_lt_mul_of_pos_right h1 (two_zpow_pos k)
    _ = (2 : ℝ) ^ (24 + k) := by rw [zpow_add₀ (by norm_num)]; norm_num
    _ ≤ (2 : ℝ) ^ (128 : ℤ) := zpow_le_zpow_right₀ (by norm_num) (by omega)

private theorem r0 : binary32.round (.fin 0) = .fin 0 := by
  have := r_int 0 0 (by norm_num) (by norm_num) (by norm_num); simpa using this
private theorem r2 : binary32.round (.fin 2) = .fin 2 := by
  have := r_int 2 0 (by norm_num) (by norm_num) (by norm_num); simpa using this
private theorem r4 : binary32.round (.fin 4) = .fin 4 := by
  have := r_int 4 0 (by norm_num) (by norm_num) (by norm_num); simpa using this
private theorem r25 : binary32.round (.fin 33554432) = .fin 33554432 := by
  have := r_int 1 25 (by norm_num) (by norm_num) (by norm_num); norm_num at this; exact this
private theorem r254 : binary32.round (.fin 33554436) = .fin 33554436 := by
  have := r_int 8388609 2 (by norm_num) (by norm_num) (by norm_num); norm_num at this; exact this
/-- Half way between two numbers of the format, the even one below. -/
private theorem rtie : binary32.round (.fin 33554434) = .fin 33554432 := by
  have hl : Int.log 2 |(33554434 : ℝ)| = 25 := by
    rw [abs_of_pos (by norm_num)]
    have : (33554434 : ℝ) = ((33554434 : ℕ) : ℝ) := by norm_num
    rw [this, Int.log_natCast]
    decide +kernel
  have he : binary32.ulpExp 33554434 = 2 := by
    unfold Fmt.ulpExp
    rw [hl]
    decide +kernel
  have hr : rne (33554434 * (2 : ℝ) ^ (-(2 : ℤ))) = 8388608 := by
    have e : (33554434 : ℝ) * (2 : ℝ) ^ (-(2 : ℤ)) = ((8388608 : ℤ) : ℝ) + 1 / 2 := by norm_num
    have hf : ⌊((8388608 : ℤ) : ℝ) + 1 / 2⌋ = 8388608 := by
      rw [Int.floor_eq_iff]; norm_num
    have hfr : Int.fract (((8388608 : ℤ) : ℝ) + 1 / 2) = 1 / 2 := by
      unfold Int.fract; rw [hf]; ring
    rw [e]
    unfold rne
    rw [hfr, if_neg (lt_irrefl _), if_neg (lt_irrefl _), hf, if_pos (by decide)]
  have h : binary32.rndInf 33554434 = 33554432 := by
    unfold Fmt.rndInf
    rw [he, hr]
    norm_num
  have hlt : |binary32.rndInf 33554434| < (2 : ℝ) ^ binary32.emax := by
    rw [h]
    have : (2 : ℝ) ^ (26 : ℤ) ≤ (2 : ℝ) ^ (128 : ℤ) := zpow_le_zpow_right₀ (by norm_num) (by norm_num)
    refine lt_of_lt_of_le ?_ this
    norm_num [abs_of_pos]
  rw [round_fin_of_lt hlt, h]


/-- **C104** (the lengths must differ).  In binary32, `direct_convolve` of two operands of three samples each depends on
their order. -/
theorem C104_direct_order : ∃ x y out out' : List (IR binary32), x.length = y.length ∧
    directConvolve x y = .ok out ∧ directConvolve y x = .ok out' ∧
    out.getD 2 0 = ⟨.fin 33554432⟩ ∧ out'.getD 2 0 = ⟨.fin 33554436⟩ := by
  have hadd : ∀ a b : ℝ, (⟨.fin a⟩ : IR binary32) + ⟨.fin b⟩ = ⟨binary32.round (.fin (a + b))⟩ := fun _ _ => rfl
  have hmul : ∀ a b : ℝ, (⟨.fin a⟩ : IR binary32) * ⟨.fin b⟩ = ⟨binary32.round (.fin (a * b))⟩ := fun _ _ => rfl
  have h0 : (0 : IR binary32) = ⟨.fin 0⟩ := rfl
  refine ⟨[⟨.fin 33554432⟩, ⟨.fin 2⟩, ⟨.fin 2⟩], [⟨.fin 1⟩, ⟨.fin 1⟩, ⟨.fin 1⟩], _, _, rfl,
    direct_eq _ _ (List.cons_ne_nil _ _) (List.cons_ne_nil _ _), direct_eq _ _ (List.cons_ne_nil _ _) (List.cons_ne_nil _ _),
    ?_, ?_⟩
  · show ((0 + (⟨.fin 33554432⟩ : IR binary32) * ⟨.fin 1⟩) + ⟨.fin 2⟩ * ⟨.fin 1⟩) + ⟨.fin 2⟩ * ⟨.fin 1⟩ = _
    rw [h0]
    norm_num [hadd, hmul, r2, r25, rtie]
  · show ((0 + (⟨.fin 1⟩ : IR binary32) * ⟨.fin 2⟩) + ⟨.fin 1⟩ * ⟨.fin 2⟩) + ⟨.fin 1⟩ * ⟨.fin 33554432⟩ = _
    rw [h0]
    norm_num [hadd, hmul, r2, r4, r25, r254]

end tie

/-- **C104** (`direct_convolve`, infinities and NaN).  An infinite or NaN sample `x i` makes the output samples `i` to
`i + l - 1`, in which it takes part, non-finite, and likewise for `y`; by `C104_direct_reads` the others do not depend on
it. -/
theorem C104_direct_nonfinite (x y : List (IR f)) (hx : x ≠ []) (hy : y ≠ []) :
    ∃ out, directConvolve x y = .ok out ∧ out.length = x.length + y.length - 1 ∧
      (∀ i < x.length, (x.getD i 0).val.NonFinite → ∀ j < y.length, (out.getD (i + j) 0).val.NonFinite) ∧
      (∀ j < y.length, (y.getD j 0).val.NonFinite → ∀ i < x.length, (out.getD (i + j) 0).val.NonFinite) := by
  have key : ∀ i < x.length, ∀ j < y.length, (x.getD i 0).val.NonFinite ∨ (y.getD j 0).val.NonFinite →
      ((vec (x.length + y.length - 1) (fun k =>
        if y.length ≤ x.length then
          accum (fun m => x.getD m 0 * y.getD (k - m) 0) 0 (dLo y.length k) (dCnt x.length y.length k)
        else accum (fun m => y.getD m 0 * x.getD (k - m) 0) 0 (dLo x.length k) (dCnt y.length x.length k))).getD (i + j)
          0).val.NonFinite := by
    intro i hi j hj h
    rw [getD_vec _ _ _ _ (by omega)]
    split
    · refine accum_nonFinite (m := i) _ (by unfold dLo; omega) (by unfold dCnt dLo; omega) ?_
      rw [Nat.add_sub_cancel_left]
      exact Fmt.round_nonFinite (h.elim (fun h => FVal.mul_nonFinite_left h _) (fun h => FVal.mul_nonFinite_right h _))
    · refine accum_nonFinite (m := j) _ (by unfold dLo; omega) (by unfold dCnt dLo; omega) ?_
      rw [Nat.add_sub_cancel_right]
      exact Fmt.round_nonFinite (h.elim (fun h => FVal.mul_nonFinite_right h _) (fun h => FVal.mul_nonFinite_left h _))
  exact ⟨_, direct_eq x y hx hy, length_vec .., fun i hi h j hj => key i hi j hj (Or.inl h),
    fun j hj h i hi => key i hi j hj (Or.inr h)⟩

private theorem window_near (hf : f.Ieee) {n l k : ℕ} (hl : 1 ≤ l) (hln : l ≤ n) (hk : k < n + l - 1) (a b : ℕ → ℝ)
    (ha : ∀ i, n ≤ i → a i = 0) (hb : ∀ i, l ≤ i → b i = 0)
    (ho : (1 + f.u) ^ (l + 1) * (Spec.conv (fun i => |a i|) (fun i => |b i|) k + l * f.minNormal) < (2 : ℝ) ^ f.emax) :
    NearR (accum (fun m => (sample (a m) : IR f) * sample (b (k - m))) 0 (dLo l k) (dCnt n l k))
      (Spec.conv a b k) (Spec.conv (fun i => |a i|) (fun i => |b i|) k + l * f.minNormal) ((1 + f.u) ^ (l + 1)) := by
  have hu := u_pos f
  have hν := minNormal_pos f
  set c := dCnt n l k with hc
  have hcl : c ≤ l := dCnt_le
  have hc1 : 1 ≤ c := by rw [hc]; unfold dCnt dLo; omega
  have hcR : (1 : ℝ) ≤ c := by exact_mod_cast hc1
  -- the underflow allowance is spread over the terms
  set η := l * f.minNormal / c with hη
  have hη1 : f.minNormal ≤ η := by
    rw [hη, le_div_iff₀ (by linarith), mul_comm]
    exact mul_le_mul_of_nonneg_right (by exact_mod_cast hcl) hν.le
  have hsum : ∑ s ∈ Ico (dLo l k) (dLo l k + c), (|a s| * |b (k - s)| + η)
      = Spec.conv (fun i => |a i|) (fun i => |b i|) k + l * f.minNormal := by
    rw [sum_add_distrib, sum_const, Nat.card_Ico, Nat.add_sub_cancel_left, nsmul_eq_mul, hη,
      mul_div_cancel₀ _ (by linarith : (c : ℝ) ≠ 0), hc,
      conv_window hl hln hk (fun i => |a i|) (fun i => |b i|) (fun i hi => by simp only [ha i hi, abs_zero])
        (fun i hi => by simp only [hb i hi, abs_zero])]
  have hterm : ∀ s, 0 ≤ |a s| * |b (k - s)| + η := fun s => by
    have : 0 ≤ |a s| * |b (k - s)| := by positivity
    linarith
  have hg : (1 + f.u) * (1 + f.u) ^ c ≤ (1 + f.u) ^ (l + 1) := by
    rw [← pow_succ']
    exact pow_le_pow_right₀ (by linarith) (by omega)
  have hT : 0 ≤ Spec.conv (fun i => |a i|) (fun i => |b i|) k + l * f.minNormal := by
    rw [← hsum]
    exact sum_nonneg fun s _ => hterm s
  have ho' : (1 + f.u) * (1 + f.u) ^ c * ∑ s ∈ Ico (dLo l k) (dLo l k + c), (|a s| * |b (k - s)| + η)
      < (2 : ℝ) ^ f.emax := by
    rw [hsum]
    exact lt_of_le_of_lt (mul_le_mul_of_nonneg_right hg hT) ho
  have h := accumR_near hf (by linarith : 1 ≤ 1 + f.u)
    (g := fun m => (sample (a m) : IR f) * sample (b (k - m))) (G := fun m => a m * b (k - m))
    (m := fun s => |a s| * |b (k - s)| + η) (lo := dLo l k) (N := c)
    (fun s s1 s2 => NearR.prod hf _ _ hη1 (lt_of_le_of_lt (mul_le_mul
      (le_mul_of_one_le_right (by linarith) (one_le_pow₀ (by linarith)))
      (single_le_sum (f := fun s => |a s| * |b (k - s)| + η) (fun s _ => hterm s) (mem_Ico.2 ⟨s1, s2⟩)) (hterm s)
      (by positivity)) ho'))
    (fun s _ _ => by
      have : 0 ≤ |a s| * |b (k - s)| := by positivity
      linarith) ho' c le_rfl
  rw [hsum, hc, conv_window hl hln hk a b ha hb, ← hc] at h
  exact h.mono hg

/-- **C104** (`direct_convolve`, accuracy).  Finite samples in the IEEE format `f`.  Whatever happens in the other samples:
if in sample `k` the sum of the magnitudes of the products, with an underflow allowance, stays below the overflow threshold,
the sample is finite and within `((1 + u)^(m + 1) - 1)` times this sum of the exact value, where `m` is the length of the
shorter operand. -/
theorem C104_direct (hf : f.Ieee) (x y : List ℝ) (hx : x ≠ []) (hy : y ≠ []) {m : ℕ} (hm : m = min x.length y.length) :
    ∃ out : List (IR f), directConvolve (x.map sample) (y.map sample) = .ok out ∧
      out.length = x.length + y.length - 1 ∧
      ∀ k < x.length + y.length - 1, ∀ S : ℝ,
        S = Spec.conv (fun i => |x.getD i 0|) (fun i => |y.getD i 0|) k + m * f.minNormal →
        (1 + f.u) ^ (m + 1) * S < (2 : ℝ) ^ f.emax →
        ∃ r : ℝ, out.getD k 0 = sample r ∧
          |r - Spec.conv (fun i => x.getD i 0) (fun i => y.getD i 0) k| ≤ ((1 + f.u) ^ (m + 1) - 1) * S := by
  have e := direct_eq (x.map (sample (f := f))) (y.map sample) (by simpa using hx) (by simpa using hy)
  rw [List.length_map, List.length_map] at e
  refine ⟨_, e, length_vec .., fun k hk S hS ho => ?_⟩
  rw [getD_vec _ _ _ _ hk]
  have n1 := List.length_pos_of_ne_nil hx
  have n2 := List.length_pos_of_ne_nil hy
  have d : ∀ (z : List ℝ) (i : ℕ), z.length ≤ i → z.getD i 0 = 0 := fun z i h => List.getD_eq_default _ _ h
  simp only [getD_map_sample]
  split
  · rename_i c
    rw [hm, min_eq_right c] at hS ho ⊢
    have h := window_near hf n2 c hk (fun i => x.getD i 0) (fun i => y.getD i 0) (d x) (d y) (hS ▸ ho)
    rw [hS]
    exact ⟨_, near_val h⟩
  · rename_i c
    rw [hm, min_eq_left (by omega)] at hS ho ⊢
    rw [conv_comm] at hS
    have h := window_near hf n1 (by omega) (by omega) (fun i => y.getD i 0) (fun i => x.getD i 0) (d y) (d x) (hS ▸ ho)
    rw [hS, conv_comm (fun i => x.getD i 0)]
    exact ⟨_, near_val h⟩

/-! ## The hypotheses can be met -/

/-- Operands of three samples each in binary32: transforms of 8 points. -/
example : let x : List ℝ := [1, 2, 3]
    let y : List ℝ := [1, -1, 1 / 2]
    2 ≤ x.length ∧ 2 ≤ y.length ∧ x.length + y.length - 1 ≤ 2 ^ 27 ∧ 3 = Nat.clog 2 (x.length + y.length - 1) ∧
      ((3 : ℕ) : ℤ) < binary32.emax ∧ (27 * (3 : ℕ) + 7) * binary32.u ≤ 1 / 2 ∧
      ∑ i ∈ range x.length, |x.getD i 0| + 2 ^ 3 * binary32.minNormal ≤ 7 ∧
      ∑ i ∈ range y.length, |y.getD i 0| + 2 ^ 3 * binary32.minNormal ≤ 4 ∧ binary32.minNormal ≤ 7 * 4 ∧
      2 * (2 ^ 3 * (7 * 4)) < (2 : ℝ) ^ binary32.emax := by
  have hu : binary32.u ≤ 1 / 2 ^ 20 := by
    show (2 : ℝ) ^ (-(24 : ℤ)) ≤ _
    norm_num
  have hm : binary32.minNormal ≤ 1 / 8 := by
    show (2 : ℝ) ^ (-126 : ℤ) ≤ _
    calc (2 : ℝ) ^ (-126 : ℤ) ≤ (2 : ℝ) ^ (-3 : ℤ) := zpow_le_zpow_right₀ (by norm_num) (by norm_num)
      _ = 1 / 8 := by norm_num
  have he : (2 : ℝ) ^ (10 : ℤ) ≤ (2 : ℝ) ^ binary32.emax := zpow_le_zpow_right₀ (by norm_num) (by decide)
  refine ⟨by decide, by decide, by norm_num, ?_, by decide, ?_, ?_, ?_, by linarith, ?_⟩
  · decide
  · push_cast; linarith
  · norm_num [sum_range_succ]; linarith
  · norm_num [sum_range_succ, abs_of_pos]; linarith
  · norm_num at he ⊢; linarith

/-- A NaN as the last sample of the patch. -/
example : ∃ z ∈ ([⟨.fin 1⟩, ⟨.fin 2⟩] ++ [⟨.fin 1⟩, ⟨.nan⟩] : List (IR binary32)), z.val.NonFinite :=
  ⟨⟨.nan⟩, by simp, fun _ h => by cases h⟩

/-- The bound of `C104_direct` is met by small operands. -/
example : (1 + binary32.u) ^ (2 + 1) * (Spec.conv (fun i => |([1, 2] : List ℝ).getD i 0|)
    (fun i => |([3, 4] : List ℝ).getD i 0|) 1 + (2 : ℕ) * binary32.minNormal) < (2 : ℝ) ^ binary32.emax := by
  have hu : binary32.u ≤ 1 := by
    show (2 : ℝ) ^ (-(24 : ℤ)) ≤ _
    norm_num
  have hu0 := u_pos binary32
  have hm : binary32.minNormal ≤ 1 := by
    show (2 : ℝ) ^ (-126 : ℤ) ≤ 1
    exact zpow_le_one_of_nonpos₀ (by norm_num) (by norm_num)
  have hm0 := minNormal_pos binary32
  have he : (2 : ℝ) ^ (10 : ℤ) ≤ (2 : ℝ) ^ binary32.emax := zpow_le_zpow_right₀ (by norm_num) (by decide)
  have hc : Spec.conv (fun i => |([1, 2] : List ℝ).getD i 0|) (fun i => |([3, 4] : List ℝ).getD i 0|) 1 = 10 := by
    norm_num [Spec.conv, sum_range_succ]
  rw [hc]
  have h3 : (1 + binary32.u) ^ (2 + 1) ≤ 2 ^ 3 := pow_le_pow_left₀ (by linarith) (by linarith) 3
  have : (1 + binary32.u) ^ (2 + 1) * (10 + (2 : ℕ) * binary32.minNormal) ≤ 2 ^ 3 * (10 + 2) :=
    mul_le_mul h3 (by push_cast; linarith) (by positivity) (by norm_num)
  norm_num at he this ⊢
  linarith

end Neo.Props
