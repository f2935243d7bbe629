import Verif.Props.TwiddleIeee
import Verif.Props.OneShot
import Verif.Props.StdComplex

/-! # C117: convolution with the tables the code computes, in IEEE 754 arithmetic -/

namespace Neo.Props

open Neo Spec Finset

variable {f : Fmt}

private theorem conv_growth (f : Fmt) (b N : ℕ) (h : (159 * b + 2 * N + 7) * f.u ≤ 1 / 2) :
    1 ≤ convGrowth f (44 * f.u + 3 / 2 * f.u) b N ∧
      convGrowth f (44 * f.u + 3 / 2 * f.u) b N ≤ 1 + 2 * ((159 * b + 2 * N + 7) * f.u) := by
  have hu := u_pos f
  have hε : 0 ≤ 44 * f.u + 3 / 2 * f.u := by positivity
  refine ⟨(one_le_fft hε b).trans (fft_le_conv hε b N).1, ?_⟩
  have h1 : fftGrowth f (44 * f.u + 3 / 2 * f.u) b ≤ Real.exp (b * (53 * f.u)) := by
    unfold fftGrowth
    rw [Real.exp_nat_mul]
    apply pow_le_pow_left₀ (by positivity)
    rw [show 53 * f.u = 46 * f.u + 5 * f.u + 2 * f.u by ring, Real.exp_add, Real.exp_add]
    have := le_exp (46 * f.u)
    gcongr
    · linarith
    · exact le_exp _
    · exact le_exp _
  have h2 : convGrowth f (44 * f.u + 3 / 2 * f.u) b N ≤ Real.exp ((159 * b + 2 * N + 7) * f.u) := by
    unfold convGrowth
    rw [show (159 * b + 2 * N + 7) * f.u = (3 : ℕ) * (b * (53 * f.u)) + (2 : ℕ) * f.u + 5 * f.u + N * (2 * f.u) by
      push_cast; ring, Real.exp_add, Real.exp_add, Real.exp_add, Real.exp_nat_mul, Real.exp_nat_mul _ 2,
      Real.exp_nat_mul _ N]
    have h0 : 0 ≤ fftGrowth f (44 * f.u + 3 / 2 * f.u) b := by linarith [one_le_fft (f := f) hε b]
    gcongr <;> exact le_exp _
  have := exp_le (t := (159 * (b : ℝ) + 2 * N + 7) * f.u) (by positivity) h
  linarith

private theorem finite_sample (outs : List (List ℝ)) :
    ∀ b ∈ outs.map (·.map (sample : ℝ → IR f)), ∀ y ∈ b, ¬ y.val.NonFinite := by
  intro b hb y hy
  obtain ⟨b', -, rfl⟩ := List.mem_map.1 hb
  obtain ⟨x, -, rfl⟩ := List.mem_map.1 hy
  exact fun h => h x rfl

private theorem size_ok {b : ℕ} (hbe : (b : ℤ) + 4 ≤ f.emax) : 16 * (((2 ^ b : ℕ) : ℝ)) ≤ (2 : ℝ) ^ f.emax := by
  have : (2 : ℝ) ^ ((b : ℤ) + 4) ≤ (2 : ℝ) ^ f.emax := zpow_le_zpow_right₀ (by norm_num) hbe
  rw [zpow_add₀ (by norm_num), zpow_natCast] at this
  push_cast
  norm_num at this ⊢
  linarith

/-- **C117** (streaming).  The whole chain as the code runs it, with tables from `twiddle`: `uniform_partition` of an impulse
response into blocks of `B = 2^a` samples, then `upols_convolver` or `upola_convolver` over any number of blocks of samples of
magnitude at most `X ≥ 1`.  With the library's cosine and sine within one unit roundoff, `(159 (a + 1) + 2 N + 7) u ≤ 1/2` for
`N` partitions, and `2 · 2B X` and `2 (2B)² X L` below the overflow threshold, where `L` bounds the sum of the magnitudes of
the impulse response plus `2B N` times the least normal number: both convolvers give only finite samples, those of overlap-save
within `2 (159 (a + 1) + 2 N + 7) u · 2B X L` and those of overlap-add within twice that, with 8 instead of 7, of the
convolution.  The same with `neo::scalar_complex` and with `std::complex`; the outputs of the two are equal. -/
theorem C117_stream (hw : TwiddleFmt f) {cos sin : FVal → FVal} (hc : CosOk f cos f.u) (hs : SinOk f sin f.u) {a : ℕ}
    (ha : 1 ≤ a) (ha2 : a ≤ 26) (hbe : ((a + 1 : ℕ) : ℤ) + 4 ≤ f.emax) (v : MatView) (data : List ℝ)
    (hv : v.InRange data.length) (hS : 1 ≤ v.cols) (hS2 : v.cols < 2 ^ 64)
    (hsz : v.rows * ((v.cols - 1) / 2 ^ a + 1) * (2 ^ a + 1) < 2 ^ 59) {N : ℕ} (hN : N = (v.cols - 1) / 2 ^ a + 1)
    (hE : (159 * (a + 1 : ℕ) + 2 * N + 7) * f.u ≤ 1 / 2) {X L : ℝ} (hX : 1 ≤ X)
    (hL : ∀ c < v.rows, ∑ i ∈ range v.cols, |chanAt v data c i| + N * (2 ^ (a + 1) * f.minNormal) ≤ L)
    (ho1 : 2 * (2 ^ (a + 1) * X) < (2 : ℝ) ^ f.emax) (ho : 2 * (4 ^ (a + 1) * (X * L)) < (2 : ℝ) ^ f.emax) :
    ∃ bins part part',
      uniformPartitionG (ieeeArith f (twiddleI f cos sin)) (sample 1) v (data.map sample) (2 ^ a) = .ok (N, bins, part) ∧
      uniformPartitionG (stdArith f (twiddleI f cos sin)) (sample 1) v (data.map sample) (2 ^ a) = .ok (N, bins, part') ∧
      ∀ c < v.rows, ∀ blocks : List (List ℝ), (∀ b ∈ blocks, b.length = 2 ^ a) → (∀ b ∈ blocks, ∀ s ∈ b, |s| ≤ X) →
        (∃ outs : List (List ℝ),
          upolsRunG (ieeeArith f (twiddleI f cos sin)) (partitionView N bins c) part (blocks.map (·.map sample))
            = .ok (outs.map (·.map sample)) ∧
          upolsRunG (stdArith f (twiddleI f cos sin)) (partitionView N bins c) part' (blocks.map (·.map sample))
            = .ok (outs.map (·.map sample)) ∧
          outs.map List.length = blocks.map List.length ∧
          ∀ n < blocks.flatten.length,
            |outs.flatten.getD n 0 - Spec.conv (chanAt v data c) (fun i => blocks.flatten.getD i 0) n|
              ≤ 2 * ((159 * (a + 1 : ℕ) + 2 * N + 7) * f.u) * (2 ^ (a + 1) * (X * L))) ∧
        ∃ outs : List (List ℝ),
          upolaRunG (ieeeArith f (twiddleI f cos sin)) (partitionView N bins c) part (blocks.map (·.map sample))
            = .ok (outs.map (·.map sample)) ∧
          upolaRunG (stdArith f (twiddleI f cos sin)) (partitionView N bins c) part' (blocks.map (·.map sample))
            = .ok (outs.map (·.map sample)) ∧
          outs.map List.length = blocks.map List.length ∧
          ∀ n < blocks.flatten.length,
            |outs.flatten.getD n 0 - Spec.conv (chanAt v data c) (fun i => blocks.flatten.getD i 0) n|
              ≤ 4 * ((159 * (a + 1 : ℕ) + 2 * N + 8) * f.u) * (2 ^ (a + 1) * (X * L)) := by
  have hf := hw.1
  have hu := u_pos f
  have hν := minNormal_pos f
  have hν1 := minNormal_le_one hf
  obtain ⟨g1, g2⟩ := conv_growth f (a + 1) N hE
  have htw := (C113_tables hw hc hs (N := 2 ^ (a + 1)) Nat.one_le_two_pow (size_ok hbe)).2
  obtain ⟨bins, part, part', e, e', hall⟩ := C101_partitioned (twiddleI f cos sin) ha ha2 (sample 1) v (data.map sample)
    (by rw [List.length_map]; exact hv) hS hS2 hsz hN
  refine ⟨bins, part, part', e, e', ?_⟩
  by_cases hr : v.rows = 0
  · intro c hc
    omega
  have hL0 : 0 ≤ L := by
    refine le_trans ?_ (hL 0 (by omega))
    have : 0 ≤ ∑ i ∈ range v.cols, |chanAt v data 0 i| := sum_nonneg fun _ _ => abs_nonneg _
    positivity
  set E := (159 * ((a + 1 : ℕ) : ℝ) + 2 * N + 7) * f.u with hEd
  set Γ := convGrowth f (44 * f.u + 3 / 2 * f.u) (a + 1) N with hΓ
  have hΓ2 : Γ ≤ 2 := by linarith
  have h4 : (1 : ℝ) ≤ 4 ^ (a + 1) := one_le_pow₀ (by norm_num)
  have hE8 : (159 * ((a + 1 : ℕ) : ℝ) + 2 * N + 8) * f.u = E + f.u := by rw [hEd]; ring
  have hE0 : 0 ≤ E := by positivity
  have hXL : 0 ≤ X * L := mul_nonneg (by linarith) hL0
  have o1 : Γ * (2 ^ (a + 1) * X) < (2 : ℝ) ^ f.emax :=
    lt_of_le_of_lt (mul_le_mul_of_nonneg_right hΓ2 (mul_nonneg (by positivity) (by linarith))) ho1
  have o3 : Γ * (4 ^ (a + 1) * (X * L)) < (2 : ℝ) ^ f.emax :=
    lt_of_le_of_lt (mul_le_mul_of_nonneg_right hΓ2 (by positivity)) ho
  have o2 : Γ * L < (2 : ℝ) ^ f.emax :=
    lt_of_le_of_lt (mul_le_mul_of_nonneg_left ((le_mul_of_one_le_left hL0 hX).trans (le_mul_of_one_le_left hXL h4))
      (by linarith)) o3
  have hmin : f.minNormal ≤ X * f.minNormal := le_mul_of_one_le_left hν.le hX
  obtain ⟨_, _, e1, hs1⟩ := C96_upols hf ha ha2 (by omega) htw v data hv hS hS2 hsz hN (X := X)
      (η := f.minNormal) (hν1.trans hX) le_rfl hmin hL o1 o2 o3
  obtain ⟨_, _, e2, hs2⟩ := C96_upola hf ha ha2 (by omega) htw v data hv hS hS2 hsz hN (X := X)
      (η := f.minNormal) (hν1.trans hX) le_rfl hmin hL o1 o2 o3
  rw [e] at e1 e2
  obtain ⟨-, rfl, rfl⟩ : N = N ∧ _ ∧ _ := by simpa using e1
  obtain ⟨-, rfl, rfl⟩ : N = N ∧ _ ∧ _ := by simpa using e2
  intro c hc blocks hb hx
  obtain ⟨ha', hs'⟩ := hall c hc (blocks.map (·.map sample)) (by
    intro b hb'
    obtain ⟨b', h1, rfl⟩ := List.mem_map.1 hb'
    rw [List.length_map]
    exact hb b' h1)
  constructor
  · obtain ⟨outs, w1, w2, w3⟩ := hs1 c hc blocks hb hx
    obtain ⟨o, o', r1, r2, -, -, -, r6⟩ := hs'
    rw [w1] at r1
    injection r1 with r1
    subst r1
    refine ⟨outs, w1, by rw [r2, r6 (finite_sample outs)], w2, fun n hn => (w3 n hn).trans ?_⟩
    rw [← mul_assoc ((2 : ℝ) ^ (a + 1))]
    exact mul_le_mul_of_nonneg_right (by linarith) (by positivity)
  · obtain ⟨outs, w1, w2, w3⟩ := hs2 c hc blocks hb hx
    obtain ⟨o, o', r1, r2, -, -, -, r6⟩ := ha'
    rw [w1] at r1
    injection r1 with r1
    subst r1
    refine ⟨outs, w1, by rw [r2, r6 (finite_sample outs)], w2, fun n hn => (w3 n hn).trans ?_⟩
    rw [hE8, ← mul_assoc ((2 : ℝ) ^ (a + 1)), ← mul_assoc]
    refine mul_le_mul_of_nonneg_right ?_ (by positivity)
    have : Γ * (1 + f.u) ≤ (1 + 2 * E) * (1 + f.u) := mul_le_mul_of_nonneg_right g2 (by linarith)
    nlinarith

/-- **C117** (`fft_convolve`).  With the tables of the code, the library's cosine and sine within one unit roundoff, operands of
at least two samples, `X` and `Y` bounds of the sums of their magnitudes plus `2^b` times the least normal number for
transforms of `2^b` points: if `(159 b + 7) u ≤ 1/2` and `2 X`, `2 Y` and `2 · 2^b X Y` are below the overflow threshold, all
samples of the result are finite and within `2 (159 b + 7) u X Y` of the convolution, the same with both complex types. -/
theorem C117_fft_convolve (hw : TwiddleFmt f) {cos sin : FVal → FVal} (hc : CosOk f cos f.u) (hs : SinOk f sin f.u)
    (x y : List ℝ) (hx : 2 ≤ x.length) (hy : 2 ≤ y.length) (hl : x.length + y.length - 1 ≤ 2 ^ 27) {b : ℕ}
    (hb : b = Nat.clog 2 (x.length + y.length - 1)) (hbe : (b : ℤ) + 4 ≤ f.emax) (hE : (159 * b + 7) * f.u ≤ 1 / 2) {X Y : ℝ}
    (hX : ∑ i ∈ range x.length, |x.getD i 0| + 2 ^ b * f.minNormal ≤ X)
    (hY : ∑ i ∈ range y.length, |y.getD i 0| + 2 ^ b * f.minNormal ≤ Y) (hXY : f.minNormal ≤ X * Y)
    (o1 : 2 * X < (2 : ℝ) ^ f.emax) (o2 : 2 * Y < (2 : ℝ) ^ f.emax) (o3 : 2 * (2 ^ b * (X * Y)) < (2 : ℝ) ^ f.emax) :
    ∃ out : List ℝ,
      fftConvolveG (ieeeArith f (twiddleI f cos sin)) (x.map sample) (y.map sample) = .ok (out.map sample) ∧
      fftConvolveG (stdArith f (twiddleI f cos sin)) (x.map sample) (y.map sample) = .ok (out.map sample) ∧
      out.length = x.length + y.length - 1 ∧
      ∀ k < x.length + y.length - 1,
        |out.getD k 0 - Spec.conv (fun i => x.getD i 0) (fun i => y.getD i 0) k| ≤ 2 * ((159 * b + 7) * f.u) * (X * Y) := by
  have hf := hw.1
  have hu := u_pos f
  have hν := minNormal_pos f
  have htw := (C113_tables hw hc hs (N := 2 ^ b) Nat.one_le_two_pow (size_ok hbe)).2
  have pos : ∀ (z : List ℝ) {Z : ℝ}, ∑ i ∈ range z.length, |z.getD i 0| + 2 ^ b * f.minNormal ≤ Z → 0 < Z := fun z Z h => by
    have h1 : 0 ≤ ∑ i ∈ range z.length, |z.getD i 0| := sum_nonneg fun _ _ => abs_nonneg _
    have : 0 < 2 ^ b * f.minNormal := by positivity
    linarith
  have hX0 := pos x hX
  have hY0 := pos y hY
  have hG : oneShotGrowth f (44 * f.u + 3 / 2 * f.u) b ≤ 1 + 2 * ((159 * b + 7) * f.u) := by
    have h := (conv_growth f b 0 (by push_cast; linarith)).2
    refine le_trans ?_ (le_trans h (le_of_eq (by push_cast; ring)))
    have e : convGrowth f (44 * f.u + 3 / 2 * f.u) b 0 = oneShotGrowth f (44 * f.u + 3 / 2 * f.u) b * (1 + f.u) := by
      unfold convGrowth oneShotGrowth; ring
    rw [e]
    exact le_mul_of_one_le_right (by unfold oneShotGrowth fftGrowth; positivity) (by linarith)
  have hG2 : oneShotGrowth f (44 * f.u + 3 / 2 * f.u) b ≤ 2 := by linarith
  obtain ⟨out, h1, h2, h3⟩ := C104_fft_convolve hf x y hx hy hl hb (by omega) htw hX hY hXY
    (lt_of_le_of_lt (mul_le_mul_of_nonneg_right hG2 hX0.le) o1) (lt_of_le_of_lt (mul_le_mul_of_nonneg_right hG2 hY0.le) o2)
    (lt_of_le_of_lt (mul_le_mul_of_nonneg_right hG2 (by positivity)) o3)
  obtain ⟨o, o', r1, r2, -, -, -, r6⟩ := C104_fft_std (twiddleI f cos sin) (x.map sample) (y.map sample)
    (by rw [List.length_map]; exact hx) (by rw [List.length_map]; exact hy)
    (by rw [List.length_map, List.length_map]; exact hl)
  rw [h1] at r1
  injection r1 with r1
  subst r1
  refine ⟨out, h1, ?_, h2, fun k hk => (h3 k hk).trans
    (mul_le_mul_of_nonneg_right (by linarith) (mul_pos hX0 hY0).le)⟩
  rw [r2, r6]
  intro r hr
  obtain ⟨z, -, rfl⟩ := List.mem_map.1 hr
  exact fun h => h z rfl

/-- In single precision: any impulse response of one channel and 65536 samples whose magnitudes add to at most one, in blocks of
512 samples (128 partitions), any number of blocks of samples in `[-1, 1]`, tables of the code with correctly rounded cosine and
sine.  Both convolvers succeed, and each sample of overlap-save is within 0.3 of the convolution: the bound does not grow with
the number of blocks. -/
example (data : List ℝ) (hd : data.length = 65536)
    (h1 : ∑ i ∈ range 65536, |chanAt (MatView.right 1 65536) data 0 i| ≤ 1) (blocks : List (List ℝ))
    (hb : ∀ b ∈ blocks, b.length = 2 ^ 9) (hx : ∀ b ∈ blocks, ∀ s ∈ b, |s| ≤ 1) : ∃ bins part,
      uniformPartitionG (stdArith binary32 (twiddleI binary32 (cosR binary32) (sinR binary32))) (sample 1)
        (MatView.right 1 65536) (data.map sample) (2 ^ 9) = .ok (128, bins, part) ∧
      ∃ outs : List (List ℝ), upolsRunG (stdArith binary32 (twiddleI binary32 (cosR binary32) (sinR binary32)))
        (partitionView 128 bins 0) part (blocks.map (·.map sample)) = .ok (outs.map (·.map sample)) ∧
      ∀ n < blocks.flatten.length, |outs.flatten.getD n 0
        - Spec.conv (chanAt (MatView.right 1 65536) data 0) (fun i => blocks.flatten.getD i 0) n| ≤ 0.3 := by
  have hf : binary32.Ieee := by unfold Fmt.Ieee binary32; norm_num
  have hu : binary32.u = 1 / 2 ^ 24 := by
    show (2 : ℝ) ^ (-((24 : ℕ) : ℤ)) = _
    norm_num
  have hν : binary32.minNormal ≤ 1 / 2 ^ 100 := by
    show (2 : ℝ) ^ ((-149 : ℤ) + ((24 : ℕ) : ℤ) - 1) ≤ _
    norm_num
  have hm : (2 : ℝ) ^ 30 ≤ (2 : ℝ) ^ binary32.emax := by
    rw [← zpow_natCast]
    exact zpow_le_zpow_right₀ (by norm_num) (by norm_num [binary32])
  have hν2 : ((128 : ℕ) : ℝ) * (2 ^ (9 + 1) * binary32.minNormal) ≤ 0.0001 :=
    (mul_le_mul_of_nonneg_left (mul_le_mul_of_nonneg_left hν (by norm_num)) (by norm_num)).trans (by norm_num)
  have h28 : (2 : ℝ) * (4 ^ (9 + 1) * (1 * 1.0001)) < 2 ^ 30 := by norm_num
  have h27 : (2 : ℝ) * (2 ^ (9 + 1) * 1) < 2 ^ 30 := by norm_num
  obtain ⟨bins, part, part', -, e', hall⟩ := C117_stream (f := binary32)
    ⟨hf, by norm_num [binary32], by norm_num [binary32]⟩ (cosR_ok hf) (sinR_ok hf) (a := 9) (by norm_num) (by norm_num)
    (by norm_num [binary32]) (MatView.right 1 65536) data (by
      intro r hr c hc
      have h1 : r < 1 := hr
      have h2 : c < 65536 := hc
      rw [hd]
      show 0 + r * 65536 + c * 1 < 65536
      omega) (by show 1 ≤ 65536; norm_num) (by show 65536 < 2 ^ 64; norm_num)
    (by show 1 * ((65536 - 1) / 2 ^ 9 + 1) * (2 ^ 9 + 1) < 2 ^ 59; norm_num) (N := 128)
    (by show 128 = (65536 - 1) / 2 ^ 9 + 1; norm_num) (by rw [hu]; norm_num) (X := 1) (L := 1.0001) le_rfl (by
      intro c hc
      have : c < 1 := hc
      obtain rfl : c = 0 := by omega
      exact (add_le_add h1 hν2).trans (by norm_num)) (h27.trans_le hm) (h28.trans_le hm)
  obtain ⟨⟨outs, -, w1, -, w2⟩, -⟩ := hall 0 (by show 0 < 1; norm_num) blocks hb hx
  refine ⟨bins, part', e', outs, w1, fun n hn => (w2 n hn).trans ?_⟩
  rw [hu]
  norm_num

end Neo.Props
