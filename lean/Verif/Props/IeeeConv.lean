import Verif.Lemmas.IeeeConv
import Mathlib.Data.List.GetD

/-! # C96: overflow, underflow and accuracy of the partitioned convolvers in IEEE 754 arithmetic -/

namespace Neo.Props

open Neo Spec Finset

variable {f : Fmt}

/-- A finite sample. -/
def sample (x : ℝ) : IR f := ⟨.fin x⟩

/-- The entries of the twiddle tables of size `N` are finite and within `ε` of `exp(∓2πik/N)`. -/
def TwAccurate (tw : ℕ → ℕ → Direction → IC f) (N : ℕ) (ε : ℝ) : Prop :=
  ∀ dir : Direction, ∀ k < N / 2, ∃ c s : ℝ, tw N k dir = ⟨.fin c, .fin s⟩ ∧
    ‖(⟨c, s⟩ : ℂ) - Complex.exp ((if dir = .forward then -1 else 1) * (2 * Real.pi * Complex.I * k / N))‖ ≤ ε

/-- Error growth of a transform of size `2 ^ b`: one complex product and one complex sum for every stage, and the errors of
the twiddles. -/
noncomputable def fftGrowth (f : Fmt) (ε : ℝ) (b : ℕ) : ℝ := ((1 + ε) * (1 + 5 * f.u) * (1 + 2 * f.u)) ^ b

/-- Error growth of a partitioned convolution with `N` partitions: the transforms of the filter, the input and the output,
the window, the products, the `N` sums and the scaling. -/
noncomputable def convGrowth (f : Fmt) (ε : ℝ) (b N : ℕ) : ℝ :=
  fftGrowth f ε b ^ 3 * (1 + f.u) ^ 2 * (1 + 5 * f.u) * (1 + 2 * f.u) ^ N

theorem growth_eq (ε : ℝ) (b : ℕ) : f.stageGrowth (1 + ε) ^ b = fftGrowth f ε b := rfl

private theorem two_pow_pred {b : ℕ} (hb : 1 ≤ b) : 2 ^ b / 2 = 2 ^ (b - 1) := by
  obtain ⟨c, rfl⟩ : ∃ c, b = c + 1 := ⟨b - 1, by omega⟩
  rw [pow_succ, Nat.add_sub_cancel]
  omega

theorem tw_near {tw : ℕ → ℕ → Direction → IC f} {b : ℕ} (hb : 1 ≤ b) {ε : ℝ} (h : TwAccurate tw (2 ^ b) ε) :
    TwNear tw b (1 + ε) := by
  intro dir i hi
  obtain ⟨c, s, e, k⟩ := h dir i (by rwa [two_pow_pred hb])
  refine ⟨c, s, e, by rw [norm_pow, norm_root, one_pow], ?_⟩
  rw [root_pow_eq, add_sub_cancel_left, mul_one]
  exact k

theorem tw_nonneg {tw : ℕ → ℕ → Direction → IC f} {b : ℕ} (hb : 1 ≤ b) {ε : ℝ} (h : TwAccurate tw (2 ^ b) ε) :
    0 ≤ ε := by
  obtain ⟨c, s, -, k⟩ := h .forward 0 (by rw [two_pow_pred hb]; positivity)
  exact (norm_nonneg _).trans k

theorem near_sample {x X : ℝ} (h : |x| ≤ X) : NearR (sample x : IR f) x X 1 :=
  ⟨x, rfl, h, by rw [sub_self, abs_zero, sub_self, zero_mul]⟩

/-- Correctly rounded tables are accurate to two units. -/
theorem C96_tables (hf : f.Ieee) (N : ℕ) (θ : ℕ → Direction → ℝ)
    (hθ : ∀ k dir, θ k dir = (if dir = .forward then -1 else 1) * (2 * Real.pi * k / N)) :
    TwAccurate (fun _ k dir => (⟨f.round (.fin (Real.cos (θ k dir))), f.round (.fin (Real.sin (θ k dir)))⟩ : IC f)) N
      (2 * f.u) := by
  intro dir k _
  have hν : f.minNormal ≤ 1 := by
    unfold Fmt.minNormal
    rw [← zpow_zero (2 : ℝ)]
    exact zpow_le_zpow_right₀ (by norm_num) (by have := hf.2.2; have := hf.2.1; omega)
  have hov : (1 + f.u) * 1 < (2 : ℝ) ^ f.emax := by
    have h8 := u_le hf
    have : (2 : ℝ) ^ (3 : ℤ) ≤ (2 : ℝ) ^ f.emax := zpow_le_zpow_right₀ (by norm_num) hf.2.1
    norm_num at this
    linarith
  obtain ⟨c, ec, hc⟩ := round_ok hf (Real.abs_cos_le_one (θ k dir)) hν hov
  obtain ⟨s, es, hs⟩ := round_ok hf (Real.abs_sin_le_one (θ k dir)) hν hov
  refine ⟨c, s, by beta_reduce; rw [ec, es], ?_⟩
  have e : Complex.exp ((if dir = .forward then -1 else 1) * (2 * Real.pi * Complex.I * k / N))
      = ⟨Real.cos (θ k dir), Real.sin (θ k dir)⟩ := by
    have : ((if dir = .forward then -1 else 1) * (2 * Real.pi * Complex.I * k / N) : ℂ) = (θ k dir : ℂ) * Complex.I := by
      rw [hθ]
      split <;> push_cast <;> ring
    rw [this]
    apply Complex.ext
    · rw [Complex.exp_ofReal_mul_I_re]
    · rw [Complex.exp_ofReal_mul_I_im]
  rw [e]
  have := norm_le_of_parts_abs (z := (⟨c, s⟩ : ℂ) - ⟨Real.cos (θ k dir), Real.sin (θ k dir)⟩) (e := f.u * 1) hc hs
  have := u_pos f
  linarith

theorem nearC_val {z : IC f} {ζ : ℂ} {M γ : ℝ} (h : NearC z ζ M γ) :
    ∃ y : ℂ, z = ⟨.fin y.re, .fin y.im⟩ ∧ ‖y - ζ‖ ≤ (γ - 1) * M := by
  obtain ⟨a, b, e, -, k⟩ := h
  exact ⟨⟨a, b⟩, e, k⟩

theorem getD_map_sample (x : List ℝ) (n : ℕ) : (x.map (sample (f := f))).getD n 0 = sample (x.getD n 0) := by
  rw [List.getD_eq_getElem?_getD, List.getD_eq_getElem?_getD, List.getElem?_map]
  cases x[n]? <;> rfl

/-- **C96** (spectra).  The real transform of order `b` in the IEEE format `f`, with tables accurate to `ε`.  If the sum
`S = ∑ (|xₙ| + η)`, where `η` is at least the smallest normal number, stays below the overflow threshold after the growth
of the errors, then all computed bins are finite and within `(growth - 1) S` of the Fourier transform.  Nothing is assumed
about overflow or underflow of intermediate results. -/
theorem C96_rfft (hf : f.Ieee) {b : ℕ} (hb : 1 ≤ b) (hb2 : b ≤ 27) {tw : ℕ → ℕ → Direction → IC f} {ε : ℝ}
    (hw : TwAccurate tw (2 ^ b) ε) (x : List ℝ) (hx : x.length = 2 ^ b) {η : ℝ} (hη : f.minNormal ≤ η)
    (ho : fftGrowth f ε b * (∑ n ∈ range (2 ^ b), |x.getD n 0| + 2 ^ b * η) < (2 : ℝ) ^ f.emax) :
    ∃ (p p' : RfftPlanG (ieeeArith f tw)) (Y : List ℂ), RfftPlanG.make (ieeeArith f tw) b = .ok p ∧
      p.rfft (x.map sample) (List.replicate (2 ^ b / 2 + 1) 0) = .ok (p', Y.map fun z : ℂ => ⟨.fin z.re, .fin z.im⟩) ∧
      Y.length = 2 ^ b / 2 + 1 ∧
      ∀ k < 2 ^ b / 2 + 1, ‖Y.getD k 0 - Spec.dft (2 ^ b) (fun n => ((x.getD n 0 : ℝ) : ℂ)) k‖
        ≤ (fftGrowth f ε b - 1) * (∑ n ∈ range (2 ^ b), |x.getD n 0| + 2 ^ b * η) := by
  have hε := tw_nonneg hb hw
  have hν := minNormal_pos f
  have hS : ∑ i ∈ range (2 ^ b), (|x.getD i 0| + η) = ∑ n ∈ range (2 ^ b), |x.getD n 0| + 2 ^ b * η := by
    rw [sum_add_distrib, sum_const, card_range, nsmul_eq_mul]
    push_cast
    rfl
  have key := fun k (hk : k < 2 ^ b) => nearC_val (rfftGn_near hf hb (by linarith : 1 ≤ 1 + ε) (tw_near hb hw) le_rfl
    (x := fun n => (sample (x.getD n 0) : IR f)) (X := fun n => x.getD n 0) (m := fun n => |x.getD n 0| + η)
    (fun n _ => near_sample (by linarith)) (fun n _ => by linarith [abs_nonneg (x.getD n 0)])
    (by rw [hS, one_mul]; exact ho) hk)
  rw [hS, one_mul] at key
  choose! y hy1 hy2 using key
  have e1 : x.map (sample (f := f)) = vec (2 ^ b) (fun n => sample (x.getD n 0)) := by
    conv_lhs => rw [eq_vec_getD x 0, map_vec, hx]
  obtain ⟨f', er⟩ := rfftG_fn (A := ieeeArith f tw) hb le_rfl (fun _ => 0) (fun n => (sample (x.getD n 0) : IR f))
    (fun _ => 0)
  refine ⟨rfftPlanGOf (ieeeArith f tw) b (fun _ => 0), rfftPlanGOf (ieeeArith f tw) b f', vec (2 ^ b / 2 + 1) y, rfftPlanG_make_eq hb2, ?_, length_vec _ _, ?_⟩
  · have e2 : (List.replicate (2 ^ b / 2 + 1) 0 : List (IC f)) = vec (2 ^ b / 2 + 1) (fun _ => 0) := by
      unfold vec
      rw [List.map_const', List.length_range]
    rw [e1, e2, er, map_vec]
    refine congrArg Except.ok (Prod.ext rfl (vec_ext fun k hk => ?_))
    rw [if_pos hk, hy1 k (by have := half_lt hb; omega)]
  · intro k hk
    rw [getD_vec _ _ _ _ hk]
    exact hy2 k (by have := half_lt hb; omega)

/-- The hypotheses hold in binary16 for the samples 1, -2000, 1, 60000 and correctly rounded tables; the overflow threshold
of the format is 65536. -/
example : binary16.Ieee ∧
    fftGrowth binary16 (2 * binary16.u) 2 * (∑ n ∈ range (2 ^ 2), |[(1 : ℝ), -2000, 1, 60000].getD n 0|
      + 2 ^ 2 * binary16.minNormal) < (2 : ℝ) ^ binary16.emax ∧
    ∃ tw : ℕ → ℕ → Direction → IC binary16, TwAccurate tw (2 ^ 2) (2 * binary16.u) := by
  have hu : binary16.u = 1 / 2048 := by
    show (2 : ℝ) ^ (-((11 : ℕ) : ℤ)) = _
    norm_num
  have hν : binary16.minNormal = 1 / 16384 := by
    show (2 : ℝ) ^ ((-24 : ℤ) + ((11 : ℕ) : ℤ) - 1) = _
    norm_num
  have hm : (2 : ℝ) ^ binary16.emax = 65536 := by
    show (2 : ℝ) ^ (16 : ℤ) = _
    norm_num
  refine ⟨by unfold Fmt.Ieee binary16; norm_num, ?_,
    ⟨_, C96_tables (by unfold Fmt.Ieee binary16; norm_num) (2 ^ 2) _ (fun _ _ => rfl)⟩⟩
  unfold fftGrowth
  rw [hu, hν, hm]
  norm_num [sum_range_succ]

/-! ## The convolvers -/

theorem one_le_fft {ε : ℝ} (hε : 0 ≤ ε) (b : ℕ) : 1 ≤ fftGrowth f ε b :=
  one_le_pow₀ (one_le_growth (f := f) (by linarith : 1 ≤ 1 + ε))

theorem fft_le_conv {ε : ℝ} (hε : 0 ≤ ε) (b N : ℕ) :
    fftGrowth f ε b ≤ convGrowth f ε b N ∧ fftGrowth f ε b * (1 + f.u) ≤ convGrowth f ε b N ∧
      fftGrowth f ε b * ((1 + f.u) * fftGrowth f ε b) * (1 + 5 * f.u) * (1 + 2 * f.u) ^ N * fftGrowth f ε b
        ≤ convGrowth f ε b N := by
  have hu := u_pos f
  have hg := one_le_fft (f := f) hε b
  have hp : 1 ≤ (1 + 2 * f.u) ^ N := one_le_pow₀ (by linarith)
  set g := fftGrowth f ε b
  have e : convGrowth f ε b N = g * (1 + f.u) * (g * g * (1 + f.u) * (1 + 5 * f.u) * (1 + 2 * f.u) ^ N) := by
    unfold convGrowth
    ring
  have hgg : 1 ≤ g * g := one_le_mul_of_one_le_of_one_le hg hg
  have h1 : 1 ≤ g * g * (1 + f.u) * (1 + 5 * f.u) * (1 + 2 * f.u) ^ N :=
    one_le_mul_of_one_le_of_one_le (one_le_mul_of_one_le_of_one_le (one_le_mul_of_one_le_of_one_le hgg (by linarith))
      (by linarith)) hp
  have h2 : g * (1 + f.u) ≤ convGrowth f ε b N := by
    rw [e]
    exact le_mul_of_one_le_right (by nlinarith) h1
  refine ⟨le_trans (le_mul_of_one_le_right (by linarith) (by linarith)) h2, h2, ?_⟩
  have e2 : convGrowth f ε b N = g * ((1 + f.u) * g) * (1 + 5 * f.u) * (1 + 2 * f.u) ^ N * g * (1 + f.u) := by
    unfold convGrowth
    ring
  rw [e2]
  exact le_mul_of_one_le_right (by positivity) (by linarith)

/-- One output transform. -/
theorem spec_near (hf : f.Ieee) {a : ℕ} (hbe : ((a + 1 : ℕ) : ℤ) < f.emax) {tw : ℕ → ℕ → Direction → IC f} {ε : ℝ}
    (hw : TwAccurate tw (2 ^ (a + 1)) ε) {N : ℕ} {H : ℕ → ℕ → IC f} {H' : ℕ → ℕ → ℂ}
    {m : ℕ → ℝ} (hN : 1 ≤ N)
    (hH : ∀ j < N, ∀ k < 2 ^ a + 1, NearC (H j k) (H' j k) (m j) ((1 + f.u) * fftGrowth f ε (a + 1)))
    {win : ℕ → ℕ → IR f} {win' : ℕ → ℕ → ℝ} {X : ℝ} (hX : f.minNormal ≤ X)
    (hwin : ∀ t n, n < 2 ^ (a + 1) → NearR (win t n) (win' t n) X 1)
    (hm : ∀ j < N, f.minNormal ≤ X * m j)
    (o1 : convGrowth f ε (a + 1) N * (2 ^ (a + 1) * X) < (2 : ℝ) ^ f.emax)
    (o2 : convGrowth f ε (a + 1) N * (4 ^ (a + 1) * (X * ∑ j ∈ range N, m j)) < (2 : ℝ) ^ f.emax) (t : ℕ) {n : ℕ}
    (hn : n < 2 ^ (a + 1)) :
    NearR (specOutG (ieeeArith f tw) (a + 1) (macY N H (fun t => rfftGn (ieeeArith f tw) (a + 1) (win t)) t) n)
      (specOut (2 * 2 ^ a) (specY N H' (fun t => Spec.dft (2 * 2 ^ a) (fun n => (win' t n : ℂ))) t) n)
      (2 ^ (a + 1) * X * ∑ j ∈ range N, m j) (convGrowth f ε (a + 1) N) := by
  have hb : 1 ≤ a + 1 := by omega
  have hε := tw_nonneg hb hw
  have hu := u_pos f
  have hν := minNormal_pos f
  have hX0 : 0 < X := hν.trans_le hX
  obtain ⟨c1, c2, c3⟩ := fft_le_conv (f := f) hε (a + 1) N
  have hg := one_le_fft (f := f) hε (a + 1)
  set g := fftGrowth f ε (a + 1) with hgd
  have hC : 0 < convGrowth f ε (a + 1) N := by linarith
  have h2 : (1 : ℝ) ≤ 2 ^ (a + 1) := one_le_pow₀ (by norm_num)
  have hs : ∑ _i ∈ range (2 ^ (a + 1)), X = 2 ^ (a + 1) * X := by
    rw [sum_const, card_range, nsmul_eq_mul]
    push_cast
    rfl
  have e2 : 2 * 2 ^ a = 2 ^ (a + 1) := by rw [pow_succ]; ring
  rw [e2]
  have hspec : ∀ t k, k < 2 ^ a + 1 → NearC (rfftGn (ieeeArith f tw) (a + 1) (win t) k)
      (Spec.dft (2 ^ (a + 1)) (fun n => (win' t n : ℂ)) k) (2 ^ (a + 1) * X) g := by
    intro t k hk
    have k1 := rfftGn_near hf hb (by linarith : 1 ≤ 1 + ε) (tw_near hb hw) le_rfl (x := win t) (X := win' t)
      (m := fun _ => X) (hwin t) (fun _ _ => hX) (by
        rw [hs, one_mul, growth_eq, ← hgd]
        refine lt_of_le_of_lt (mul_le_mul_of_nonneg_right c1 (by positivity)) o1) (k := k)
        (by have := half_lt hb; rw [two_pow_half a] at this; omega)
    rwa [hs, one_mul, growth_eq, ← hgd] at k1
  have hmj : ∀ j < N, 0 < m j := fun j hj => by
    have := hν.trans_le (hm j hj)
    exact pos_of_mul_pos_right this hX0.le
  have hsum : 0 < ∑ j ∈ range N, m j := sum_pos (fun j hj => hmj j (mem_range.1 hj)) ⟨0, mem_range.2 hN⟩
  have hn' : ∀ j < N, f.minNormal ≤ 2 ^ (a + 1) * X * m j := fun j hj => by
    rw [mul_assoc]
    exact (hm j hj).trans (le_mul_of_one_le_left (mul_pos hX0 (hmj j hj)).le h2)
  set S := ∑ j ∈ range N, m j with hS
  have hMS : 0 < 2 ^ (a + 1) * X * S := by positivity
  have h4 : (4 : ℝ) ^ (a + 1) = 2 ^ (a + 1) * 2 ^ (a + 1) := by rw [← mul_pow]; norm_num
  rw [h4] at o2
  have hp : 1 ≤ (1 + 2 * f.u) ^ N := one_le_pow₀ (by linarith)
  have hκ : 1 ≤ (1 + f.u) * g := one_le_mul_of_one_le_of_one_le (by linarith) hg
  have hmac : ∀ k ≤ 2 ^ (a + 1) / 2, NearC (macY N H (fun t => rfftGn (ieeeArith f tw) (a + 1) (win t)) t k)
      (specY N H' (fun t => Spec.dft (2 ^ (a + 1)) (fun n => (win' t n : ℂ))) t k)
      (2 ^ (a + 1) * X * S) (g * ((1 + f.u) * g) * (1 + 5 * f.u) * (1 + 2 * f.u) ^ N) := by
    intro k hk
    have hk2 : 2 ^ (a + 1) / 2 + 1 = 2 ^ a + 1 := two_pow_half a
    refine macY_near hf hg hκ (fun t => hspec t k (by omega)) (fun j hj => hH j hj k (by omega)) (by positivity) hn' ?_ t
    refine lt_of_le_of_lt ?_ o2
    have q : g * ((1 + f.u) * g) * (1 + 5 * f.u) * (1 + 2 * f.u) ^ N ≤ convGrowth f ε (a + 1) N :=
      le_trans (le_mul_of_one_le_right (by positivity) hg) c3
    apply mul_le_mul q _ hMS.le hC.le
    rw [mul_assoc (2 ^ (a + 1)) (2 ^ (a + 1)), ← mul_assoc (2 ^ (a + 1)) X]
    exact le_mul_of_one_le_left hMS.le h2
  have hSn : f.minNormal ≤ 2 ^ (a + 1) * X * S := by
    refine (hn' 0 hN).trans (mul_le_mul_of_nonneg_left ?_ (by positivity))
    exact single_le_sum (f := m) (fun j hj => (hmj j (mem_range.1 hj)).le) (mem_range.2 hN)
  have k2 := specOutG_near hf hb hbe (by linarith : 1 ≤ 1 + ε) (tw_near hb hw)
    (one_le_mul_of_one_le_of_one_le (one_le_mul_of_one_le_of_one_le (one_le_mul_of_one_le_of_one_le hg hκ) (by linarith)) hp)
    hmac hSn (by
      rw [growth_eq, ← hgd]
      refine lt_of_le_of_lt ?_ o2
      rw [show (2 : ℝ) ^ (a + 1) * (2 ^ (a + 1) * X * S) = 2 ^ (a + 1) * 2 ^ (a + 1) * (X * S) by ring]
      exact mul_le_mul_of_nonneg_right c3 (by positivity)) hn
  rw [growth_eq, ← hgd] at k2
  refine k2.mono (le_of_eq ?_)
  unfold convGrowth
  rw [← hgd]
  ring

/-- The value of a finite sample. -/
noncomputable def toReal (z : IR f) : ℝ := match z.val with
  | .fin x => x
  | _ => 0

theorem near_val {z : IR f} {ζ M γ : ℝ} (h : NearR z ζ M γ) :
    z = sample (toReal z) ∧ |toReal z - ζ| ≤ (γ - 1) * M := by
  obtain ⟨a, rfl, -, k⟩ := h
  exact ⟨rfl, k⟩

theorem chanAt_sample (v : MatView) (data : List ℝ) (c : ℕ) :
    chanAtG v (data.map (sample (f := f))) c = fun i => sample (chanAt v data c i) := by
  funext i
  unfold chanAtG chanAt
  split
  · rw [getD_map_sample]
  · rfl

theorem seg_sample (B : ℕ) (x : ℕ → ℝ) (j n : ℕ) :
    seg B (fun i => (sample (x i) : IR f)) j n = sample (seg B x j n) := by
  unfold seg; split <;> rfl

theorem save_sample (B : ℕ) (x : ℕ → ℝ) (j n : ℕ) :
    saveWindow B (fun i => (sample (x i) : IR f)) j n = sample (saveWindow B x j n) := by
  unfold saveWindow
  split
  · split <;> rfl
  · rfl

private theorem sum_seg (a : ℕ) (h : ℕ → ℝ) (η : ℝ) (j : ℕ) :
    ∑ n ∈ range (2 ^ (a + 1)), (|seg (2 ^ a) h j n| + η) = ∑ n ∈ range (2 ^ a), |h (j * 2 ^ a + n)| + 2 ^ (a + 1) * η := by
  rw [sum_add_distrib, sum_const, card_range, nsmul_eq_mul]
  push_cast
  congr 1
  rw [← sum_subset (range_subset_range.2 (Nat.pow_le_pow_right (by norm_num) (Nat.le_succ a))) (fun i _ hi => by
    rw [mem_range] at hi
    rw [seg_zero (by omega), abs_zero])]
  refine sum_congr rfl fun i hi => ?_
  rw [seg_of_lt (mem_range.1 hi)]

private theorem sum_blocks (B : ℕ) (g : ℕ → ℝ) (N : ℕ) :
    ∑ j ∈ range N, ∑ n ∈ range B, g (j * B + n) = ∑ i ∈ range (N * B), g i := by
  induction N with
  | zero => simp
  | succ N ih => rw [sum_range_succ, ih, Nat.succ_mul, sum_range_add]

theorem chan_support {v : MatView} {data : List ℝ} {B c : ℕ} (hB : 1 ≤ B) :
    ∀ m, ((v.cols - 1) / B + 1) * B ≤ m → chanAt v data c m = 0 := by
  intro m hm
  unfold chanAt
  rw [if_neg]
  have h1 := Nat.div_add_mod (v.cols - 1) B
  have h2 := Nat.mod_lt (v.cols - 1) hB
  have h3 : ((v.cols - 1) / B + 1) * B = B * ((v.cols - 1) / B) + B := by ring
  omega

theorem sum_cols {v : MatView} {data : List ℝ} {B c : ℕ} (hB : 1 ≤ B) :
    ∑ i ∈ range (((v.cols - 1) / B + 1) * B), |chanAt v data c i| = ∑ i ∈ range v.cols, |chanAt v data c i| := by
  symm
  apply sum_subset (range_subset_range.2 _) (fun i _ hi => by
    rw [mem_range] at hi
    unfold chanAt
    rw [if_neg hi, abs_zero])
  have h1 := Nat.div_add_mod (v.cols - 1) B
  have h2 := Nat.mod_lt (v.cols - 1) hB
  have h3 : ((v.cols - 1) / B + 1) * B = B * ((v.cols - 1) / B) + B := by ring
  omega

/-- Magnitude of segment `j`. -/
noncomputable def segMag (a : ℕ) (h : ℕ → ℝ) (η : ℝ) (j : ℕ) : ℝ :=
  ∑ n ∈ range (2 ^ a), |h (j * 2 ^ a + n)| + 2 ^ (a + 1) * η

theorem segMag_ge {a : ℕ} {h : ℕ → ℝ} {η : ℝ} (hη : 0 ≤ η) (j : ℕ) : η ≤ segMag a h η j := by
  unfold segMag
  have h1 : 0 ≤ ∑ n ∈ range (2 ^ a), |h (j * 2 ^ a + n)| := sum_nonneg fun _ _ => abs_nonneg _
  have h2 : (1 : ℝ) ≤ 2 ^ (a + 1) := one_le_pow₀ (by norm_num)
  have := le_mul_of_one_le_left hη h2
  linarith

theorem sum_segMag (a : ℕ) (h : ℕ → ℝ) (η : ℝ) (N : ℕ) :
    ∑ j ∈ range N, segMag a h η j = ∑ i ∈ range (N * 2 ^ a), |h i| + N * (2 ^ (a + 1) * η) := by
  unfold segMag
  rw [sum_add_distrib, sum_blocks (2 ^ a) (fun i => |h i|), sum_const, card_range, nsmul_eq_mul]

/-- The partitioned impulse response. -/
theorem filter_near (hf : f.Ieee) {a : ℕ} {tw : ℕ → ℕ → Direction → IC f} {ε : ℝ}
    (hw : TwAccurate tw (2 ^ (a + 1)) ε) (h : ℕ → ℝ) {N : ℕ} {η : ℝ} (hη : f.minNormal ≤ η)
    (ho : convGrowth f ε (a + 1) N * (∑ j ∈ range N, segMag a h η j) < (2 : ℝ) ^ f.emax) {j : ℕ} (hj : j < N) {k : ℕ}
    (hk : k < 2 ^ a + 1) :
    NearC (rfftGn (ieeeArith f tw) (a + 1) (segG (sample 1) (2 ^ a) (fun i => sample (h i)) j) k)
      (Spec.dft (2 * 2 ^ a) (fun n => ((seg (2 ^ a) h j n : ℝ) : ℂ)) k) (segMag a h η j)
      ((1 + f.u) * fftGrowth f ε (a + 1)) := by
  have hb : 1 ≤ a + 1 := by omega
  have hε := tw_nonneg hb hw
  have hu := u_pos f
  have hν := minNormal_pos f
  obtain ⟨c1, c2, c3⟩ := fft_le_conv (f := f) hε (a + 1) N
  have hg := one_le_fft (f := f) hε (a + 1)
  have hm0 : ∀ j, 0 < segMag a h η j := fun j => lt_of_lt_of_le (by linarith) (segMag_ge (by linarith) j)
  have hmj : segMag a h η j ≤ ∑ j ∈ range N, segMag a h η j :=
    single_le_sum (f := segMag a h η) (fun j _ => (hm0 j).le) (mem_range.2 hj)
  have hov : (1 + f.u) * fftGrowth f ε (a + 1) * segMag a h η j < (2 : ℝ) ^ f.emax := by
    refine lt_of_le_of_lt (mul_le_mul ?_ hmj (hm0 j).le (by linarith)) ho
    rw [mul_comm]
    exact c2
  have e2 : 2 * 2 ^ a = 2 ^ (a + 1) := by rw [pow_succ]; ring
  have hs : ∀ n < 2 ^ (a + 1), NearR (segG (sample 1) (2 ^ a) (fun i => (sample (h i) : IR f)) j n)
      (seg (2 ^ a) h j n) (|seg (2 ^ a) h j n| + η) (1 + f.u) := by
    intro n hn
    unfold segG
    rw [seg_sample]
    have k1 : NearR (sample (seg (2 ^ a) h j n) : IR f) (seg (2 ^ a) h j n) (|seg (2 ^ a) h j n| + η) 1 :=
      near_sample (by linarith)
    have hle : |seg (2 ^ a) h j n| + η ≤ segMag a h η j := by
      unfold segMag
      rw [← sum_seg]
      exact single_le_sum (f := fun n => |seg (2 ^ a) h j n| + η)
        (fun i _ => by have := abs_nonneg (seg (2 ^ a) h j i); linarith) (mem_range.2 hn)
    have k2 := k1.scale hf le_rfl (c := 1) one_pos (by rw [mul_one]; linarith [abs_nonneg (seg (2 ^ a) h j n)]) (by
      rw [mul_one, one_mul]
      refine lt_of_le_of_lt ?_ hov
      refine mul_le_mul (le_mul_of_one_le_right (by linarith) hg) hle ?_ (by positivity)
      linarith [abs_nonneg (seg (2 ^ a) h j n)])
    rwa [mul_one, mul_one, one_mul] at k2
  have k3 := rfftGn_near hf hb (by linarith : 1 ≤ 1 + ε) (tw_near hb hw) (by linarith : 1 ≤ 1 + f.u) hs
    (fun n _ => by linarith [abs_nonneg (seg (2 ^ a) h j n)]) (by
      rw [sum_seg, growth_eq]
      exact hov) (k := k) (by have := half_lt hb; rw [two_pow_half a] at this; omega)
  rw [sum_seg, growth_eq] at k3
  rw [e2]
  exact k3

theorem blocks_near {a T : ℕ} {z : ℕ → ℕ → IR f} {y : ℕ → ℝ} {M γ : ℝ}
    (h : ∀ t i, i < 2 ^ a → NearR (z t i) (y (t * 2 ^ a + i)) M γ) :
    ∃ ys : List (List ℝ), vec T (fun t => vec (2 ^ a) (z t)) = ys.map (·.map sample) ∧
      ys.map List.length = List.replicate T (2 ^ a) ∧
      ∀ n < T * 2 ^ a, |ys.flatten.getD n 0 - y n| ≤ (γ - 1) * M := by
  have hB : 0 < 2 ^ a := by positivity
  have hd : ∀ t i, i < 2 ^ a → (t * 2 ^ a + i) / 2 ^ a = t ∧ (t * 2 ^ a + i) % 2 ^ a = i := by
    intro t i hi
    constructor
    · rw [mul_comm, Nat.mul_add_div hB, Nat.div_eq_of_lt hi, Nat.add_zero]
    · rw [mul_comm, Nat.mul_add_mod, Nat.mod_eq_of_lt hi]
  refine ⟨vec T (fun t => vec (2 ^ a) (fun i => toReal (z ((t * 2 ^ a + i) / 2 ^ a) ((t * 2 ^ a + i) % 2 ^ a)))), ?_, ?_, ?_⟩
  · rw [map_vec]
    refine vec_ext fun t _ => ?_
    rw [map_vec]
    refine vec_ext fun i hi => ?_
    rw [(hd t i hi).1, (hd t i hi).2]
    exact (near_val (h t i hi)).1
  · rw [map_vec]
    simp only [length_vec]
    unfold vec
    rw [List.map_const', List.length_range]
  · intro n hn
    rw [flatten_vec T (fun n => toReal (z (n / 2 ^ a) (n % 2 ^ a))), getD_vec _ _ _ _ hn]
    have k := (near_val (h (n / 2 ^ a) (n % 2 ^ a) (Nat.mod_lt _ hB))).2
    rwa [mul_comm, Nat.div_add_mod] at k

theorem flatten_sample (blocks : List (List ℝ)) :
    (fun i => (blocks.map (·.map (sample (f := f)))).flatten.getD i 0) = fun i => sample (blocks.flatten.getD i 0) := by
  funext i
  rw [← List.map_flatten, getD_map_sample]

theorem lengths_sample {B : ℕ} {blocks : List (List ℝ)} (h : ∀ b ∈ blocks, b.length = B) :
    ∀ b ∈ blocks.map (·.map (sample (f := f))), b.length = B := by
  intro b hb
  obtain ⟨b', hb', rfl⟩ := List.mem_map.1 hb
  rw [List.length_map, h b' hb']

theorem blocks_bounded {blocks : List (List ℝ)} {X : ℝ} (h0 : 0 ≤ X) (h : ∀ b ∈ blocks, ∀ s ∈ b, |s| ≤ X) (i : ℕ) :
    |blocks.flatten.getD i 0| ≤ X := by
  rw [List.getD_eq_getElem?_getD]
  rcases hg : blocks.flatten[i]? with _ | s
  · rw [Option.getD_none, abs_zero]
    exact h0
  · obtain ⟨b, hb1, hb2⟩ := List.mem_flatten.1 (List.mem_of_getElem? hg)
    exact h b hb1 s hb2

theorem replicate_lengths {B : ℕ} {blocks : List (List ℝ)} (h : ∀ b ∈ blocks, b.length = B) :
    List.replicate blocks.length B = blocks.map List.length := by
  symm
  rw [List.eq_replicate_iff]
  refine ⟨List.length_map _, fun n hn => ?_⟩
  obtain ⟨b, hb, rfl⟩ := List.mem_map.1 hn
  exact h b hb

theorem length_blocks {B : ℕ} {blocks : List (List ℝ)} (h : ∀ b ∈ blocks, b.length = B) :
    blocks.flatten.length = blocks.length * B := by
  conv_lhs => rw [blocks_eq_vec (0 : ℝ) blocks h, flatten_vec (g := fun i => blocks.flatten.getD i 0)]
  rw [length_vec]

/-- Overlap-save with any filter spectra near `H'`. -/
theorem ols_near (hf : f.Ieee) {a : ℕ} (hbe : ((a + 1 : ℕ) : ℤ) < f.emax) {tw : ℕ → ℕ → Direction → IC f} {ε : ℝ}
    (hw : TwAccurate tw (2 ^ (a + 1)) ε) {N : ℕ} {H : ℕ → ℕ → IC f} {H' : ℕ → ℕ → ℂ} {m : ℕ → ℝ} (hN : 1 ≤ N)
    (hH : ∀ j < N, ∀ k < 2 ^ a + 1, NearC (H j k) (H' j k) (m j) ((1 + f.u) * fftGrowth f ε (a + 1)))
    {x : ℕ → ℝ} {X : ℝ} (hX : f.minNormal ≤ X) (hx : ∀ i, |x i| ≤ X) (hm : ∀ j < N, f.minNormal ≤ X * m j)
    (o1 : convGrowth f ε (a + 1) N * (2 ^ (a + 1) * X) < (2 : ℝ) ^ f.emax)
    (o2 : convGrowth f ε (a + 1) N * (4 ^ (a + 1) * (X * ∑ j ∈ range N, m j)) < (2 : ℝ) ^ f.emax) (t : ℕ) {i : ℕ}
    (hi : i < 2 ^ a) :
    NearR (olsOutG (ieeeArith f tw) a (macY N H (winSpecG (ieeeArith f tw) a (saveWindow (2 ^ a)) (fun i => sample (x i)))) t i)
      (olsOut (2 ^ a) (specY N H' (winSpec (2 ^ a) (saveWindow (2 ^ a)) x)) t i)
      (2 ^ (a + 1) * X * ∑ j ∈ range N, m j) (convGrowth f ε (a + 1) N) := by
  have hX0 : 0 < X := (minNormal_pos f).trans_le hX
  unfold olsOutG olsOut
  refine spec_near hf hbe hw hN hH hX (fun t n _ => ?_) hm o1 o2 t (by rw [pow_succ]; omega)
  rw [save_sample]
  apply near_sample
  unfold saveWindow
  split
  · split
    · exact hx _
    · rw [abs_zero]; exact hX0.le
  · exact hx _

/-- Overlap-add with any filter spectra near `H'`. -/
theorem ola_near (hf : f.Ieee) {a : ℕ} (ha : 1 ≤ a) (hbe : ((a + 1 : ℕ) : ℤ) < f.emax) {tw : ℕ → ℕ → Direction → IC f} {ε : ℝ}
    (hw : TwAccurate tw (2 ^ (a + 1)) ε) {N : ℕ} {H : ℕ → ℕ → IC f} {H' : ℕ → ℕ → ℂ} {m : ℕ → ℝ} (hN : 1 ≤ N)
    (hH : ∀ j < N, ∀ k < 2 ^ a + 1, NearC (H j k) (H' j k) (m j) ((1 + f.u) * fftGrowth f ε (a + 1)))
    {x : ℕ → ℝ} {X : ℝ} (hX : f.minNormal ≤ X) (hx : ∀ i, |x i| ≤ X) (hm : ∀ j < N, f.minNormal ≤ X * m j)
    (o1 : convGrowth f ε (a + 1) N * (2 ^ (a + 1) * X) < (2 : ℝ) ^ f.emax)
    (o2 : convGrowth f ε (a + 1) N * (4 ^ (a + 1) * (X * ∑ j ∈ range N, m j)) < (2 : ℝ) ^ f.emax) (t : ℕ) {i : ℕ}
    (hi : i < 2 ^ a) :
    NearR (olaOutG (ieeeArith f tw) a (macY N H (winSpecG (ieeeArith f tw) a (seg (2 ^ a)) (fun i => sample (x i)))) t i)
      (olaOut (2 ^ a) (specY N H' (winSpec (2 ^ a) (seg (2 ^ a)) x)) t i)
      (2 ^ (a + 1) * X * ∑ j ∈ range N, m j + 2 ^ (a + 1) * X * ∑ j ∈ range N, m j)
      (convGrowth f ε (a + 1) N * (1 + f.u)) := by
  have hν := minNormal_pos f
  have hX0 : 0 < X := hν.trans_le hX
  have hu := u_pos f
  have hε := tw_nonneg (by omega : 1 ≤ a + 1) hw
  have hΓ : 1 ≤ convGrowth f ε (a + 1) N := (one_le_fft hε _).trans (fft_le_conv hε _ _).1
  have hmj : ∀ j < N, 0 < m j := fun j hj => pos_of_mul_pos_right (hν.trans_le (hm j hj)) hX0.le
  set S := ∑ j ∈ range N, m j with hSd
  have hSm : m 0 ≤ S := single_le_sum (f := m) (fun j hj => (hmj j (mem_range.1 hj)).le) (mem_range.2 hN)
  have hXS : f.minNormal ≤ X * S := (hm 0 hN).trans (mul_le_mul_of_nonneg_left hSm hX0.le)
  have hXS0 : 0 < X * S := hν.trans_le hXS
  have h4 : (4 : ℝ) ^ (a + 1) = 2 ^ (a + 1) * 2 ^ (a + 1) := by rw [← mul_pow]; norm_num
  have h22 : (4 : ℝ) ≤ 2 ^ (a + 1) := by
    calc (4 : ℝ) = 2 ^ 2 := by norm_num
      _ ≤ 2 ^ (a + 1) := pow_le_pow_right₀ (by norm_num) (by omega)
  have key : ∀ t n, n < 2 ^ (a + 1) → NearR (specOutG (ieeeArith f tw) (a + 1) (macY N H
      (winSpecG (ieeeArith f tw) a (seg (2 ^ a)) (fun i => sample (x i))) t) n)
      (specOut (2 * 2 ^ a) (specY N H' (winSpec (2 ^ a) (seg (2 ^ a)) x) t) n) (2 ^ (a + 1) * X * S)
      (convGrowth f ε (a + 1) N) := fun t n hn => by
    refine spec_near hf hbe hw hN hH hX (fun t n _ => ?_) hm o1 o2 t hn
    rw [seg_sample]
    apply near_sample
    unfold seg
    split
    · exact hx _
    · rw [abs_zero]; exact hX0.le
  have hMS : f.minNormal ≤ 2 ^ (a + 1) * X * S := by
    rw [mul_assoc]
    exact hXS.trans (le_mul_of_one_le_left hXS0.le (by linarith))
  unfold olaOutG olaOut
  refine NearR.add hf (key t i (by rw [pow_succ]; omega)) ?_ hΓ (by linarith) ?_
  · split
    · exact key (t - 1) _ (by rw [pow_succ]; omega)
    · exact NearR.zero (by linarith) hΓ
  · refine lt_of_le_of_lt ?_ o2
    rw [h4, mul_assoc]
    refine mul_le_mul_of_nonneg_left ?_ (by linarith)
    have q : (1 + f.u) * 2 ≤ 2 ^ (a + 1) := by linarith [u_le hf]
    calc (1 + f.u) * (2 ^ (a + 1) * X * S + 2 ^ (a + 1) * X * S)
        = (1 + f.u) * 2 * (2 ^ (a + 1) * (X * S)) := by ring
      _ ≤ 2 ^ (a + 1) * (2 ^ (a + 1) * (X * S)) := mul_le_mul_of_nonneg_right q (by positivity)
      _ = 2 ^ (a + 1) * 2 ^ (a + 1) * (X * S) := by ring

/-- **C96** (overlap-save).  An impulse response of finite samples is partitioned with `uniform_partition(h, B)`,
`B = 2 ^ a`, and loaded into a fresh `upols_convolver`; everything in the IEEE format `f`, with tables accurate to `ε`.
The input samples are at most `X`, the sums `∑ |hᵢ|` of the channels (plus an underflow allowance `η` for every bin) at
most `L`.  If the largest possible intermediate results, `2B X` (input spectra), `L` (filter spectra) and `(2B)² X L`
(unscaled inverse transforms), stay below the overflow threshold after the growth `Γ` of the errors, then for any number of
blocks every output sample is finite and within `(Γ - 1) 2B X L` of the exact convolution.  Nothing is assumed about
overflow, underflow or infinities of intermediate results, and the samples need not be normal numbers. -/
theorem C96_upols (hf : f.Ieee) {a : ℕ} (ha : 1 ≤ a) (ha2 : a ≤ 26) (hbe : ((a + 1 : ℕ) : ℤ) < f.emax)
    {tw : ℕ → ℕ → Direction → IC f} {ε : ℝ} (hw : TwAccurate tw (2 ^ (a + 1)) ε)
    (v : MatView) (data : List ℝ) (hv : v.InRange data.length) (hS : 1 ≤ v.cols) (hS2 : v.cols < 2 ^ 64)
    (hsz : v.rows * ((v.cols - 1) / 2 ^ a + 1) * (2 ^ a + 1) < 2 ^ 59)
    {N : ℕ} (hN : N = (v.cols - 1) / 2 ^ a + 1) {X η L : ℝ} (hX : f.minNormal ≤ X) (hη : f.minNormal ≤ η)
    (hXη : f.minNormal ≤ X * η)
    (hL : ∀ c < v.rows, ∑ i ∈ range v.cols, |chanAt v data c i| + N * (2 ^ (a + 1) * η) ≤ L)
    (o1 : convGrowth f ε (a + 1) N * (2 ^ (a + 1) * X) < (2 : ℝ) ^ f.emax)
    (o2 : convGrowth f ε (a + 1) N * L < (2 : ℝ) ^ f.emax)
    (o3 : convGrowth f ε (a + 1) N * (4 ^ (a + 1) * (X * L)) < (2 : ℝ) ^ f.emax) :
    ∃ bins part, uniformPartitionG (ieeeArith f tw) (sample 1) v (data.map sample) (2 ^ a) = .ok (N, bins, part) ∧
      ∀ c < v.rows, ∀ blocks : List (List ℝ), (∀ b ∈ blocks, b.length = 2 ^ a) → (∀ b ∈ blocks, ∀ s ∈ b, |s| ≤ X) →
        ∃ outs : List (List ℝ),
          upolsRunG (ieeeArith f tw) (partitionView N bins c) part (blocks.map (·.map sample))
            = .ok (outs.map (·.map sample)) ∧
          outs.map List.length = blocks.map List.length ∧
          ∀ n < blocks.flatten.length,
            |outs.flatten.getD n 0 - Spec.conv (chanAt v data c) (fun i => blocks.flatten.getD i 0) n|
              ≤ (convGrowth f ε (a + 1) N - 1) * (2 ^ (a + 1) * X * L) := by
  have hν := minNormal_pos f
  have hX0 : 0 < X := hν.trans_le hX
  have hη0 : 0 < η := hν.trans_le hη
  have hε := tw_nonneg (by omega : 1 ≤ a + 1) hw
  have hΓ : 1 ≤ convGrowth f ε (a + 1) N := (one_le_fft hε _).trans (fft_le_conv hε _ _).1
  have hcl : Nat.clog 2 (2 ^ a * 2) = a + 1 := by rw [← pow_succ, Nat.clog_pow 2 _ (by norm_num)]
  obtain ⟨part, e, hp⟩ := uniformPartitionG_eq (A := ieeeArith f tw) (one := sample 1) (data := data.map sample)
    (by rwa [List.length_map]) Nat.one_le_two_pow hcl (by omega) hS hS2 (by rw [two_pow_half]; exact hsz)
  rw [two_pow_half, ← hN] at e hp
  refine ⟨2 ^ a + 1, part, e, ?_⟩
  intro c hc blocks hb hx
  obtain ⟨hr, hd⟩ := hp c hc
  rw [chanAt_sample] at hd
  have hsum : ∑ j ∈ range N, segMag a (chanAt v data c) η j ≤ L := by
    rw [sum_segMag]
    refine le_trans (le_of_eq ?_) (hL c hc)
    rw [hN, sum_cols Nat.one_le_two_pow]
  have o2' := lt_of_le_of_lt (mul_le_mul_of_nonneg_left hsum (by linarith : 0 ≤ convGrowth f ε (a + 1) N)) o2
  rw [upolsRunG_eq (v := partitionView N (2 ^ a + 1) c) ha ha2 hr (by rw [hN]; exact Nat.le_add_left 1 _) rfl _
    (lengths_sample hb), List.length_map, flatten_sample]
  have hH : ∀ j < N, ∀ k < 2 ^ a + 1, NearC (matAt (partitionView N (2 ^ a + 1) c) part j k)
      (Spec.dft (2 * 2 ^ a) (fun n => ((seg (2 ^ a) (chanAt v data c) j n : ℝ) : ℂ)) k) (segMag a (chanAt v data c) η j)
      ((1 + f.u) * fftGrowth f ε (a + 1)) := fun j hj k hk => by
    rw [hd j hj k hk]
    exact filter_near hf hw (chanAt v data c) hη o2' hj hk
  obtain ⟨ys, ey, hl, hy⟩ := blocks_near (a := a) (T := blocks.length) (y := Spec.conv (chanAt v data c) (fun i => blocks.flatten.getD i 0))
    (z := olsOutG (ieeeArith f tw) a (macY N (matAt (partitionView N (2 ^ a + 1) c) part)
      (winSpecG (ieeeArith f tw) a (saveWindow (2 ^ a)) (fun i => sample (blocks.flatten.getD i 0)))))
    (M := 2 ^ (a + 1) * X * ∑ j ∈ range N, segMag a (chanAt v data c) η j) (γ := convGrowth f ε (a + 1) N)
    (fun t i hi => by
      rw [← ols_conv (N := N) (by rw [hN]; exact chan_support Nat.one_le_two_pow) _ t hi]
      refine ols_near hf hbe hw (by rw [hN]; exact Nat.le_add_left 1 _) hH hX (blocks_bounded hX0.le hx)
        (fun j _ => hXη.trans (mul_le_mul_of_nonneg_left (segMag_ge hη0.le j) hX0.le)) o1 ?_ t hi
      refine lt_of_le_of_lt ?_ o3
      gcongr)
  refine ⟨ys, by rw [← ey]; rfl, by rw [hl, replicate_lengths hb], ?_⟩
  intro n hn
  refine (hy n (by rwa [length_blocks hb] at hn)).trans ?_
  have : 0 ≤ convGrowth f ε (a + 1) N - 1 := by linarith
  gcongr

/-- **C96** (overlap-add): as for overlap-save; a block is the rounded sum of the first half of its own transform and the
second half of the previous one, which costs one more rounding and doubles the bound. -/
theorem C96_upola (hf : f.Ieee) {a : ℕ} (ha : 1 ≤ a) (ha2 : a ≤ 26) (hbe : ((a + 1 : ℕ) : ℤ) < f.emax)
    {tw : ℕ → ℕ → Direction → IC f} {ε : ℝ} (hw : TwAccurate tw (2 ^ (a + 1)) ε)
    (v : MatView) (data : List ℝ) (hv : v.InRange data.length) (hS : 1 ≤ v.cols) (hS2 : v.cols < 2 ^ 64)
    (hsz : v.rows * ((v.cols - 1) / 2 ^ a + 1) * (2 ^ a + 1) < 2 ^ 59)
    {N : ℕ} (hN : N = (v.cols - 1) / 2 ^ a + 1) {X η L : ℝ} (hX : f.minNormal ≤ X) (hη : f.minNormal ≤ η)
    (hXη : f.minNormal ≤ X * η)
    (hL : ∀ c < v.rows, ∑ i ∈ range v.cols, |chanAt v data c i| + N * (2 ^ (a + 1) * η) ≤ L)
    (o1 : convGrowth f ε (a + 1) N * (2 ^ (a + 1) * X) < (2 : ℝ) ^ f.emax)
    (o2 : convGrowth f ε (a + 1) N * L < (2 : ℝ) ^ f.emax)
    (o3 : convGrowth f ε (a + 1) N * (4 ^ (a + 1) * (X * L)) < (2 : ℝ) ^ f.emax) :
    ∃ bins part, uniformPartitionG (ieeeArith f tw) (sample 1) v (data.map sample) (2 ^ a) = .ok (N, bins, part) ∧
      ∀ c < v.rows, ∀ blocks : List (List ℝ), (∀ b ∈ blocks, b.length = 2 ^ a) → (∀ b ∈ blocks, ∀ s ∈ b, |s| ≤ X) →
        ∃ outs : List (List ℝ),
          upolaRunG (ieeeArith f tw) (partitionView N bins c) part (blocks.map (·.map sample))
            = .ok (outs.map (·.map sample)) ∧
          outs.map List.length = blocks.map List.length ∧
          ∀ n < blocks.flatten.length,
            |outs.flatten.getD n 0 - Spec.conv (chanAt v data c) (fun i => blocks.flatten.getD i 0) n|
              ≤ (convGrowth f ε (a + 1) N * (1 + f.u) - 1) * (2 * (2 ^ (a + 1) * X * L)) := by
  have hν := minNormal_pos f
  have hX0 : 0 < X := hν.trans_le hX
  have hη0 : 0 < η := hν.trans_le hη
  have hu := u_pos f
  have hε := tw_nonneg (by omega : 1 ≤ a + 1) hw
  have hΓ : 1 ≤ convGrowth f ε (a + 1) N := (one_le_fft hε _).trans (fft_le_conv hε _ _).1
  have hcl : Nat.clog 2 (2 ^ a * 2) = a + 1 := by rw [← pow_succ, Nat.clog_pow 2 _ (by norm_num)]
  obtain ⟨part, e, hp⟩ := uniformPartitionG_eq (A := ieeeArith f tw) (one := sample 1) (data := data.map sample)
    (by rwa [List.length_map]) Nat.one_le_two_pow hcl (by omega) hS hS2 (by rw [two_pow_half]; exact hsz)
  rw [two_pow_half, ← hN] at e hp
  refine ⟨2 ^ a + 1, part, e, ?_⟩
  intro c hc blocks hb hx
  obtain ⟨hr, hd⟩ := hp c hc
  rw [chanAt_sample] at hd
  have hsum : ∑ j ∈ range N, segMag a (chanAt v data c) η j ≤ L := by
    rw [sum_segMag]
    refine le_trans (le_of_eq ?_) (hL c hc)
    rw [hN, sum_cols Nat.one_le_two_pow]
  have o2' := lt_of_le_of_lt (mul_le_mul_of_nonneg_left hsum (by linarith : 0 ≤ convGrowth f ε (a + 1) N)) o2
  have hN1 : 1 ≤ N := by rw [hN]; exact Nat.le_add_left 1 _
  rw [upolaRunG_eq (v := partitionView N (2 ^ a + 1) c) ha ha2 hr hN1 rfl _
    (lengths_sample hb), List.length_map, flatten_sample]
  have hH : ∀ j < N, ∀ k < 2 ^ a + 1, NearC (matAt (partitionView N (2 ^ a + 1) c) part j k)
      (Spec.dft (2 * 2 ^ a) (fun n => ((seg (2 ^ a) (chanAt v data c) j n : ℝ) : ℂ)) k) (segMag a (chanAt v data c) η j)
      ((1 + f.u) * fftGrowth f ε (a + 1)) := fun j hj k hk => by
    rw [hd j hj k hk]
    exact filter_near hf hw (chanAt v data c) hη o2' hj hk
  set S := ∑ j ∈ range N, segMag a (chanAt v data c) η j with hSd
  have hm : ∀ j < N, f.minNormal ≤ X * segMag a (chanAt v data c) η j := fun j _ =>
    hXη.trans (mul_le_mul_of_nonneg_left (segMag_ge hη0.le j) hX0.le)
  have o3' : convGrowth f ε (a + 1) N * (4 ^ (a + 1) * (X * S)) < (2 : ℝ) ^ f.emax := by
    refine lt_of_le_of_lt ?_ o3
    gcongr
  obtain ⟨ys, ey, hl, hy⟩ := blocks_near (a := a) (T := blocks.length) (y := Spec.conv (chanAt v data c) (fun i => blocks.flatten.getD i 0))
    (z := olaOutG (ieeeArith f tw) a (macY N (matAt (partitionView N (2 ^ a + 1) c) part)
      (winSpecG (ieeeArith f tw) a (seg (2 ^ a)) (fun i => sample (blocks.flatten.getD i 0)))))
    (M := 2 ^ (a + 1) * X * S + 2 ^ (a + 1) * X * S) (γ := convGrowth f ε (a + 1) N * (1 + f.u))
    (fun t i hi => by
      rw [← ola_conv (N := N) (by rw [hN]; exact chan_support Nat.one_le_two_pow) _ t hi]
      exact ola_near hf ha hbe hw hN1 hH hX (blocks_bounded hX0.le hx) hm o1 o3' t hi)
  refine ⟨ys, by rw [← ey]; rfl, by rw [hl, replicate_lengths hb], ?_⟩
  intro n hn
  refine (hy n (by rwa [length_blocks hb] at hn)).trans ?_
  rw [← two_mul]
  have : 0 ≤ convGrowth f ε (a + 1) N * (1 + f.u) - 1 := by nlinarith
  gcongr

/-! ## Explicit constants -/

private theorem one_add_le_exp (x : ℝ) : 1 + x ≤ Real.exp x := by linarith [Real.add_one_le_exp x]

/-- **C96** (the growth).  With correctly rounded tables (`C96_tables`), `Γ ≤ 1 + 2 (27 b + 2 N + 7) u` for transforms of
`2 ^ b` points, `N` partitions and unit roundoff `u`, provided that `(27 b + 2 N + 7) u ≤ 1/2`. -/
theorem C96_growth (f : Fmt) (b N : ℕ) (h : (27 * b + 2 * N + 7) * f.u ≤ 1 / 2) :
    1 ≤ convGrowth f (2 * f.u) b N ∧ convGrowth f (2 * f.u) b N ≤ 1 + 2 * ((27 * b + 2 * N + 7) * f.u) := by
  have hu := u_pos f
  have hε : 0 ≤ 2 * f.u := by linarith
  refine ⟨(one_le_fft hε b).trans (fft_le_conv hε b N).1, ?_⟩
  have h1 : fftGrowth f (2 * f.u) b ≤ Real.exp (b * (9 * f.u)) := by
    unfold fftGrowth
    rw [Real.exp_nat_mul]
    apply pow_le_pow_left₀ (by positivity)
    rw [show 9 * f.u = 2 * f.u + 5 * f.u + 2 * f.u by ring, Real.exp_add, Real.exp_add]
    gcongr <;> exact one_add_le_exp _
  have h2 : convGrowth f (2 * f.u) b N ≤ Real.exp ((27 * b + 2 * N + 7) * f.u) := by
    unfold convGrowth
    rw [show (27 * b + 2 * N + 7) * f.u = (3 : ℕ) * (b * (9 * f.u)) + (2 : ℕ) * f.u + 5 * f.u + N * (2 * f.u) by
      push_cast; ring, Real.exp_add, Real.exp_add, Real.exp_add, Real.exp_nat_mul, Real.exp_nat_mul _ 2,
      Real.exp_nat_mul _ N]
    have h0 : 0 ≤ fftGrowth f (2 * f.u) b := by linarith [one_le_fft (f := f) hε b]
    gcongr <;> exact one_add_le_exp _
  refine h2.trans ?_
  set E := (27 * (b : ℝ) + 2 * N + 7) * f.u with hE
  have hE0 : 0 ≤ E := by positivity
  refine (Real.exp_bound_div_one_sub_of_interval hE0 (by linarith)).trans ?_
  rw [div_le_iff₀ (by linarith)]
  nlinarith

/-- **C96** (unit samples, correctly rounded tables).  For input samples of magnitude at most one the error of overlap-save
is at most `2 (27 (a + 1) + 2 N + 7) u · 2B L`, and that of overlap-add at most twice that with 8 instead of 7, if
`2 (2B)² L` is below the overflow threshold; `L` is the sum of the magnitudes of the impulse response plus
`2B N · minNormal`. -/
theorem C96_unit (hf : f.Ieee) {a : ℕ} (ha : 1 ≤ a) (ha2 : a ≤ 26) (hbe : (a : ℤ) + 2 < f.emax)
    {tw : ℕ → ℕ → Direction → IC f}
    (htw : ∀ k dir, tw (2 ^ (a + 1)) k dir
      = ⟨f.round (.fin (Real.cos ((if dir = .forward then -1 else 1) * (2 * Real.pi * k / (2 ^ (a + 1) : ℕ))))),
        f.round (.fin (Real.sin ((if dir = .forward then -1 else 1) * (2 * Real.pi * k / (2 ^ (a + 1) : ℕ)))))⟩)
    (v : MatView) (data : List ℝ) (hv : v.InRange data.length) (hS : 1 ≤ v.cols) (hS2 : v.cols < 2 ^ 64)
    (hsz : v.rows * ((v.cols - 1) / 2 ^ a + 1) * (2 ^ a + 1) < 2 ^ 59)
    {N : ℕ} (hN : N = (v.cols - 1) / 2 ^ a + 1) (hE : (27 * (a + 1 : ℕ) + 2 * N + 7) * f.u ≤ 1 / 2) {L : ℝ}
    (hL : ∀ c < v.rows, ∑ i ∈ range v.cols, |chanAt v data c i| + N * (2 ^ (a + 1) * f.minNormal) ≤ L)
    (ho : 2 * (4 ^ (a + 1) * L) < (2 : ℝ) ^ f.emax) :
    ∃ bins part, uniformPartitionG (ieeeArith f tw) (sample 1) v (data.map sample) (2 ^ a) = .ok (N, bins, part) ∧
      ∀ c < v.rows, ∀ blocks : List (List ℝ), (∀ b ∈ blocks, b.length = 2 ^ a) → (∀ b ∈ blocks, ∀ s ∈ b, |s| ≤ 1) →
        (∃ outs : List (List ℝ),
          upolsRunG (ieeeArith f tw) (partitionView N bins c) part (blocks.map (·.map sample))
            = .ok (outs.map (·.map sample)) ∧
          outs.map List.length = blocks.map List.length ∧
          ∀ n < blocks.flatten.length,
            |outs.flatten.getD n 0 - Spec.conv (chanAt v data c) (fun i => blocks.flatten.getD i 0) n|
              ≤ 2 * ((27 * (a + 1 : ℕ) + 2 * N + 7) * f.u) * (2 ^ (a + 1) * L)) ∧
        ∃ outs : List (List ℝ),
          upolaRunG (ieeeArith f tw) (partitionView N bins c) part (blocks.map (·.map sample))
            = .ok (outs.map (·.map sample)) ∧
          outs.map List.length = blocks.map List.length ∧
          ∀ n < blocks.flatten.length,
            |outs.flatten.getD n 0 - Spec.conv (chanAt v data c) (fun i => blocks.flatten.getD i 0) n|
              ≤ 4 * ((27 * (a + 1 : ℕ) + 2 * N + 8) * f.u) * (2 ^ (a + 1) * L) := by
  have hu := u_pos f
  have hν := minNormal_pos f
  obtain ⟨g1, g2⟩ := C96_growth f (a + 1) N hE
  have hw : TwAccurate tw (2 ^ (a + 1)) (2 * f.u) := by
    intro dir k hk
    obtain ⟨c, s, h1, h2⟩ := C96_tables hf (2 ^ (a + 1)) (fun k dir => (if dir = .forward then -1 else 1) *
      (2 * Real.pi * k / (2 ^ (a + 1) : ℕ))) (fun _ _ => rfl) dir k hk
    exact ⟨c, s, by rw [htw]; exact h1, h2⟩
  have hν1 : f.minNormal ≤ 1 := by
    unfold Fmt.minNormal
    rw [← zpow_zero (2 : ℝ)]
    exact zpow_le_zpow_right₀ (by norm_num) (by have := hf.2.2; have := hf.2.1; omega)
  have hN1 : (1 : ℝ) ≤ N := by
    rw [hN]
    exact_mod_cast Nat.le_add_left 1 _
  set E := (27 * ((a + 1 : ℕ) : ℝ) + 2 * N + 7) * f.u with hEd
  set Γ := convGrowth f (2 * f.u) (a + 1) N with hΓ
  have hΓ2 : Γ ≤ 2 := by linarith
  have h2 : (1 : ℝ) ≤ 2 ^ (a + 1) := one_le_pow₀ (by norm_num)
  have h4 : (1 : ℝ) ≤ 4 ^ (a + 1) := one_le_pow₀ (by norm_num)
  have hE8 : (27 * ((a + 1 : ℕ) : ℝ) + 2 * N + 8) * f.u = E + f.u := by rw [hEd]; ring
  have o1 : Γ * (2 ^ (a + 1) * 1) < (2 : ℝ) ^ f.emax := by
    rw [mul_one]
    calc Γ * 2 ^ (a + 1) ≤ 2 * 2 ^ (a + 1) := mul_le_mul_of_nonneg_right hΓ2 (by positivity)
      _ = (2 : ℝ) ^ ((a : ℤ) + 2) := by rw [← pow_succ', ← zpow_natCast]; congr 1
      _ < (2 : ℝ) ^ f.emax := zpow_lt_zpow_right₀ (by norm_num) hbe
  have hmin : f.minNormal ≤ 1 * f.minNormal := by rw [one_mul]
  by_cases hr : v.rows = 0
  · obtain ⟨bins, part, e, -⟩ := C96_upols hf ha ha2 (by push_cast; omega) hw v data hv hS hS2 hsz hN (X := 1)
      (η := f.minNormal) (L := 0) hν1 le_rfl hmin (fun c hc => by omega) o1 (by rw [mul_zero]; positivity)
      (by rw [mul_zero, mul_zero, mul_zero]; positivity)
    exact ⟨bins, part, e, fun c hc => by omega⟩
  have hL0 : 0 ≤ L := by
    refine le_trans ?_ (hL 0 (by omega))
    have : 0 ≤ ∑ i ∈ range v.cols, |chanAt v data 0 i| := sum_nonneg fun _ _ => abs_nonneg _
    positivity
  have o3 : Γ * (4 ^ (a + 1) * (1 * L)) < (2 : ℝ) ^ f.emax := by
    rw [one_mul]
    exact lt_of_le_of_lt (mul_le_mul_of_nonneg_right hΓ2 (by positivity)) ho
  have o2 : Γ * L < (2 : ℝ) ^ f.emax := by
    refine lt_of_le_of_lt ?_ o3
    rw [one_mul]
    exact mul_le_mul_of_nonneg_left (le_mul_of_one_le_left hL0 h4) (by linarith)
  obtain ⟨bins, part, e, hs⟩ := C96_upols hf ha ha2 (by push_cast; omega) hw v data hv hS hS2 hsz hN (X := 1)
      (η := f.minNormal) hν1 le_rfl hmin hL o1 o2 o3
  obtain ⟨bins', part', e', hs'⟩ := C96_upola hf ha ha2 (by push_cast; omega) hw v data hv hS hS2 hsz hN (X := 1)
      (η := f.minNormal) hν1 le_rfl hmin hL o1 o2 o3
  rw [e] at e'
  obtain ⟨-, rfl, rfl⟩ : N = N ∧ bins = bins' ∧ part = part' := by simpa using e'
  refine ⟨bins, part, e, fun c hc blocks hb hx => ⟨?_, ?_⟩⟩
  · obtain ⟨outs, w1, w2, w3⟩ := hs c hc blocks hb hx
    refine ⟨outs, w1, w2, fun n hn => (w3 n hn).trans ?_⟩
    rw [mul_one]
    exact mul_le_mul_of_nonneg_right (by linarith) (by positivity)
  · obtain ⟨outs, w1, w2, w3⟩ := hs' c hc blocks hb hx
    refine ⟨outs, w1, w2, fun n hn => (w3 n hn).trans ?_⟩
    rw [mul_one, hE8, ← mul_assoc]
    refine mul_le_mul_of_nonneg_right ?_ (by positivity)
    have : Γ * (1 + f.u) ≤ (1 + 2 * E) * (1 + f.u) := mul_le_mul_of_nonneg_right g2 (by linarith)
    nlinarith

/-- The hypotheses of `C96_unit` hold in binary32 for blocks of 512 samples and an impulse response of 65536 samples, all
equal to one: 128 partitions; the bound of the error of overlap-save is less than 4400. -/
example : binary32.Ieee ∧ ((9 : ℕ) : ℤ) + 2 < binary32.emax ∧
    (MatView.right 1 65536).InRange (List.replicate 65536 (1 : ℝ)).length ∧
    1 * ((65536 - 1) / 2 ^ 9 + 1) * (2 ^ 9 + 1) < 2 ^ 59 ∧ 128 = (65536 - 1) / 2 ^ 9 + 1 ∧
    (27 * (9 + 1 : ℕ) + 2 * (128 : ℕ) + 7) * binary32.u ≤ 1 / 2 ∧
    (∀ c < 1, ∑ i ∈ range 65536, |chanAt (MatView.right 1 65536) (List.replicate 65536 (1 : ℝ)) c i|
      + (128 : ℕ) * (2 ^ (9 + 1) * binary32.minNormal) ≤ 65537) ∧
    2 * (4 ^ (9 + 1) * (65537 : ℝ)) < (2 : ℝ) ^ binary32.emax ∧
    2 * ((27 * (9 + 1 : ℕ) + 2 * (128 : ℕ) + 7) * binary32.u) * (2 ^ (9 + 1) * 65537) < 4400 := by
  have hu : binary32.u = 1 / 16777216 := by
    show (2 : ℝ) ^ (-((24 : ℕ) : ℤ)) = _
    norm_num
  have hν : binary32.minNormal = (2 : ℝ) ^ (-126 : ℤ) := by
    show (2 : ℝ) ^ ((-149 : ℤ) + ((24 : ℕ) : ℤ) - 1) = _
    norm_num
  have hν2 : binary32.minNormal ≤ 1 / 1048576 := by
    rw [hν]
    calc (2 : ℝ) ^ (-126 : ℤ) ≤ (2 : ℝ) ^ (-20 : ℤ) := zpow_le_zpow_right₀ (by norm_num) (by norm_num)
      _ = 1 / 1048576 := by norm_num
  have hmax : (2 : ℝ) ^ (40 : ℤ) ≤ (2 : ℝ) ^ binary32.emax :=
    zpow_le_zpow_right₀ (by norm_num) (by show (40 : ℤ) ≤ 128; norm_num)
  refine ⟨by unfold Fmt.Ieee binary32; norm_num, by show ((9 : ℕ) : ℤ) + 2 < 128; norm_num, ?_, by norm_num, by norm_num,
    by rw [hu]; norm_num, ?_, lt_of_lt_of_le (by norm_num) hmax, by rw [hu]; norm_num⟩
  · intro r hr c hc
    have h1 : r < 1 := hr
    have h2 : c < 65536 := hc
    rw [List.length_replicate]
    show 0 + r * 65536 + c * 1 < 65536
    omega
  · intro c hc
    have hs : ∑ i ∈ range 65536, |chanAt (MatView.right 1 65536) (List.replicate 65536 (1 : ℝ)) c i|
        ≤ ∑ _i ∈ range 65536, (1 : ℝ) := by
      refine sum_le_sum fun i _ => ?_
      unfold chanAt
      split
      · rw [List.getD_eq_getElem?_getD, List.getElem?_replicate]
        split <;> simp
      · simp
    rw [sum_const, card_range, nsmul_eq_mul] at hs
    norm_num at hs ⊢
    linarith

/-! ## The scaling comes last -/

section overflow

/-- Exact tables of size 4. -/
private noncomputable def twQ (f : Fmt) : ℕ → ℕ → Direction → IC f := fun _ k dir =>
  if k = 0 then ⟨.fin 1, .fin 0⟩ else if dir = .forward then ⟨.fin 0, .fin (-1)⟩ else ⟨.fin 0, .fin 1⟩

private theorem twQ_accurate : TwAccurate (twQ f) 4 0 := by
  intro dir k hk
  have hI : Complex.exp (2 * Real.pi * Complex.I * (1 : ℕ) / (4 : ℕ)) = Complex.I := by
    rw [show 2 * Real.pi * Complex.I * (1 : ℕ) / (4 : ℕ) = ((Real.pi / 2 : ℝ) : ℂ) * Complex.I by push_cast; ring]
    apply Complex.ext
    · rw [Complex.exp_ofReal_mul_I_re, Real.cos_pi_div_two, Complex.I_re]
    · rw [Complex.exp_ofReal_mul_I_im, Real.sin_pi_div_two, Complex.I_im]
  obtain rfl | rfl : k = 0 ∨ k = 1 := by omega
  · refine ⟨1, 0, by simp [twQ], ?_⟩
    rw [show (⟨1, 0⟩ : ℂ) = 1 from rfl]
    simp
  · cases dir
    · refine ⟨0, -1, by simp [twQ], ?_⟩
      rw [if_pos rfl, neg_one_mul, Complex.exp_neg, hI, Complex.inv_I]
      rw [show (⟨0, -1⟩ : ℂ) = -Complex.I by apply Complex.ext <;> simp]
      simp
    · refine ⟨0, 1, by simp [twQ], ?_⟩
      rw [if_neg (by decide), one_mul, hI]
      rw [show (⟨0, 1⟩ : ℂ) = Complex.I by apply Complex.ext <;> simp]
      simp

private theorem twQ0 (dir : Direction) : (ieeeArith f (twQ f)).twiddle 4 0 dir = ⟨.fin 1, .fin 0⟩ := rfl
private theorem twQ1f : (ieeeArith f (twQ f)).twiddle 4 1 .forward = ⟨.fin 0, .fin (-1)⟩ := rfl
private theorem twQ1b : (ieeeArith f (twQ f)).twiddle 4 1 .backward = ⟨.fin 0, .fin 1⟩ := rfl

private def cc (a b : ℝ) : IC f := ⟨.fin a, .fin b⟩
private theorem mk_cc (a b : ℝ) : (⟨.fin a, .fin b⟩ : IC f) = cc a b := rfl
private theorem zero_cc : (0 : IC f) = cc 0 0 := rfl
private theorem cc_add (a b c d : ℝ) : (cc a b : IC f) + cc c d = ⟨f.round (.fin (a + c)), f.round (.fin (b + d))⟩ := rfl
private theorem cc_sub (a b c d : ℝ) : (cc a b : IC f) - cc c d = ⟨f.round (.fin (a - c)), f.round (.fin (b - d))⟩ := by
  rw [sub_eq_add_neg, sub_eq_add_neg]; rfl
private theorem cc_mul (a b c d : ℝ) : (cc a b : IC f) * cc c d
    = ⟨f.round ((f.round (.fin (a * c))).sub (f.round (.fin (b * d)))),
      f.round ((f.round (.fin (a * d))).add (f.round (.fin (b * c))))⟩ := rfl

private theorem dit4 (A : Arith (IR f) (IC f)) (dir : Direction) (x : ℕ → IC f) :
    ditGn A 2 dir x 0 = (x 0 + x 2) + A.twiddle 4 0 dir * (x 1 + x 3) ∧
    ditGn A 2 dir x 1 = (x 0 - x 2) + A.twiddle 4 1 dir * (x 1 - x 3) ∧
    ditGn A 2 dir x 2 = (x 0 + x 2) - A.twiddle 4 0 dir * (x 1 + x 3) ∧
    ditGn A 2 dir x 3 = (x 0 - x 2) - A.twiddle 4 1 dir * (x 1 - x 3) :=
  ⟨rfl, rfl, rfl, rfl⟩

private theorem r_pow (hf : f.Ieee) {k : ℤ} (h1 : f.emin ≤ k) (h2 : k < f.emax) :
    f.round (.fin ((2 : ℝ) ^ k)) = .fin ((2 : ℝ) ^ k) ∧ f.round (.fin (-(2 : ℝ) ^ k)) = .fin (-(2 : ℝ) ^ k) := by
  have g : f.OnGrid ((2 : ℝ) ^ k) := ⟨1, k, by
    rw [abs_one]
    exact one_lt_pow₀ (by norm_num) (by have := hf.1; omega), h1, by norm_num⟩
  have e := rndInf_exact g
  have hlt : (2 : ℝ) ^ k < (2 : ℝ) ^ f.emax := zpow_lt_zpow_right₀ (by norm_num) h2
  have hp : (0 : ℝ) < 2 ^ k := by positivity
  constructor
  · rw [round_fin_of_lt (by rw [e, abs_of_pos hp]; exact hlt), e]
  · rw [round_fin_of_lt (by rw [rndInf_neg, e, abs_neg, abs_of_pos hp]; exact hlt), rndInf_neg, e]

private theorem r_zero (f : Fmt) : f.round (.fin 0) = .fin 0 := by
  rw [round_fin_of_lt (by rw [rndInf_zero, abs_zero]; positivity), rndInf_zero]

/-- The spectrum of the window `p, 0, q, 0`. -/
private theorem spec4 {x : ℕ → IR f} {p q : ℝ} (h0 : x 0 = sample p) (h1 : x 1 = sample 0) (h2 : x 2 = sample q)
    (h3 : x 3 = sample 0) (hs : f.round (.fin (p + q)) = .fin (p + q)) (hd : f.round (.fin (p - q)) = .fin (p - q)) :
    rfftGn (ieeeArith f (twQ f)) 2 x 0 = cc (p + q) 0 ∧ rfftGn (ieeeArith f (twQ f)) 2 x 1 = cc (p - q) 0 ∧
      rfftGn (ieeeArith f (twQ f)) 2 x 2 = cc (p + q) 0 := by
  obtain ⟨e0, e1, e2, -⟩ := dit4 (ieeeArith f (twQ f)) .forward (fun i => (ieeeArith f (twQ f)).ofReal (x i))
  have o0 : (ieeeArith f (twQ f)).ofReal (x 0) = cc p 0 := by rw [h0]; rfl
  have o1 : (ieeeArith f (twQ f)).ofReal (x 1) = cc 0 0 := by rw [h1]; rfl
  have o2 : (ieeeArith f (twQ f)).ofReal (x 2) = cc q 0 := by rw [h2]; rfl
  have o3 : (ieeeArith f (twQ f)).ofReal (x 3) = cc 0 0 := by rw [h3]; rfl
  unfold rfftGn
  rw [e0, e1, e2, o0, o1, o2, o3, twQ0, twQ1f]
  simp only [cc_add, cc_sub, cc_mul, FVal.sub, FVal.add, FVal.neg, r_zero, hs, hd, mk_cc, mul_zero, zero_mul, add_zero,
    sub_zero, neg_zero, and_self]

/-- The outputs for a spectrum `s, d, s` whose unscaled inverse transform overflows. -/
private theorem out4 (hf : f.Ieee) {Y : ℕ → IC f} {s d : ℝ} (h0 : Y 0 = cc s 0) (h1 : Y 1 = cc d 0) (h2 : Y 2 = cc s 0)
    (hs : f.round (.fin (s + s)) = .fin (s + s)) (hd : f.round (.fin (d + d)) = .fin (d + d)) {m : ℕ} (hm : m = 0 ∨ m = 2)
    (ho : f.round (.fin (if m = 0 then s + s + (d + d) else s + s - (d + d))) = .inf false) :
    specOutG (ieeeArith f (twQ f)) 2 Y m = ⟨.inf false⟩ ∧ specOutG (ieeeArith f (twQ f)) 2 Y (m + 1) = sample 0 := by
  obtain ⟨e0, e1, e2, e3⟩ := dit4 (ieeeArith f (twQ f)) .backward (hermG (ieeeArith f (twQ f)) 2 Y)
  have o0 : hermG (ieeeArith f (twQ f)) 2 Y 0 = cc s 0 := h0
  have o1 : hermG (ieeeArith f (twQ f)) 2 Y 1 = cc d 0 := h1
  have o2 : hermG (ieeeArith f (twQ f)) 2 Y 2 = cc s 0 := h2
  have o3 : hermG (ieeeArith f (twQ f)) 2 Y 3 = cc d 0 := by
    show (ieeeArith f (twQ f)).conj (Y 1) = _
    rw [h1]
    show IC.mk (.fin d) (.fin (-0)) = _
    rw [neg_zero]; rfl
  have hq : (ieeeArith f (twQ f)).invSize (2 ^ 2) = sample (1 / 4) := by
    show (⟨f.round (FVal.div (.fin 1) (f.round (.fin ((2 ^ 2 : ℕ) : ℝ))))⟩ : IR f) = _
    have h4 := (r_pow hf (k := 2) (by have := hf.1; have := hf.2.1; have := hf.2.2; omega) (by have := hf.2.1; omega)).1
    have h5 := (r_pow hf (k := -2) (by have := hf.1; have := hf.2.1; have := hf.2.2; omega) (by have := hf.2.1; omega)).1
    norm_num at h4 h5
    have : ((2 ^ 2 : ℕ) : ℝ) = 4 := by norm_num
    rw [this, h4]
    simp only [FVal.div]
    rw [if_neg (by norm_num), h5]
    rfl
  have hinf : (⟨.inf false⟩ : IR f) * sample (1 / 4) = ⟨.inf false⟩ := by
    show (⟨f.round (FVal.mul (.inf false) (.fin (1 / 4)))⟩ : IR f) = _
    simp only [FVal.mul]
    rw [if_neg (by norm_num)]
    norm_num [Fmt.round]
  have hzero : (sample 0 : IR f) * sample (1 / 4) = sample 0 := by
    show (⟨f.round (.fin (0 * (1 / 4)))⟩ : IR f) = _
    rw [zero_mul, r_zero]
    rfl
  have w : ∀ t : ℝ, f.round (.fin t) = .fin t → f.round (.fin (1 * t)) = .fin t := fun t h => by rwa [one_mul]
  obtain rfl | rfl := hm
  · rw [if_pos rfl] at ho
    constructor
    · unfold specOutG irfftGn
      rw [e0, hq, o0, o1, o2, o3, twQ0]
      simp only [cc_add, cc_sub, cc_mul, FVal.sub, FVal.add, FVal.neg, r_zero, hs, hd, mk_cc, mul_zero, zero_mul,
        add_zero, sub_zero, neg_zero, one_mul, ho]
      exact hinf
    · unfold specOutG irfftGn
      rw [e1, hq, o0, o1, o2, o3, twQ1b]
      simp only [cc_add, cc_sub, cc_mul, FVal.sub, FVal.add, FVal.neg, r_zero, mk_cc, mul_zero, zero_mul,
        add_zero, sub_zero, neg_zero, one_mul, sub_self]
      exact hzero
  · rw [if_neg (by norm_num)] at ho
    constructor
    · unfold specOutG irfftGn
      rw [e2, hq, o0, o1, o2, o3, twQ0]
      simp only [cc_add, cc_sub, cc_mul, FVal.sub, FVal.add, FVal.neg, r_zero, hs, hd, mk_cc, mul_zero, zero_mul,
        add_zero, sub_zero, neg_zero, one_mul, ho]
      exact hinf
    · unfold specOutG irfftGn
      rw [show 2 + 1 = 3 from rfl, e3, hq, o0, o1, o2, o3, twQ1b]
      simp only [cc_add, cc_sub, cc_mul, FVal.sub, FVal.add, FVal.neg, r_zero, mk_cc, mul_zero, zero_mul,
        add_zero, sub_zero, neg_zero, one_mul, sub_self]
      exact hzero

/-- **C96** (why `(2B)² X L` has to be below the threshold).  In every IEEE format, with exact tables: the impulse
response is the unit impulse, `B = 2`, and the first input sample is a quarter of the overflow threshold.  The exact output
is the input.  Both convolvers return an infinity, because the inverse transform is computed before its result is scaled by
`1/(2B)`. -/
theorem C96_intermediate_overflow (hf : f.Ieee) : ∃ (tw : ℕ → ℕ → Direction → IC f) (part : List (IC f)),
    TwAccurate tw (2 ^ 2) 0 ∧ f.Mem (.fin ((2 : ℝ) ^ (f.emax - 2))) ∧
      uniformPartitionG (ieeeArith f tw) (sample 1) (MatView.right 1 2) [sample 1, sample 0] 2 = .ok (1, 3, part) ∧
      upolsRunG (ieeeArith f tw) (partitionView 1 3 0) part [[sample ((2 : ℝ) ^ (f.emax - 2)), sample 0]]
        = .ok [[⟨.inf false⟩, sample 0]] ∧
      upolaRunG (ieeeArith f tw) (partitionView 1 3 0) part [[sample ((2 : ℝ) ^ (f.emax - 2)), sample 0]]
        = .ok [[⟨.inf false⟩, sample 0]] ∧
      ∀ n, Spec.conv (chanAt (MatView.right 1 2) [1, 0] 0) (fun i => [(2 : ℝ) ^ (f.emax - 2), 0].getD i 0) n
        = [(2 : ℝ) ^ (f.emax - 2), 0].getD n 0 := by
  have i1 := hf.1
  have i2 := hf.2.1
  have i3 := hf.2.2
  set M : ℝ := (2 : ℝ) ^ (f.emax - 2) with hM
  have hMM : M + M = (2 : ℝ) ^ (f.emax - 1) := by
    rw [hM, ← two_mul, ← zpow_one_add₀ (by norm_num)]; congr 1; omega
  have hM4 : M + M + (M + M) = (2 : ℝ) ^ f.emax := by
    rw [hMM, ← two_mul, ← zpow_one_add₀ (by norm_num)]; congr 1; omega
  obtain ⟨p1, n1⟩ := r_pow hf (k := f.emax - 2) (by omega) (by omega)
  obtain ⟨p2, n2⟩ := r_pow hf (k := f.emax - 1) (by omega) (by omega)
  rw [← hM] at p1 n1
  rw [← hMM] at p2 n2
  obtain ⟨q1, -⟩ := r_pow hf (k := 0) (by omega) (by omega)
  rw [zpow_zero] at q1
  have hMpos : 0 < M := by rw [hM]; positivity
  have rinf : f.round (.fin (M + M + (M + M))) = .inf false := by
    rw [hM4]
    refine round_fin_of_le (le_of_eq ?_)
    refine (rndInf_exact ⟨1, f.emax, ?_, by omega, by norm_num⟩).symm
    rw [abs_one]
    exact one_lt_pow₀ (by norm_num) (by omega)
  obtain ⟨part, e, hp⟩ := uniformPartitionG_eq (A := ieeeArith f (twQ f)) (one := sample 1) (v := MatView.right 1 2)
    (data := [sample 1, sample 0]) (B := 2) (b := 2) (by
      intro r hr c hc
      have h1 : r < 1 := hr
      have h2 : c < 2 := hc
      show 0 + r * 2 + c * 1 < 2
      omega) (by norm_num) (by decide +kernel) (by norm_num) (by decide) (by decide) (by decide)
  obtain ⟨hr, hd⟩ := hp 0 (by decide)
  change (partitionView 1 3 0).InRange part.length at hr
  have hseg : ∀ n, segG (sample 1) 2 (chanAtG (MatView.right 1 2) [(sample 1 : IR f), sample 0] 0) 0 n
      = if n = 0 then sample 1 else sample 0 := by
    intro n
    have z : (sample 0 : IR f) * sample 1 = sample 0 := by
      show (⟨f.round (.fin (0 * 1))⟩ : IR f) = _
      rw [zero_mul, r_zero]; rfl
    have o : (sample 1 : IR f) * sample 1 = sample 1 := by
      show (⟨f.round (.fin (1 * 1))⟩ : IR f) = _
      rw [one_mul, q1]; rfl
    rcases n with _ | _ | n
    · exact o
    · exact z
    · unfold segG seg
      rw [if_neg (by omega), if_neg (by omega)]
      exact z
  obtain ⟨s0, s1, s2⟩ := spec4 (x := segG (sample 1) 2 (chanAtG (MatView.right 1 2) [(sample 1 : IR f), sample 0] 0) 0)
    (p := 1) (q := 0) (hseg 0) (hseg 1) (hseg 2) (hseg 3) (by rwa [add_zero]) (by rwa [sub_zero])
  rw [add_zero] at s0 s2
  rw [sub_zero] at s1
  have d0 : matAt (partitionView 1 3 0) part 0 0 = cc 1 0 := (hd 0 (by decide) 0 (by decide)).trans s0
  have d1 : matAt (partitionView 1 3 0) part 0 1 = cc 1 0 := (hd 0 (by decide) 1 (by decide)).trans s1
  have d2 : matAt (partitionView 1 3 0) part 0 2 = cc 1 0 := (hd 0 (by decide) 2 (by decide)).trans s2
  have mac : ∀ (X : ℕ → ℕ → IC f) (k : ℕ) (t : ℝ), X 0 k = cc t 0 → matAt (partitionView 1 3 0) part 0 k = cc 1 0 →
      f.round (.fin t) = .fin t → macY 1 (matAt (partitionView 1 3 0) part) X 0 k = cc t 0 := by
    intro X k t hX hk ht
    show 0 + X 0 k * matAt (partitionView 1 3 0) part 0 k = _
    rw [hX, hk, zero_cc]
    simp only [cc_add, cc_mul, FVal.sub, FVal.add, FVal.neg, r_zero, ht, mk_cc, mul_zero, mul_one, zero_mul,
      add_zero, neg_zero, zero_add]
  have hlen : ∀ b ∈ [[(sample M : IR f), sample 0]], b.length = 2 ^ 1 := by
    intro b hb
    rw [List.mem_singleton.1 hb]
    rfl
  refine ⟨twQ f, part, twQ_accurate, ⟨⟨1, f.emax - 2, ?_, by omega, by norm_num [hM]⟩, ?_⟩, e, ?_, ?_, ?_⟩
  · rw [abs_one]
    exact one_lt_pow₀ (by norm_num) (by omega)
  · rw [abs_of_pos hMpos, hM]
    exact zpow_lt_zpow_right₀ (by norm_num) (by omega)
  · rw [upolsRunG_eq (a := 1) le_rfl (by norm_num) hr le_rfl rfl _ hlen]
    set X := winSpecG (ieeeArith f (twQ f)) 1 (saveWindow (2 ^ 1)) (fun i => [[(sample M : IR f), sample 0]].flatten.getD i 0)
    obtain ⟨x0, x1, x2⟩ := spec4 (p := 0) (q := M)
      (x := saveWindow (2 ^ 1) (fun i => [[(sample M : IR f), sample 0]].flatten.getD i 0) 0) rfl rfl rfl rfl
      (by rwa [zero_add]) (by rwa [zero_sub])
    rw [zero_add] at x0 x2
    rw [zero_sub] at x1
    obtain ⟨y2, y3⟩ := out4 hf (m := 2) (mac X 0 M x0 d0 p1) (mac X 1 (-M) x1 d1 n1) (mac X 2 M x2 d2 p1) p2
      (by rw [← neg_add]; exact n2) (Or.inr rfl) (by
        rw [if_neg (by norm_num), show M + M - (-M + -M) = M + M + (M + M) by ring]; exact rinf)
    refine congrArg Except.ok ?_
    show [[_, _]] = _
    exact congrArg₂ (fun a b => [[a, b]]) y2 y3
  · rw [upolaRunG_eq (a := 1) le_rfl (by norm_num) hr le_rfl rfl _ hlen]
    set X := winSpecG (ieeeArith f (twQ f)) 1 (seg (2 ^ 1)) (fun i => [[(sample M : IR f), sample 0]].flatten.getD i 0)
    obtain ⟨x0, x1, x2⟩ := spec4 (p := M) (q := 0)
      (x := seg (2 ^ 1) (fun i => [[(sample M : IR f), sample 0]].flatten.getD i 0) 0) rfl rfl rfl rfl
      (by rwa [add_zero]) (by rwa [sub_zero])
    rw [add_zero] at x0 x2
    rw [sub_zero] at x1
    obtain ⟨y2, y3⟩ := out4 hf (m := 0) (mac X 0 M x0 d0 p1) (mac X 1 M x1 d1 p1) (mac X 2 M x2 d2 p1) p2
      p2 (Or.inl rfl) (by rw [if_pos rfl]; exact rinf)
    refine congrArg Except.ok ?_
    have a0 : (⟨.inf false⟩ : IR f) + 0 = ⟨.inf false⟩ := rfl
    have a1 : (sample 0 : IR f) + 0 = sample 0 := by
      show (⟨f.round (.fin (0 + 0))⟩ : IR f) = _
      rw [add_zero, r_zero]; rfl
    show [[_ + 0, _ + 0]] = _
    exact congrArg₂ (fun a b => [[a, b]]) ((congrArg (· + (0 : IR f)) y2).trans a0) ((congrArg (· + (0 : IR f)) y3).trans a1)
  · intro n
    unfold Spec.conv
    rw [sum_range_succ', sum_eq_zero, zero_add, Nat.sub_zero]
    · show (1 : ℝ) * _ = _
      rw [one_mul]
    · intro m _
      have : chanAt (MatView.right 1 2) [1, 0] 0 (m + 1) = 0 := by
        rcases m with _ | m
        · rfl
        · unfold chanAt
          rw [if_neg (by show ¬ m + 1 + 1 < 2; omega)]
      rw [this, zero_mul]

end overflow

end Neo.Props
