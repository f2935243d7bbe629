import Verif.Model.DftIeee
import Verif.Props.TwiddleIeee
import Verif.Lemmas.RadixNear

/-! # C114: the naive `dft` in IEEE 754 arithmetic -/

namespace Neo.Props

open Neo Spec Finset

variable {f : Fmt}

private theorem back_angle (hw : TwiddleFmt f) {n k N : ℕ} (hn : n ≤ N) (hk : k ≤ N) (hN : 1 ≤ N)
    (ho : 16 * (N : ℝ) ^ 2 ≤ (2 : ℝ) ^ f.emax) :
    ∃ a, dftAngleI f N n k .backward = .fin a ∧ f.Mem (.fin a) ∧
      |a - 2 * Real.pi * n * k / N| ≤ 58 * (n * k / N) * f.u := by
  have hf := hw.1
  have hp : 1 ≤ f.p := by have := hf.1; omega
  have hu := hw.u64
  have hu0 := u_pos f
  have hν := minNormal_pos f
  have hν1 := minNormal_le_one hf
  have hmn := minNormal_mul_emax hf
  have hπ1 := Real.pi_gt_three
  have hπ2 := Real.pi_lt_d4
  have hN' : (1 : ℝ) ≤ N := by exact_mod_cast hN
  have hN0 : (0 : ℝ) < N := by linarith
  have hNN : (N : ℝ) ≤ (N : ℝ) ^ 2 := by nlinarith
  have hku : ∀ j : ℕ, j ≤ 8 → (j : ℝ) * f.u ≤ 1 / 8 := fun j hj => by
    have : (j : ℝ) ≤ 8 := by exact_mod_cast hj
    nlinarith
  obtain ⟨hT, h1⟩ := twoPi_ok hw (by linarith)
  have hM := ofNat_ap hf hN (by linarith)
  have h0 : f.round (.fin 0) = .fin 0 := round_mem (onGrid_zero f) (by rw [abs_zero]; exact two_zpow_pos _)
  have hm0 : f.Mem (.fin 0) := ⟨onGrid_zero f, by rw [abs_zero]; exact two_zpow_pos _⟩
  have hd : ∀ y : ℝ, y ≠ 0 → (FVal.fin 0).div (.fin y) = .fin 0 := fun y hy => by simp [FVal.div, hy]
  have hz : ∀ y : ℝ, (FVal.fin 0).mul (.fin y) = .fin 0 := fun y => by simp [FVal.mul]
  have hz' : ∀ y : ℝ, (FVal.fin y).mul (.fin 0) = .fin 0 := fun y => by simp [FVal.mul]
  unfold dftAngleI
  dsimp only
  rw [if_neg (by decide), h1]
  rcases Nat.eq_zero_or_pos n with rfl | hn0
  · obtain ⟨a, ea, -⟩ := hT
    obtain ⟨b, eb, hb⟩ := hM
    have hk2 : ∃ c, ofNat f k = .fin c := by
      rcases Nat.eq_zero_or_pos k with rfl | hk0
      · exact ⟨0, ofNat_zero⟩
      · obtain ⟨φ, e, -⟩ := ofNat_ap hf hk0 (by
          have : (k : ℝ) ≤ N := by exact_mod_cast hk
          linarith)
        exact ⟨_, e⟩
    obtain ⟨c, ec⟩ := hk2
    refine ⟨0, ?_, hm0, by simp⟩
    rw [ofNat_zero, ea, eb, ec, hz', h0, hz, h0, hd _ (mul_pos hN0 (hb.pos hf)).ne', h0]
  have hn' : (1 : ℝ) ≤ n := by exact_mod_cast hn0
  have hnN : (n : ℝ) ≤ N := by exact_mod_cast hn
  have hI := ofNat_ap hf hn0 (by linarith)
  have b1 : 2 * f.minNormal ≤ Real.pi * 2 * n := by nlinarith
  have b2 : 2 * (Real.pi * 2 * n) ≤ (2 : ℝ) ^ f.emax := by nlinarith
  have hQ := Ap.mul hf hT hI (hku _ (by norm_num)) b1 b2
  rcases Nat.eq_zero_or_pos k with rfl | hk0
  · obtain ⟨a, ea, -⟩ := hQ
    obtain ⟨b, eb, hb⟩ := hM
    refine ⟨0, ?_, hm0, by simp⟩
    rw [ofNat_zero, ea, eb, hz', h0, hd _ (mul_pos hN0 (hb.pos hf)).ne', h0]
  have hk' : (1 : ℝ) ≤ k := by exact_mod_cast hk0
  have hkN : (k : ℝ) ≤ N := by exact_mod_cast hk
  have hK := ofNat_ap hf hk0 (by linarith)
  have hnk : (n : ℝ) * k ≤ N ^ 2 := by nlinarith
  have hnk1 : 1 ≤ (n : ℝ) * k := one_le_mul_of_one_le_of_one_le hn' hk'
  have hR := Ap.mul hf hQ hK (hku _ (by norm_num)) (by
    rw [show Real.pi * 2 * n * k = Real.pi * 2 * (n * k) by ring]
    nlinarith) (by
    rw [show Real.pi * 2 * n * k = Real.pi * 2 * (n * k) by ring]
    nlinarith)
  have b3 : 2 * f.minNormal ≤ Real.pi * 2 * n * k / N := by
    rw [le_div_iff₀ hN0, show Real.pi * 2 * n * k = Real.pi * 2 * (n * k) by ring]
    have : f.minNormal * (16 * N) ≤ f.minNormal * (2 : ℝ) ^ f.emax := mul_le_mul_of_nonneg_left (by linarith) hν.le
    nlinarith
  have b5 : Real.pi * 2 * n * k / N ≤ Real.pi * 2 * N := by
    rw [div_le_iff₀ hN0, show Real.pi * 2 * n * k = Real.pi * 2 * (n * k) by ring]
    nlinarith
  have hA := Ap.div hf hR hM hN0 (hku _ (by norm_num)) b3 (by nlinarith)
  have h8 : ((2 + 1 + 1 + 1 + 1 + 1 + 1 : ℕ) : ℝ) = 8 := by norm_num
  obtain ⟨a, ea, ha⟩ := hA.err hf (e := 64 / 7 * f.u) (by positivity) (by rw [h8]; linarith) (by rw [h8]; nlinarith)
  refine ⟨a, ea, round_eq_fin hp ea, ?_⟩
  rw [show 2 * Real.pi * n * k / N = Real.pi * 2 * n * k / N by ring]
  refine ha.trans ?_
  rw [show Real.pi * 2 * n * k / N = Real.pi * 2 * (n * k / N) by ring]
  have h3 : 0 ≤ (n * k / N : ℝ) * f.u := by positivity
  nlinarith

/-- The angles of the two directions are opposite, whatever the arguments. -/
private theorem forward_neg (N n k : ℕ) : dftAngleI f N n k .forward = (dftAngleI f N n k .backward).neg := by
  unfold dftAngleI
  dsimp only
  rw [if_pos rfl, if_neg (by decide), show (FVal.fin (-1)) = (FVal.fin 1).neg from rfl, FVal.neg_mul, Fmt.round_neg, FVal.neg_mul,
    Fmt.round_neg, FVal.neg_mul, Fmt.round_neg, neg_div', Fmt.round_neg]

/-- The exact angle. -/
private noncomputable def angle2 (N n k : ℕ) (dir : Direction) : ℝ :=
  (if dir = .forward then -1 else 1) * (2 * Real.pi * n * k / N)

private theorem angle2_ok (hw : TwiddleFmt f) {n k N : ℕ} (hn : n ≤ N) (hk : k ≤ N) (hN : 1 ≤ N)
    (ho : 16 * (N : ℝ) ^ 2 ≤ (2 : ℝ) ^ f.emax) (dir : Direction) :
    ∃ a, dftAngleI f N n k dir = .fin a ∧ f.Mem (.fin a) ∧ |a - angle2 N n k dir| ≤ 58 * (n * k / N) * f.u := by
  obtain ⟨a, e, h1, h3⟩ := back_angle hw hn hk hN ho
  cases dir with
  | backward => exact ⟨a, e, h1, by unfold angle2; rwa [if_neg (by decide), one_mul]⟩
  | forward =>
    refine ⟨-a, by rw [forward_neg, e]; rfl, ⟨?_, by rw [abs_neg]; exact h1.2⟩, ?_⟩
    · obtain ⟨m, j, g1, g2, g3⟩ := h1.1
      exact ⟨-m, j, by rwa [abs_neg], g2, by rw [g3]; push_cast; ring⟩
    · unfold angle2
      rw [if_pos rfl, show -a - -1 * (2 * Real.pi * n * k / N) = -(a - 2 * Real.pi * n * k / N) by ring, abs_neg]
      exact h3

/-- **C114** (the factors).  For every size `N` with `16 N²` at most the overflow threshold: the factor the code computes for
sample `n` and bin `k` is finite, its parts are at most one, and it is within `58 (n k / N) u + 3/2 κ` of `exp(∓2πi n k / N)`,
where `κ` is the error of the cosine and sine of the library.  The angle is not reduced, so the error grows with `n k / N`. -/
theorem C114_factor (hw : TwiddleFmt f) {cos sin : FVal → FVal} {κ : ℝ} (hc : CosOk f cos κ) (hs : SinOk f sin κ) {n k N : ℕ}
    (hn : n ≤ N) (hk : k ≤ N) (hN : 1 ≤ N) (ho : 16 * (N : ℝ) ^ 2 ≤ (2 : ℝ) ^ f.emax) (dir : Direction) :
    ∃ c s : ℝ, polarI f cos sin (.fin 1) (dftAngleI f N n k dir) = ⟨.fin c, .fin s⟩ ∧ |c| ≤ 1 ∧ |s| ≤ 1 ∧
      ‖(⟨c, s⟩ : ℂ) - Complex.exp ((if dir = .forward then -1 else 1) * (2 * Real.pi * Complex.I * n * k / N))‖
        ≤ 58 * (n * k / N) * f.u + 3 / 2 * κ := by
  have hf := hw.1
  have h8 := eight_le_emax hf
  have r1 : ∀ y : ℝ, f.OnGrid y → |y| ≤ 1 → f.round ((FVal.fin 1).mul (.fin y)) = .fin y := fun y h1 h2 => by
    rw [show (FVal.fin 1).mul (.fin y) = .fin (1 * y) from rfl, one_mul]
    exact round_mem h1 (by linarith)
  obtain ⟨a, ea, hm, herr⟩ := angle2_ok hw hn hk hN ho dir
  obtain ⟨c, ec, c1, c2, c3⟩ := hc.fin a hm
  obtain ⟨s, es, s1, s2, s3⟩ := hs.fin a hm
  refine ⟨c, s, ?_, c2, s2, ?_⟩
  · unfold polarI
    rw [ea, ec, es, r1 c c1 c2, r1 s s1 s2]
  · have e : ((if dir = .forward then -1 else 1) * (2 * Real.pi * Complex.I * n * k / N) : ℂ)
        = (angle2 N n k dir : ℂ) * Complex.I := by
      unfold angle2
      split <;> push_cast <;> ring
    rw [e]
    have h1 := norm_le_of_parts_abs (z := (⟨c, s⟩ : ℂ) - ⟨Real.cos a, Real.sin a⟩) (e := κ) c3 s3
    have h2 := norm_sub_le_norm_sub_add_norm_sub (⟨c, s⟩ : ℂ) ⟨Real.cos a, Real.sin a⟩
      (Complex.exp (angle2 N n k dir * Complex.I))
    have h3 := exp_close a (angle2 N n k dir)
    linarith

/-- The running sum of one bin. -/
private noncomputable def acc (cos sin : FVal → FVal) (x : ℕ → SC f) (N k : ℕ) (dir : Direction) : ℕ → SC f
  | 0 => 0
  | i + 1 => acc cos sin x N k dir i + x i * (polarI f cos sin (.fin 1) (dftAngleI f N i k dir)).std

private theorem naiveDftI_vec (cos sin : FVal → FVal) {N : ℕ} (dir : Direction) (x g : ℕ → SC f) :
    naiveDftI cos sin (vec N x) (vec N g) dir = .ok (vec N fun k => acc cos sin x N k dir N) := by
  unfold naiveDftI
  simp only [length_vec, decide_true, check_true, bind_ok]
  refine forN_map g (fun k _ => acc cos sin x N k dir N) _ (fun k hk h _ => ?_)
  rw [forN_eq' (s' := acc cos sin x N k dir N) (fun i => acc cos sin x N k dir i), bind_ok, wr_vec_ok hk]
  · rfl
  · rfl
  · intro i hi
    rw [rd_vec_ok hi, bind_ok, pure_eq_ok]
    rfl

/-- The growth of the errors of the naive transform. -/
noncomputable def naiveGrowth (f : Fmt) (κ : ℝ) (N : ℕ) : ℝ :=
  (1 + (58 * N * f.u + 3 / 2 * κ)) * (1 + 5 * f.u) * (1 + 2 * f.u) ^ N

private theorem acc_near (hw : TwiddleFmt f) {cos sin : FVal → FVal} {κ : ℝ} (hc : CosOk f cos κ) (hs : SinOk f sin κ)
    {N k : ℕ} (hN : 1 ≤ N) (hk : k ≤ N) (ho : 16 * (N : ℝ) ^ 2 ≤ (2 : ℝ) ^ f.emax) (dir : Direction) (x : ℕ → ℂ)
    {η : ℝ} (hη : f.minNormal ≤ η)
    (hS : naiveGrowth f κ N * (∑ n ∈ range N, (‖x n‖ + η)) < (2 : ℝ) ^ f.emax) (i : ℕ) (hi : i ≤ N) :
    NearP (fun y => (IC.pt y : IC f).std) (acc cos sin (fun n => (point (x n) : IC f).std) N k dir i)
      (∑ n ∈ range i, x n * Complex.exp ((if dir = .forward then -1 else 1) * (2 * Real.pi * Complex.I * n * k / N)))
      (∑ n ∈ range i, (‖x n‖ + η))
      ((1 + (58 * N * f.u + 3 / 2 * κ)) * (1 + 5 * f.u) * (1 + 2 * f.u) ^ i) := by
  have hf := hw.1
  have hu := u_pos f
  have hν := minNormal_pos f
  have hη0 : 0 < η := by linarith
  have hκ : 0 ≤ κ := by
    obtain ⟨c, -, -, -, h⟩ := hc.fin 0 ⟨onGrid_zero f, by rw [abs_zero]; exact two_zpow_pos _⟩
    exact (abs_nonneg _).trans h
  have hN0 : (0 : ℝ) < N := by exact_mod_cast hN
  have hε : 0 ≤ 58 * N * f.u + 3 / 2 * κ := by positivity
  set ε := 58 * N * f.u + 3 / 2 * κ with hεd
  have a1 : 1 ≤ 1 + ε := by linarith
  have a2 : 1 ≤ 1 + 5 * f.u := by linarith
  have a3 : 1 ≤ 1 + 2 * f.u := by linarith
  have a12 : 1 ≤ (1 + ε) * (1 + 5 * f.u) := one_le_mul_of_one_le_of_one_le a1 a2
  have hmono : ∀ j ≤ N, (1 + ε) * (1 + 5 * f.u) * (1 + 2 * f.u) ^ j ≤ naiveGrowth f κ N := fun j hj =>
    mul_le_mul_of_nonneg_left (pow_le_pow_right₀ a3 hj) (by linarith)
  have hsum : ∀ j ≤ N, ∑ n ∈ range j, (‖x n‖ + η) ≤ ∑ n ∈ range N, (‖x n‖ + η) := fun j hj =>
    sum_le_sum_of_subset_of_nonneg (range_mono hj) fun _ _ _ => by positivity
  have hG : 0 ≤ naiveGrowth f κ N := by
    have := hmono 0 (Nat.zero_le _)
    rw [pow_zero, mul_one] at this
    linarith
  have R := radixNear_std hf
  induction i with
  | zero =>
    refine ⟨0, rfl, by simp, ?_⟩
    simp
  | succ i ih =>
    have hi' : i < N := hi
    have ih := ih (by omega)
    obtain ⟨c, s, e, -, -, he⟩ := C114_factor hw hc hs (n := i) (by omega) hk hN ho dir
    have hw1 : NearP (fun y => (IC.pt y : IC f).std) (polarI f cos sin (.fin 1) (dftAngleI f N i k dir)).std
        (Complex.exp ((if dir = .forward then -1 else 1) * (2 * Real.pi * Complex.I * i * k / N))) 1 (1 + ε) := by
      refine ⟨⟨c, s⟩, by rw [e]; rfl, ?_, ?_⟩
      · have : ((if dir = .forward then -1 else 1) * (2 * Real.pi * Complex.I * i * k / N) : ℂ)
            = (angle2 N i k dir : ℂ) * Complex.I := by
          unfold angle2
          split <;> push_cast <;> ring
        rw [this, Complex.norm_exp_ofReal_mul_I]
      · refine he.trans ?_
        have : (i * k / N : ℝ) ≤ N := by
          rw [div_le_iff₀ hN0]
          have h1 : (i : ℝ) ≤ N := by exact_mod_cast hi'.le
          have h2 : (k : ℝ) ≤ N := by exact_mod_cast hk
          exact mul_le_mul h1 h2 (by positivity) hN0.le
        have := mul_le_mul_of_nonneg_right this hu.le
        rw [hεd]
        linarith
    have hx1 : NearP (fun y => (IC.pt y : IC f).std) (point (x i) : IC f).std (x i) (‖x i‖ + η) 1 :=
      ⟨x i, rfl, by linarith, by rw [sub_self, norm_zero, sub_self, zero_mul]⟩
    have hle : ‖x i‖ + η ≤ ∑ n ∈ range N, (‖x n‖ + η) :=
      single_le_sum (f := fun n => ‖x n‖ + η) (fun _ _ => by positivity) (mem_range.2 hi')
    have hm := R.mul' (G := naiveGrowth f κ N) hS hx1 hw1 le_rfl a1 (by have := norm_nonneg (x i); linarith) hle
      (g' := (1 + ε) * (1 + 5 * f.u) * (1 + 2 * f.u) ^ i) (by
        rw [one_mul]
        exact le_mul_of_one_le_right (by linarith) (one_le_pow₀ a3)) (hmono i hi'.le)
    have hM0 : 0 ≤ ∑ n ∈ range i, (‖x n‖ + η) := sum_nonneg fun _ _ => by positivity
    rw [sum_range_succ, sum_range_succ, pow_succ, ← mul_assoc]
    refine R.add ih hm (one_le_mul_of_one_le_of_one_le a12 (one_le_pow₀ a3))
      (by have := norm_nonneg (x i); linarith) (lt_of_le_of_lt ?_ hS)
    have h1 := hmono (i + 1) hi
    have h2 := hsum (i + 1) hi
    rw [pow_succ, ← mul_assoc] at h1
    rw [sum_range_succ] at h2
    exact mul_le_mul h1 h2 (by have := norm_nonneg (x i); positivity) hG

/-- **C114** (accuracy).  `dft(in, out, dir)` for `std::complex`, for every size `N` with `16 N²` at most the overflow
threshold: if the growth times `S` stays below the threshold, where `S` is the sum of the magnitudes of the inputs with an
allowance for underflow, then all results are finite and within `(growth - 1) S` of the transform. -/
theorem C114_dft (hw : TwiddleFmt f) {cos sin : FVal → FVal} {κ : ℝ} (hc : CosOk f cos κ) (hs : SinOk f sin κ)
    (dir : Direction) (x : List ℂ) (o : List (SC f)) (hx : 1 ≤ x.length) (hxo : o.length = x.length)
    (ho : 16 * (x.length : ℝ) ^ 2 ≤ (2 : ℝ) ^ f.emax) {η : ℝ} (hη : f.minNormal ≤ η)
    (hS : naiveGrowth f κ x.length * (∑ n ∈ range x.length, ‖x.getD n 0‖ + x.length * η) < (2 : ℝ) ^ f.emax) :
    ∃ y : List ℂ, naiveDftI cos sin (x.map fun v => (point v).std) o dir = .ok (y.map fun v => (point v).std) ∧
      y.length = x.length ∧ ∀ k < x.length, ‖y.getD k 0 - fourier dir x.length x k‖
        ≤ (naiveGrowth f κ x.length - 1) * (∑ n ∈ range x.length, ‖x.getD n 0‖ + x.length * η) := by
  have eS : ∑ n ∈ range x.length, ‖x.getD n 0‖ + x.length * η = ∑ n ∈ range x.length, (‖x.getD n 0‖ + η) := by
    rw [sum_add_distrib, sum_const, card_range, nsmul_eq_mul]
  rw [eS] at hS ⊢
  have near := fun (k : ℕ) (hk : k < x.length) =>
    acc_near hw hc hs hx hk.le ho dir (fun n => x.getD n 0) hη hS x.length le_rfl
  choose y h1 h2 h3 using near
  refine ⟨vec x.length fun k => if hk : k < x.length then y k hk else 0, ?_, length_vec _ _, fun k hk => ?_⟩
  · have ex : x.map (fun v => (point v : IC f).std) = vec x.length fun n => (point (x.getD n 0) : IC f).std := by
      conv_lhs => rw [list_eq_vec (0 : ℂ) (rfl : x.length = x.length), map_vec]
    rw [ex, list_eq_vec (0 : SC f) hxo, naiveDftI_vec, map_vec]
    congr 1
    refine vec_ext fun k hk => ?_
    rw [dif_pos hk, h1 k hk]
    rfl
  · rw [getD_vec _ _ _ _ hk, dif_pos hk]
    exact h3 k hk

/-- **C114** (accuracy, in plain terms).  If the cosine and sine of the library are within one unit roundoff, `134 N u ≤ 1`
and `2 S` stays below the threshold, all results are finite and within `134 N u S` of the transform. -/
theorem C114_dft_explicit (hw : TwiddleFmt f) {cos sin : FVal → FVal} (hc : CosOk f cos f.u) (hs : SinOk f sin f.u)
    (dir : Direction) (x : List ℂ) (o : List (SC f)) (hx : 1 ≤ x.length) (hxo : o.length = x.length)
    (ho : 16 * (x.length : ℝ) ^ 2 ≤ (2 : ℝ) ^ f.emax) (hNu : 134 * x.length * f.u ≤ 1) {η : ℝ} (hη : f.minNormal ≤ η)
    (hS : 2 * (∑ n ∈ range x.length, ‖x.getD n 0‖ + x.length * η) < (2 : ℝ) ^ f.emax) :
    ∃ y : List ℂ, naiveDftI cos sin (x.map fun v => (point v).std) o dir = .ok (y.map fun v => (point v).std) ∧
      y.length = x.length ∧ ∀ k < x.length, ‖y.getD k 0 - fourier dir x.length x k‖
        ≤ 134 * x.length * f.u * (∑ n ∈ range x.length, ‖x.getD n 0‖ + x.length * η) := by
  have hu := u_pos f
  have hν := minNormal_pos f
  have hN1 : (1 : ℝ) ≤ x.length := by exact_mod_cast hx
  have hNu1 : f.u ≤ x.length * f.u := le_mul_of_one_le_left hu.le hN1
  have hS0 : 0 ≤ ∑ n ∈ range x.length, ‖x.getD n 0‖ + x.length * η := by
    have : 0 ≤ η := by linarith
    have : 0 ≤ ∑ n ∈ range x.length, ‖x.getD n 0‖ := sum_nonneg fun _ _ => norm_nonneg _
    positivity
  have hg : naiveGrowth f f.u x.length ≤ 1 + 134 * x.length * f.u := by
    have h1 : naiveGrowth f f.u x.length
        ≤ Real.exp ((58 * x.length * f.u + 3 / 2 * f.u) + 5 * f.u + x.length * (2 * f.u)) := by
      unfold naiveGrowth
      rw [Real.exp_add, Real.exp_add, Real.exp_nat_mul]
      gcongr <;> exact le_exp _
    have h2 := exp_le (t := (58 * x.length * f.u + 3 / 2 * f.u) + 5 * f.u + x.length * (2 * f.u)) (by positivity) (by linarith)
    linarith
  obtain ⟨y, h1, h2, h3⟩ := C114_dft hw hc hs dir x o hx hxo ho hη
    (lt_of_le_of_lt (mul_le_mul_of_nonneg_right (by linarith) hS0) hS)
  exact ⟨y, h1, h2, fun k hk => (h3 k hk).trans (mul_le_mul_of_nonneg_right (by linarith) hS0)⟩

/-! ### Large bins in a format with few exponents -/

private theorem le_mul {a b : ℝ} {A B : FVal} (ha : 0 < a) (hb : 0 < b) (h1 : (FVal.fin a).Le A) (h2 : (FVal.fin b).Le B) :
    (FVal.fin (a * b)).Le (A.mul B) := by
  have k1 := FVal.Le.const_mul ha h2
  cases B with
  | nan => simp [FVal.Le] at h2
  | fin y =>
    have hy : 0 < y := lt_of_lt_of_le hb h2
    exact FVal.Le.trans k1 (FVal.Le.mul_const hy h1)
  | inf s =>
    have hs : s = false := h2
    subst hs
    cases A with
    | nan => simp [FVal.Le] at h1
    | fin x =>
      have hx : 0 < x := lt_of_lt_of_le ha h1
      simp [FVal.mul, FVal.Le, hx.ne', hx.le]
    | inf t =>
      have ht : t = false := h1
      subst ht
      simp [FVal.mul, FVal.Le]

private theorem onGrid_pow (hf : f.Ieee) (e : ℕ) : f.OnGrid ((2 : ℝ) ^ e) :=
  ⟨1, e, by rw [abs_one]; exact one_lt_pow₀ (by norm_num) (by have := hf.1; omega), by have := hf.2.2; have := hf.1; have := hf.2.1; omega,
    by simp⟩

private theorem le_round (hf : f.Ieee) {e : ℕ} {v : FVal} (h : (FVal.fin ((2 : ℝ) ^ e)).Le v) :
    (FVal.fin ((2 : ℝ) ^ e)).Le (f.round v) ∧ (f.emax ≤ e → f.round v = .inf false) := by
  have hp : 1 ≤ f.p := by have := hf.1; omega
  have hr : f.rndInf ((2 : ℝ) ^ e) = (2 : ℝ) ^ e := rndInf_exact (onGrid_pow hf e)
  have h1 := FVal.Le.round hp h
  have hpos : (0 : ℝ) < 2 ^ e := by positivity
  by_cases hlt : (2 : ℝ) ^ e < (2 : ℝ) ^ f.emax
  · rw [round_fin_of_lt (by rw [hr, abs_of_pos hpos]; exact hlt), hr] at h1
    refine ⟨h1, fun hle => absurd hlt (not_lt.2 ?_)⟩
    rw [← zpow_natCast]
    exact zpow_le_zpow_right₀ (by norm_num) hle
  · have e1 : f.round (.fin ((2 : ℝ) ^ e)) = .inf false := by
      unfold Fmt.round
      dsimp only
      rw [if_neg (by rwa [hr, abs_of_pos hpos]), hr, decide_eq_false (not_lt.2 hpos.le)]
    rw [e1] at h1
    have e2 : f.round v = .inf false := by
      cases hv : f.round v with
      | nan => rw [hv] at h1; simp [FVal.Le] at h1
      | fin y => rw [hv] at h1; simp [FVal.Le] at h1
      | inf t => rw [hv] at h1; simp [FVal.Le] at h1; rw [h1]
    exact ⟨by rw [e2]; rfl, fun _ => e2⟩

private theorem angle_overflow (hw : TwiddleFmt f) (h4 : 4 ≤ f.emax) {j n k N : ℕ} (hj : f.emax ≤ 2 * j + 2) (hn : 2 ^ j ≤ n)
    (hk : 2 ^ j ≤ k) (dir : Direction) : ∀ a, dftAngleI f N n k dir ≠ .fin a := by
  have hf := hw.1
  have h16 : (16 : ℝ) ≤ (2 : ℝ) ^ f.emax := by
    have : (2 : ℝ) ^ (4 : ℤ) ≤ (2 : ℝ) ^ f.emax := zpow_le_zpow_right₀ (by norm_num) h4
    norm_num at this ⊢
    exact this
  obtain ⟨⟨φ, eT, hφ⟩, h1⟩ := twoPi_ok hw h16
  have hφ' := (hφ.near_one hf (by have := hw.u64; push_cast; linarith)).1
  have hπ := Real.pi_gt_three
  have hT : (FVal.fin (2 ^ 2)).Le (twoPiI f) := by
    rw [eT]
    show (2 : ℝ) ^ 2 ≤ Real.pi * 2 * φ
    nlinarith
  have hofNat : ∀ m : ℕ, 2 ^ j ≤ m → (FVal.fin (2 ^ j)).Le (ofNat f m) := fun m hm =>
    (le_round hf (v := .fin m) (show (2 : ℝ) ^ j ≤ m by exact_mod_cast hm)).1
  have hp2 : (0 : ℝ) < 2 ^ j := by positivity
  have s1 := le_mul (by norm_num) hp2 hT (hofNat n hn)
  rw [← pow_add] at s1
  have s2 := le_mul (by positivity) hp2 (le_round hf s1).1 (hofNat k hk)
  rw [← pow_add] at s2
  have s3 := (le_round hf s2).2 (by push_cast; linarith)
  have back : ∀ a, dftAngleI f N n k .backward ≠ .fin a := by
    intro a h
    unfold dftAngleI at h
    dsimp only at h
    rw [if_neg (by decide), h1, s3] at h
    cases hN : ofNat f N with
    | nan => rw [hN] at h; cases h
    | inf t => rw [hN] at h; cases h
    | fin y => rw [hN] at h; simp [FVal.div, Fmt.round] at h
  cases dir with
  | backward => exact back
  | forward =>
    intro a h
    rw [forward_neg] at h
    cases hb : dftAngleI f N n k .backward with
    | fin b => exact back b hb
    | nan => rw [hb] at h; cases h
    | inf t => rw [hb] at h; cases h

/-- **C114** (overflow of the angle).  If `2^(2j+2)` reaches the overflow threshold, every bin from `2^j` on is NaN, whatever
the other samples are, if the last sample is finite and the library has NaN for the cosine and sine of infinities and NaN. -/
theorem C114_overflow (hw : TwiddleFmt f) (h4 : 4 ≤ f.emax) {cos sin : FVal → FVal}
    (hc : ∀ v : FVal, (∀ a, v ≠ .fin a) → cos v = .nan ∧ sin v = .nan) (dir : Direction) (x o : List (SC f))
    (hxo : o.length = x.length) {j : ℕ} (hj : f.emax ≤ 2 * j + 2) {a b : ℝ} (hl : x.getLast? = some ⟨.fin a, .fin b⟩) :
    ∃ y, naiveDftI cos sin x o dir = .ok y ∧ y.length = x.length ∧
      ∀ k, 2 ^ j ≤ k → k < x.length → y.getD k 0 = ⟨.nan, .nan⟩ := by
  refine ⟨vec x.length fun k => acc cos sin (fun n => x.getD n 0) x.length k dir x.length, ?_, length_vec _ _,
    fun k hk hkN => ?_⟩
  · conv_lhs => rw [list_eq_vec (0 : SC f) (rfl : x.length = x.length), list_eq_vec (0 : SC f) hxo]
    exact naiveDftI_vec cos sin dir _ _
  · rw [getD_vec _ _ _ _ hkN]
    obtain ⟨m, hm⟩ : ∃ m, x.length = m + 1 := ⟨x.length - 1, by omega⟩
    have hxm : x.getD m 0 = ⟨.fin a, .fin b⟩ := by
      rw [List.getLast?_eq_getElem?, hm, Nat.add_sub_cancel] at hl
      rw [List.getD_eq_getElem?_getD, hl]
      rfl
    obtain ⟨e1, e2⟩ := hc _ (angle_overflow hw h4 (N := m + 1) hj (show 2 ^ j ≤ m by omega) hk dir)
    rw [hm]
    show acc cos sin (fun n => x.getD n 0) (m + 1) k dir m
      + x.getD m 0 * (polarI f cos sin (.fin 1) (dftAngleI f (m + 1) m k dir)).std = _
    have ew : (polarI f cos sin (.fin 1) (dftAngleI f (m + 1) m k dir)).std = ⟨.nan, .nan⟩ := by
      unfold polarI IC.std
      rw [e1, e2]
      rfl
    rw [ew, hxm]
    generalize acc cos sin (fun n => x.getD n 0) (m + 1) k dir m = t
    have ep : (⟨.fin a, .fin b⟩ : SC f) * ⟨.nan, .nan⟩ = ⟨.nan, .nan⟩ := by
      show annexMul _ _ = _
      unfold annexMul
      simp [FVal.mul, Fmt.round, FVal.sub, FVal.neg, FVal.add, isNanF, isInfF]
    rw [ep]
    show (⟨f.round (t.re.add .nan), f.round (t.im.add .nan)⟩ : SC f) = _
    have hn : ∀ v : FVal, v.add .nan = .nan := fun v => by cases v <;> rfl
    rw [hn, hn]
    rfl

/-- Buffers of different lengths trip the assertion. -/
theorem C114_mismatch (cos sin : FVal → FVal) (x o : List (SC f)) (h : x.length ≠ o.length) (dir : Direction) :
    naiveDftI cos sin x o dir = .error .assertion := by
  unfold naiveDftI
  have : check (decide (x.length = o.length)) = .error .assertion := by
    rw [decide_eq_false h]; rfl
  simp only [this, bind_error]

/-- In single precision, any input of 1000 samples whose magnitudes add to at most one: the results of the forward transform
are finite and within 1/100 of the transform. -/
example (x : List ℂ) (hx : x.length = 1000) (h1 : ∑ n ∈ range 1000, ‖x.getD n 0‖ ≤ 1) : ∃ y : List ℂ,
    naiveDftI (cosR binary32) (sinR binary32) (x.map fun v => (point v : IC binary32).std)
      (vec 1000 fun _ => (0 : SC binary32)) .forward = .ok (y.map fun v => (point v).std) ∧ y.length = 1000 ∧
    ∀ k < 1000, ‖y.getD k 0 - fourier .forward 1000 x k‖ ≤ 0.01 := by
  have hf : binary32.Ieee := by unfold Fmt.Ieee binary32; norm_num
  have hu : binary32.u = 1 / 2 ^ 24 := by
    show (2 : ℝ) ^ (-((24 : ℕ) : ℤ)) = _
    norm_num
  have hν : binary32.minNormal ≤ 1 / 2 ^ 100 := by
    show (2 : ℝ) ^ ((-149 : ℤ) + ((24 : ℕ) : ℤ) - 1) ≤ _
    norm_num
  have hm : (2 : ℝ) ^ 30 ≤ (2 : ℝ) ^ binary32.emax := by
    rw [← zpow_natCast]
    exact zpow_le_zpow_right₀ (by norm_num) (by norm_num [binary32])
  have hS : ∑ n ∈ range 1000, ‖x.getD n 0‖ + ((1000 : ℕ) : ℝ) * (1 / 2 ^ 100) ≤ 1.0001 := by
    have : ((1000 : ℕ) : ℝ) * (1 / 2 ^ 100) ≤ 0.0001 := by norm_num
    exact (add_le_add h1 this).trans (by norm_num)
  have h30 : (16 : ℝ) * ((1000 : ℕ) : ℝ) ^ 2 ≤ 2 ^ 30 := by norm_num
  have h31 : (3 : ℝ) ≤ 2 ^ 30 := by norm_num
  obtain ⟨y, a1, a2, a3⟩ := C114_dft_explicit ⟨hf, by norm_num [binary32], by norm_num [binary32]⟩ (cosR_ok hf) (sinR_ok hf)
    .forward x (vec 1000 fun _ => 0) (by rw [hx]; norm_num) (by rw [hx, length_vec]) (by rw [hx]; exact h30.trans hm)
    (by rw [hx, hu]; norm_num) hν (by rw [hx]; linarith)
  rw [hx] at a2 a3
  refine ⟨y, a1, a2, fun k hk => (a3 k hk).trans ?_⟩
  have : (134 * ((1000 : ℕ) : ℝ) * binary32.u) ≤ 0.009 := by rw [hu]; norm_num
  have hS0 : 0 ≤ ∑ n ∈ range 1000, ‖x.getD n 0‖ + ((1000 : ℕ) : ℝ) * (1 / 2 ^ 100) :=
    add_nonneg (sum_nonneg fun _ _ => norm_nonneg _) (by norm_num)
  exact (mul_le_mul this hS hS0 (by norm_num)).trans (by norm_num)

/-- In half precision the transform of 129 zeros has NaN in bin 128. -/
example : ∃ y, naiveDftI (cosR binary16) (sinR binary16) (vec 129 fun _ => (0 : SC binary16)) (vec 129 fun _ => 0) .forward
    = .ok y ∧ y.length = 129 ∧ y.getD 128 0 = ⟨.nan, .nan⟩ := by
  have hf : binary16.Ieee := by unfold Fmt.Ieee binary16; norm_num
  obtain ⟨y, h1, h2, h3⟩ := C114_overflow (f := binary16) ⟨hf, by norm_num [binary16], by norm_num [binary16]⟩
    (by norm_num [binary16]) (cos := cosR binary16) (sin := sinR binary16) (fun v hv => by
      cases v with
      | fin a => exact absurd rfl (hv a)
      | inf s => exact ⟨rfl, rfl⟩
      | nan => exact ⟨rfl, rfl⟩) .forward (vec 129 fun _ => (0 : SC binary16)) (vec 129 fun _ => 0)
    (by rw [length_vec]) (j := 7) (by norm_num [binary16]) (a := 0) (b := 0) rfl
  rw [length_vec] at h2 h3
  exact ⟨y, h1, h2, h3 128 (by norm_num) (by norm_num)⟩

end Neo.Props
