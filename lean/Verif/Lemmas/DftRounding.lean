import Verif.Model.DftRounding
import Verif.Model.NaiveDft
import Verif.Spec.DftNorm
import Verif.Lemmas.ConvRounding
import Verif.Lemmas.DirectRounding
import Verif.Lemmas.Bluestein
import Verif.Lemmas.Dct

/-! # Rounding errors of the naive DFT, the Bluestein plan and the DCT plan -/

namespace Neo

open Finset

variable {F : Rounding}

/-! ## Points of the unit circle -/

theorem one_le_mulGain (F : Rounding) : 1 ≤ Spec.mulGain F.u := by
  have hu := F.u_nonneg
  unfold Spec.mulGain
  have : 0 ≤ Real.sqrt 2 * (2 * F.u + F.u ^ 2) := by positivity
  linarith

theorem unitErr_nonneg (F : Rounding) : 0 ≤ Spec.unitErr F.u F.ε := by
  have hu := F.u_nonneg
  have hε : 0 ≤ F.ε := (abs_nonneg _).trans (F.cos_err 0)
  unfold Spec.unitErr
  positivity

theorem polar1_err (ang θ : ℝ) :
    ‖(FC.polar1 ang : FC F).val - polar 1 θ‖ ≤ |ang - θ| + Spec.unitErr F.u F.ε := by
  have hpart : ∀ c C : ℝ, |c - C| ≤ F.ε → |C| ≤ 1 → |F.rnd (1 * c) - C| ≤ F.ε + F.u * (1 + F.ε) := by
    intro c C h1 h2
    rw [one_mul]
    have h3 := F.rnd_err c
    have h4 : |c| ≤ 1 + F.ε := by
      calc |c| = |C + (c - C)| := by congr 1; ring
        _ ≤ |C| + |c - C| := abs_add_le _ _
        _ ≤ _ := by linarith
    have h5 := mul_le_mul_of_nonneg_left h4 F.u_nonneg
    calc |F.rnd c - C| = |(F.rnd c - c) + (c - C)| := by congr 1; ring
      _ ≤ |F.rnd c - c| + |c - C| := abs_add_le _ _
      _ ≤ _ := by linarith
  have hε : 0 ≤ F.ε := (abs_nonneg _).trans (F.cos_err 0)
  have hu := F.u_nonneg
  have hA : ‖(FC.polar1 ang : FC F).val - polar 1 ang‖ ≤ Real.sqrt 2 * (F.ε + F.u * (1 + F.ε)) := by
    have hc := hpart _ _ (F.cos_err ang) (Real.abs_cos_le_one _)
    have hs := hpart _ _ (F.sin_err ang) (Real.abs_sin_le_one _)
    set e := F.ε + F.u * (1 + F.ε) with he
    have he0 : 0 ≤ e := by positivity
    apply (sq_le_sq₀ (norm_nonneg _) (by positivity)).1
    rw [mul_pow, Real.sq_sqrt (by norm_num), Complex.sq_norm, Complex.normSq_apply]
    have k1 := mul_self_le_mul_self (abs_nonneg _) hc
    have k2 := mul_self_le_mul_self (abs_nonneg _) hs
    rw [abs_mul_abs_self] at k1 k2
    simp only [FC.polar1, FC.val, polar, Complex.sub_re, Complex.sub_im, one_mul] at k1 k2 ⊢
    nlinarith
  have hB : ‖polar 1 ang - polar 1 θ‖ ≤ |ang - θ| := by
    rw [polar_eq_exp, polar_eq_exp]
    have : Complex.exp (ang * Complex.I) - Complex.exp (θ * Complex.I)
        = Complex.exp (θ * Complex.I) * (Complex.exp (Complex.I * ((ang - θ : ℝ) : ℂ)) - 1) := by
      rw [mul_sub, ← Complex.exp_add, mul_one]
      congr 2
      push_cast
      ring
    rw [this, norm_mul, Complex.norm_exp_ofReal_mul_I, one_mul]
    exact Real.norm_exp_I_mul_ofReal_sub_one_le
  unfold Spec.unitErr
  calc _ ≤ _ := norm_sub_le_norm_sub_add_norm_sub _ (polar 1 ang) _
    _ ≤ _ := by linarith

theorem norm_polar1 (θ : ℝ) : ‖polar 1 θ‖ = 1 := by
  rw [polar_eq_exp, Complex.norm_exp_ofReal_mul_I]

/-- An angle that is exact up to a relative error. -/
theorem angle_err {ang θ ρ T G : ℝ} (h : ang = θ * ρ) (hρ : |ρ - 1| ≤ G - 1) (hθ : |θ| ≤ T) :
    |ang - θ| ≤ T * (G - 1) := by
  have : ang - θ = θ * (ρ - 1) := by rw [h]; ring
  rw [this, abs_mul]
  exact mul_le_mul hθ hρ (abs_nonneg _) ((abs_nonneg _).trans hθ)

theorem twoPi_rel (F : Rounding) : ∃ ρ, F.twoPi = 2 * Real.pi * ρ ∧ |ρ - 1| ≤ (1 + F.u) - 1 := by
  have hpi := Real.pi_pos
  refine ⟨F.twoPi / (2 * Real.pi), by field_simp, ?_⟩
  have : F.twoPi / (2 * Real.pi) - 1 = (F.twoPi - 2 * Real.pi) / (2 * Real.pi) := by field_simp
  rw [this, abs_div, abs_of_pos (by positivity : 0 < 2 * Real.pi), div_le_iff₀ (by positivity)]
  have := F.twoPi_err
  linarith

theorem rel_ne_zero {ρ : ℝ} (h : |ρ - 1| ≤ (1 + F.u) - 1) : ρ ≠ 0 := by
  rintro rfl
  rw [zero_sub, abs_neg, abs_one] at h
  linarith [F.u_lt_one]

/-- Product with a number close to a point of the unit circle. -/
theorem mul_unit_err (a w : FC F) {ω : ℂ} {τ : ℝ} (hω : ‖ω‖ = 1) (hτ : ‖w.val - ω‖ ≤ τ) :
    ‖(a * w).val - a.val * ω‖ ≤ (Spec.mulGain F.u * (1 + τ) - 1) * ‖a.val‖ := by
  have h1 := FC.mul_err a w
  have hw : ‖w.val‖ ≤ 1 + τ := by
    calc ‖w.val‖ = ‖ω + (w.val - ω)‖ := by congr 1; ring
      _ ≤ ‖ω‖ + ‖w.val - ω‖ := norm_add_le _ _
      _ ≤ _ := by linarith
  have hu := F.u_nonneg
  have hv : 0 ≤ Real.sqrt 2 * (2 * F.u + F.u ^ 2) := by positivity
  unfold Spec.mulGain
  set v := Real.sqrt 2 * (2 * F.u + F.u ^ 2)
  have e : (a * w).val - a.val * ω = ((a * w).val - a.val * w.val) + a.val * (w.val - ω) := by ring
  rw [e]
  refine (norm_add_le _ _).trans ?_
  rw [norm_mul]
  have k1 : v * (‖a.val‖ * ‖w.val‖) ≤ v * (‖a.val‖ * (1 + τ)) := by gcongr
  have k2 : ‖a.val‖ * ‖w.val - ω‖ ≤ ‖a.val‖ * τ := by gcongr
  nlinarith

/-! ## Composition of relative errors in the Euclidean norm -/

/-- `f'` is `f`, of norm at most `K`, up to a relative error of `g - 1`. -/
def Near (M : ℕ) (g K : ℝ) (f' f : ℕ → ℂ) : Prop :=
  1 ≤ g ∧ Spec.l2 M f ≤ K ∧ Spec.l2 M (fun i => f' i - f i) ≤ (g - 1) * K

theorem Near.norm {M : ℕ} {g K : ℝ} {f' f : ℕ → ℂ} (h : Near M g K f' f) : Spec.l2 M f' ≤ g * K := by
  rw [l2_congr (g := fun i => (f' i - f i) + f i) (fun i _ => by ring)]
  refine (l2_add_le _ _ _).trans ?_
  linarith [h.2.1, h.2.2]

theorem Near.K_nonneg {M : ℕ} {g K : ℝ} {f' f : ℕ → ℂ} (h : Near M g K f' f) : 0 ≤ K :=
  (l2_nonneg _ _).trans h.2.1

theorem Near.range {M M' : ℕ} {g K : ℝ} {f' f : ℕ → ℂ} (h : Near M g K f' f) (hM : M' ≤ M) : Near M' g K f' f :=
  ⟨h.1, (l2_le_range hM _).trans h.2.1, (l2_le_range hM _).trans h.2.2⟩

/-- A pointwise relative error `q - 1` on top. -/
theorem Near.point {M : ℕ} {g K q : ℝ} {f' f h' : ℕ → ℂ} (h : Near M g K f' f) (hq : 1 ≤ q)
    (hp : ∀ i < M, ‖h' i - f' i‖ ≤ (q - 1) * ‖f' i‖) : Near M (q * g) K h' f := by
  refine ⟨one_le_mul_of_one_le_of_one_le hq h.1, h.2.1, ?_⟩
  have h1 : Spec.l2 M (fun i => h' i - f' i) ≤ (q - 1) * (g * K) := by
    have : Spec.l2 M (fun i => h' i - f' i) ≤ Spec.l2 M (fun i => ((q - 1 : ℝ) : ℂ) * f' i) := by
      apply l2_mono
      intro i hi
      rw [norm_mul, Complex.norm_real, Real.norm_eq_abs, abs_of_nonneg (by linarith)]
      exact hp i hi
    refine this.trans ?_
    rw [l2_smul, Complex.norm_real, Real.norm_eq_abs, abs_of_nonneg (by linarith)]
    exact mul_le_mul_of_nonneg_left h.norm (by linarith)
  refine (l2_sub_le _ _ f' _).trans ?_
  have := h.2.2
  nlinarith

/-- Multiplication by fixed factors of modulus one. -/
theorem Near.unit {M : ℕ} {g K : ℝ} {f' f w : ℕ → ℂ} (h : Near M g K f' f) (hw : ∀ i < M, ‖w i‖ = 1) :
    Near M g K (fun i => f' i * w i) (fun i => f i * w i) := by
  have e : ∀ p : ℕ → ℂ, Spec.l2 M (fun i => p i * w i) = Spec.l2 M p := by
    intro p
    apply le_antisymm <;> apply l2_mono <;> intro i hi <;> rw [norm_mul, hw i hi, mul_one]
  refine ⟨h.1, (e _).le.trans h.2.1, ?_⟩
  rw [l2_congr (g := fun i => (f' i - f i) * w i) (fun i _ => by ring), e]
  exact h.2.2

/-- Multiplication by a table of points close to the unit circle. -/
theorem Near.table {M : ℕ} {g K τ : ℝ} {f : ℕ → ℂ} {a w : ℕ → FC F} {ω : ℕ → ℂ}
    (h : Near M g K (fun i => (a i).val) f) (hτ0 : 0 ≤ τ) (hω : ∀ i < M, ‖ω i‖ = 1)
    (hτ : ∀ i < M, ‖(w i).val - ω i‖ ≤ τ) :
    Near M (Spec.mulGain F.u * (1 + τ) * g) K (fun i => (a i * w i).val) (fun i => f i * ω i) := by
  refine (h.unit hω).point (one_le_mul_of_one_le_of_one_le (one_le_mulGain F) (by linarith)) (fun i hi => ?_)
  rw [norm_mul, hω i hi, mul_one]
  exact mul_unit_err _ _ (hω i hi) (hτ i hi)

/-- The transform. -/
theorem Near.dit {b : ℕ} (hb : 1 ≤ b) (dir : Direction) {g K : ℝ} {x : ℕ → FC F} {f : ℕ → ℂ}
    (h : Near (2 ^ b) g K (fun i => (x i).val) f) :
    Near (2 ^ b) (Spec.fftGain F.u F.ε b * g) (Real.sqrt 2 ^ b * K) (fun k => (ditFn F b dir x k).val)
      (specDft dir (2 ^ b) f) := by
  have hg := one_le_fftGain F b
  have hr : 0 ≤ Real.sqrt 2 ^ b := by positivity
  refine ⟨one_le_mul_of_one_le_of_one_le hg h.1, ?_, ?_⟩
  · rw [l2_specDft hb]
    exact mul_le_mul_of_nonneg_left h.2.1 hr
  · refine (l2_sub_le _ _ (specDft dir (2 ^ b) (fun n => (x n).val)) _).trans ?_
    have h1 := (ditF_fn hb x dir).2
    have h2 : Spec.l2 (2 ^ b) (fun k => specDft dir (2 ^ b) (fun n => (x n).val) k - specDft dir (2 ^ b) f k)
        ≤ Real.sqrt 2 ^ b * ((g - 1) * K) := by
      rw [l2_congr (g := specDft dir (2 ^ b) (fun n => (x n).val - f n)) (fun k _ => by beta_reduce; rw [specDft_sub]),
        l2_specDft hb]
      exact mul_le_mul_of_nonneg_left h.2.2 hr
    have h3 := mul_le_mul_of_nonneg_left (mul_le_mul_of_nonneg_left h.norm hr)
      (by linarith : 0 ≤ Spec.fftGain F.u F.ε b - 1)
    calc _ ≤ _ := add_le_add (h1.trans h3) h2
      _ = _ := by ring

/-- Products of spectra. -/
theorem Near.prod {M : ℕ} {g g' K K' : ℝ} {a b : ℕ → FC F} {f f' : ℕ → ℂ} (h : Near M g K (fun i => (a i).val) f)
    (h' : Near M g' K' (fun i => (b i).val) f') :
    Near M (g * g' * Spec.mulGain F.u) (K * K') (fun i => (a i * b i).val) (fun i => f i * f' i) := by
  refine ⟨one_le_mul_of_one_le_of_one_le (one_le_mul_of_one_le_of_one_le h.1 h'.1) (one_le_mulGain F), ?_, ?_⟩
  · exact (l2_mul_le _ _ _).trans (mul_le_mul h.2.1 h'.2.1 (l2_nonneg _ _) h.K_nonneg)
  · have key := prodF_err ({()} : Finset Unit) h.1 h'.1 (one_le_mulGain F) (fun _ i => (a i).val) (fun _ i => (b i).val)
      (fun _ => f) (fun _ => f') (fun i => (a i * b i).val) (fun _ => K) (fun _ => K') (fun _ _ => h.2.1)
      (fun _ _ => h'.2.1) (fun _ _ => h.2.2) (fun _ _ => h'.2.2) (fun k _ => by
        rw [sum_singleton, sum_singleton]
        unfold Spec.mulGain
        rw [add_sub_cancel_left]
        exact FC.mul_err _ _)
    simpa only [sum_singleton] using key

theorem smul_invSize_err (z : FC F) {N : ℕ} (hN : 0 < N) :
    ‖(FC.smul z (invSizeF F N)).val - z.val * ((1 / (N : ℝ) : ℝ) : ℂ)‖
      ≤ (Spec.scaleGain F.u - 1) * ‖z.val * ((1 / (N : ℝ) : ℝ) : ℂ)‖ := by
  obtain ⟨r1, e1, k1⟩ := invSize_mul (⟨z.re⟩ : FR F) hN
  obtain ⟨r2, e2, k2⟩ := invSize_mul (⟨z.im⟩ : FR F) hN
  have s := one_le_scaleGain F
  apply norm_le_of_parts (by linarith)
  · have a : (FC.smul z (invSizeF F N)).val.re = z.re * (1 / N) * r1 := e1
    rw [Complex.sub_re, a, Complex.re_mul_ofReal, show z.val.re = z.re from rfl]
    have : z.re * (1 / (N : ℝ)) * r1 - z.re * (1 / (N : ℝ)) = (r1 - 1) * (z.re * (1 / (N : ℝ))) := by ring
    rw [this, abs_mul]
    exact mul_le_mul_of_nonneg_right k1 (abs_nonneg _)
  · have a : (FC.smul z (invSizeF F N)).val.im = z.im * (1 / N) * r2 := e2
    rw [Complex.sub_im, a, Complex.im_mul_ofReal, show z.val.im = z.im from rfl]
    have : z.im * (1 / (N : ℝ)) * r2 - z.im * (1 / (N : ℝ)) = (r2 - 1) * (z.im * (1 / (N : ℝ))) := by ring
    rw [this, abs_mul]
    exact mul_le_mul_of_nonneg_right k2 (abs_nonneg _)

/-- The scaling by `1 / N`. -/
theorem Near.scale {M N : ℕ} (hN : 0 < N) {g K : ℝ} {a : ℕ → FC F} {f : ℕ → ℂ}
    (h : Near M g K (fun i => (a i).val) f) :
    Near M (Spec.scaleGain F.u * g) (K / N) (fun i => (FC.smul (a i) (invSizeF F N)).val)
      (fun i => f i * ((1 / (N : ℝ) : ℝ) : ℂ)) := by
  have hc : ‖((1 / (N : ℝ) : ℝ) : ℂ)‖ = 1 / N := by
    rw [Complex.norm_real, Real.norm_eq_abs, abs_of_nonneg (by positivity)]
  have e : ∀ p : ℕ → ℂ, Spec.l2 M (fun i => p i * ((1 / (N : ℝ) : ℝ) : ℂ)) = Spec.l2 M p / N := by
    intro p
    rw [l2_congr (g := fun i => ((1 / (N : ℝ) : ℝ) : ℂ) * p i) (fun i _ => mul_comm _ _), l2_smul, hc]
    ring
  have h0 : Near M g (K / N) (fun i => (a i).val * ((1 / (N : ℝ) : ℝ) : ℂ)) (fun i => f i * ((1 / (N : ℝ) : ℝ) : ℂ)) := by
    refine ⟨h.1, ?_, ?_⟩
    · rw [e]
      exact div_le_div_of_nonneg_right h.2.1 (Nat.cast_nonneg _)
    · rw [l2_congr (g := fun i => ((a i).val - f i) * ((1 / (N : ℝ) : ℝ) : ℂ)) (fun i _ => by ring), e,
        ← mul_div_assoc]
      exact div_le_div_of_nonneg_right h.2.2 (Nat.cast_nonneg _)
  exact h0.point (one_le_scaleGain F) (fun i _ => smul_invSize_err _ hN)

/-! ## The Bluestein plan -/

/-- The computed chirp. -/
noncomputable def chirpF (F : Rounding) (n : ℕ) (dir : Direction) (i : ℕ) : FC F := bluesteinChirpF F n i (dirSign dir)

theorem norm_chirp (n : ℕ) (dir : Direction) (i : ℕ) : ‖chirp n dir i‖ = 1 := norm_polar1 _

theorem chirpF_err (F : Rounding) {n : ℕ} (hn : 0 < n) (dir : Direction) (i : ℕ) :
    ‖(chirpF F n dir i).val - chirp n dir i‖ ≤ Spec.chirpErr F.u F.ε := by
  unfold chirpF chirp bluesteinChirpF bluesteinChirp
  dsimp only
  set s := dirSign dir with hs
  have hsg : |s| = 1 := by rw [hs]; unfold dirSign; split <;> simp
  set j : ℝ := ((i * i % (n * 2) : ℕ) : ℝ) with hj
  have hpi := Real.pi_pos
  obtain ⟨ρ0, e0, r0⟩ := twoPi_rel F
  obtain ⟨ρ1, e1, r1⟩ := rnd_eq F n
  obtain ⟨ρ2, e2, r2⟩ := rnd_eq F (F.twoPi / 2 / F.rnd n)
  obtain ⟨ρ3, e3, r3⟩ := rnd_eq F (F.rnd (F.twoPi / 2 / F.rnd n) * s)
  obtain ⟨ρ4, e4, r4⟩ := rnd_eq F j
  obtain ⟨ρ5, e5, r5⟩ := rnd_eq F (F.rnd j * F.rnd (F.rnd (F.twoPi / 2 / F.rnd n) * s))
  have hn' : (n : ℝ) ≠ 0 := by positivity
  have hρ1 := rel_ne_zero r1
  have hfac : F.rnd (F.rnd j * F.rnd (F.rnd (F.twoPi / 2 / F.rnd n) * s))
      = j * (Real.pi / n * s) * (ρ0 * ρ2 * ρ3 * ρ4 * ρ5 * ρ1⁻¹) := by
    rw [e5, e3, e2, e4, e1, e0]
    field_simp
  have hrel : |ρ0 * ρ2 * ρ3 * ρ4 * ρ5 * ρ1⁻¹ - 1| ≤ (1 + F.u) ^ 5 * (1 - F.u)⁻¹ - 1 := by
    have := rel_mul (rel_mul (rel_mul (rel_mul (rel_mul r0 r2) r3) r4) r5) (rel_inv F.u_lt_one r1)
    refine this.trans (le_of_eq ?_)
    ring
  have hθ : |j * (Real.pi / n * s)| ≤ 2 * Real.pi := by
    rw [abs_mul, abs_mul, hsg, mul_one, abs_of_nonneg (by positivity : 0 ≤ Real.pi / (n : ℝ)),
      abs_of_nonneg (by rw [hj]; positivity), ← mul_div_assoc, div_le_iff₀ (by positivity)]
    have : j ≤ n * 2 := by
      rw [hj]
      exact_mod_cast (Nat.mod_lt _ (by omega)).le
    nlinarith
  refine (polar1_err _ _).trans ?_
  unfold Spec.chirpErr
  linarith [angle_err hfac hrel hθ]

theorem chirpErr_nonneg (F : Rounding) : 0 ≤ Spec.chirpErr F.u F.ε :=
  (norm_nonneg _).trans (chirpF_err F Nat.one_pos .forward 0)

/-- The plan for size `n` with work buffers `f`, `g`. -/
noncomputable def bluesteinPlanFOf (F : Rounding) (n : ℕ) (f g : ℕ → FC F) : BluesteinPlanF F :=
  { size := n
    plan := dit2PlanFOf F (Nat.clog 2 (n * 2 + 1))
    wf := vec n (chirpF F n .forward)
    wb := vec n (chirpF F n .backward)
    a := vec (2 ^ Nat.clog 2 (n * 2 + 1)) f
    b := vec (2 ^ Nat.clog 2 (n * 2 + 1)) g }

theorem bluesteinPlanF_make_eq {n : ℕ} (hn : n * 2 + 1 ≤ 2 ^ 27) :
    BluesteinPlanF.make F n = .ok (bluesteinPlanFOf F n (fun _ => 0) (fun _ => 0)) := by
  unfold BluesteinPlanF.make
  rw [nextOrder_eq, dit2Plan_makeF_eq F ((Nat.clog_le_iff_le_pow (by norm_num)).2 hn), bind_ok]
  have hl : forN n (fun i (w : List (FC F) × List (FC F)) => do
      let wf ← wr w.1 i (bluesteinChirpF F n i (-1))
      let wb ← wr w.2 i (bluesteinChirpF F n i 1)
      pure (wf, wb)) (vec n (fun _ => (0 : FC F)), vec n (fun _ => (0 : FC F)))
      = .ok (vec n (chirpF F n .forward), vec n (chirpF F n .backward)) := by
    apply forN_eq' (fun t => (vec n (fun i => if i < t then chirpF F n .forward i else 0),
      vec n (fun i => if i < t then chirpF F n .backward i else 0)))
    · simp
    · refine Prod.ext ?_ ?_ <;> exact vec_ext (fun i hi => by simp [hi])
    · intro t ht
      dsimp only
      rw [wr_vec_ok ht, bind_ok, wr_vec_ok ht, bind_ok, pure_eq_ok]
      congr 1
      refine Prod.ext ?_ ?_ <;>
      · apply vec_ext
        intro i hi
        by_cases h : i = t
        · subst h; simp [chirpF, dirSign]
        · have : i < t + 1 ↔ i < t := by omega
          simp [h, this]
  rw [hl, bind_ok]
  rfl

/-- The computed symmetric chirp; element 0 is not conjugated. -/
noncomputable def chirpSymF (F : Rounding) (n m : ℕ) (dir : Direction) (i : ℕ) : FC F :=
  if i = 0 then chirpF F n dir 0 else
  if i < n then FC.conj (chirpF F n dir i) else if m - i < n then FC.conj (chirpF F n dir (m - i)) else 0

theorem chirpSymF_loop {n m : ℕ} (hn : 0 < n) (hm : n * 2 + 1 ≤ m) (dir : Direction) :
    forR 1 n (fun i b => do
      let m := b.length
      let wi ← rd (vec n (chirpF F n dir)) i
      let c := FC.conj wi
      let b ← wr b i c
      wr b (m - i) c) (vec m (Function.update (fun _ => (0 : FC F)) 0 (chirpF F n dir 0)))
      = .ok (vec m (chirpSymF F n m dir)) := by
  apply forR_eq' (fun t => vec m (fun i => if i = 0 then chirpF F n dir 0 else
    if i < t then FC.conj (chirpF F n dir i)
    else if m - i < t then FC.conj (chirpF F n dir (m - i)) else 0)) hn
  · apply vec_ext
    intro i hi
    by_cases h : i = 0
    · subst h; simp
    · rw [Function.update_of_ne h, if_neg h, if_neg (by omega), if_neg (by omega)]
  · rfl
  · intro t h1 ht
    simp only [length_vec]
    rw [rd_vec_ok ht, bind_ok, wr_vec_ok (by omega), bind_ok, wr_vec_ok (by omega)]
    congr 1
    apply vec_ext
    intro i hi
    by_cases h : i = m - t
    · subst h
      rw [Function.update_self, if_neg (by omega), if_neg (by omega), if_pos (by omega),
        show m - (m - t) = t by omega]
    · rw [Function.update_of_ne h]
      by_cases h2 : i = t
      · subst h2; rw [Function.update_self, if_neg (by omega), if_pos (by omega)]
      · rw [Function.update_of_ne h2]
        by_cases h0 : i = 0
        · rw [if_pos h0, if_pos h0]
        · rw [if_neg h0, if_neg h0]
          by_cases h3 : i < t
          · rw [if_pos h3, if_pos (by omega)]
          · rw [if_neg h3, if_neg (show ¬ i < t + 1 by omega)]
            by_cases h4 : m - i < t
            · rw [if_pos h4, if_pos (by omega)]
            · rw [if_neg h4, if_neg (by omega)]

theorem chirpSymF_err {n m : ℕ} (hn : 0 < n) (dir : Direction) (i : ℕ) :
    ‖(chirpSymF F n m dir i).val - chirpSym n m dir i‖ ≤ Spec.chirpErr F.u F.ε * ‖chirpSym n m dir i‖ := by
  have hc : ∀ k, ‖(FC.conj (chirpF F n dir k)).val - (starRingEnd ℂ) (chirp n dir k)‖
      ≤ Spec.chirpErr F.u F.ε * ‖(starRingEnd ℂ) (chirp n dir k)‖ := by
    intro k
    rw [FC.val_conj, ← map_sub, RCLike.norm_conj, RCLike.norm_conj, norm_chirp, mul_one]
    exact chirpF_err F hn dir k
  unfold chirpSymF chirpSym
  by_cases h0 : i = 0
  · subst h0
    rw [if_pos rfl, if_pos hn, RCLike.norm_conj, norm_chirp, mul_one, chirp_zero, map_one, ← chirp_zero n dir]
    exact chirpF_err F hn dir 0
  · rw [if_neg h0]
    split_ifs
    · exact hc _
    · exact hc _
    · rw [show (0 : FC F).val = 0 from by apply Complex.ext <;> rfl]
      simp

theorem l2_chirpSym {n m : ℕ} (hn : 0 < n) (hm : n * 2 + 1 ≤ m) (dir : Direction) :
    Spec.l2 m (chirpSym n m dir) = Real.sqrt (2 * n - 1) := by
  unfold Spec.l2
  congr 1
  have h : ∀ i ∈ range m, ‖chirpSym n m dir i‖ ^ 2
      = (if i < n then (1 : ℝ) else 0) + (if m - n < i then (1 : ℝ) else 0) := by
    intro i hi
    have := mem_range.1 hi
    unfold chirpSym
    by_cases h1 : i < n
    · rw [if_pos h1, if_pos h1, if_neg (by omega), RCLike.norm_conj, norm_chirp]; norm_num
    · rw [if_neg h1, if_neg h1]
      by_cases h2 : m - i < n
      · rw [if_pos h2, if_pos (by omega), RCLike.norm_conj, norm_chirp]; norm_num
      · rw [if_neg h2, if_neg (by omega)]; norm_num
  rw [sum_congr rfl h, sum_add_distrib, sum_boole, sum_boole]
  have e1 : (range m).filter (fun i => i < n) = range n := by
    ext i; simp only [mem_filter, mem_range]; omega
  have e2 : (range m).filter (fun i => m - n < i) = Ico (m - n + 1) m := by
    ext i; simp only [mem_filter, mem_range, mem_Ico]; omega
  rw [e1, e2, card_range, Nat.card_Ico, show m - (m - n + 1) = n - 1 by omega, Nat.cast_sub hn]
  push_cast
  ring

theorem l2_extend {n m : ℕ} (h : n ≤ m) (f : ℕ → ℂ) :
    Spec.l2 m (fun i => if i < n then f i else 0) = Spec.l2 n f := by
  unfold Spec.l2
  congr 1
  rw [← sum_subset (range_subset_range.2 h) (fun i _ hi => by
    rw [mem_range] at hi
    beta_reduce
    rw [if_neg hi]; simp)]
  exact sum_congr rfl fun i hi => by beta_reduce; rw [if_pos (mem_range.1 hi)]

/-- The value computed by the Bluestein plan. -/
theorem bluesteinF_call_vec {n : ℕ} (hn : 0 < n) (f g x : ℕ → FC F) (dir : Direction) :
    ∃ f' g', ∃ y : ℕ → FC F, (bluesteinPlanFOf F n f g).call (vec n x) dir
      = .ok (bluesteinPlanFOf F n f' g', vec n y) ∧
      Spec.l2 n (fun k => (y k).val - specDft dir n (fun i => (x i).val) k)
        ≤ (Spec.bluesteinGain F.u F.ε (Nat.clog 2 (n * 2 + 1)) - 1)
          * (Real.sqrt 2 ^ Nat.clog 2 (n * 2 + 1) * (Spec.l2 n (fun i => (x i).val) * Real.sqrt (2 * n - 1))) := by
  have hb : 1 ≤ Nat.clog 2 (n * 2 + 1) := Nat.clog_pos (by norm_num) (by omega)
  have hm : n * 2 + 1 ≤ 2 ^ Nat.clog 2 (n * 2 + 1) := Nat.le_pow_clog (by norm_num) _
  have hp : (bluesteinPlanFOf F n f g).plan = dit2PlanFOf F (Nat.clog 2 (n * 2 + 1)) := rfl
  have hsz : (bluesteinPlanFOf F n f g).size = n := rfl
  have ha : (bluesteinPlanFOf F n f g).a = vec (2 ^ Nat.clog 2 (n * 2 + 1)) f := rfl
  have hb' : (bluesteinPlanFOf F n f g).b = vec (2 ^ Nat.clog 2 (n * 2 + 1)) g := rfl
  have hw : (if dir = .forward then (bluesteinPlanFOf F n f g).wf else (bluesteinPlanFOf F n f g).wb)
      = vec n (chirpF F n dir) := by cases dir <;> rfl
  have hps : (dit2PlanFOf F (Nat.clog 2 (n * 2 + 1))).size = 2 ^ Nat.clog 2 (n * 2 + 1) := rfl
  generalize hbb : Nat.clog 2 (n * 2 + 1) = b at *
  set m := 2 ^ b with hmdef
  have hmpos : 0 < m := by omega
  have hτ := chirpErr_nonneg F
  set τ := Spec.chirpErr F.u F.ε with hτd
  let A : ℕ → FC F := fun i => if i < n then x i * chirpF F n dir i else 0
  let B := chirpSymF F n m dir
  let P : ℕ → FC F := fun k => ditFn F b .forward A k * ditFn F b .forward B k
  let C : ℕ → FC F := fun i => FC.smul (ditFn F b .backward P i) (invSizeF F m)
  refine ⟨C, ditFn F b .forward B, fun k => C k * chirpF F n dir k, ?_, ?_⟩
  · unfold BluesteinPlanF.call
    simp only [hp, hsz, ha, hb', hw, hps]
    rw [check_decide_ok (length_vec n x), bind_ok, fillVec_vec, bind_ok, fillVec_vec, bind_ok,
      rdSpan_vec (Nat.zero_le _) (by omega), bind_ok, Nat.sub_zero, multiplyVec_vec, bind_ok,
      wrSpan_vec (by omega), bind_ok, rd_vec_ok hn, bind_ok, wr_vec_ok hmpos, bind_ok,
      chirpSymF_loop hn hm dir, bind_ok]
    have hA : vec m (fun i => if 0 ≤ i ∧ i < 0 + n then x (i - 0) * chirpF F n dir (i - 0) else 0)
        = vec m A := vec_ext (fun i _ => by simp [A])
    have hfft : ∀ h : ℕ → FC F, fft (dit2PlanFOf F b) (vec m h) = .ok (vec m (ditFn F b .forward h)) :=
      fun h => (ditF_fn hb h .forward).1
    have hifft : ∀ h : ℕ → FC F, ifft (dit2PlanFOf F b) (vec m h) = .ok (vec m (ditFn F b .backward h)) :=
      fun h => (ditF_fn hb h .backward).1
    rw [hA, hfft, bind_ok, hfft, bind_ok, multiplyInPlace_vec, bind_ok, hifft, bind_ok,
      unaryOp_vec, bind_ok, rdSpan_vec (Nat.zero_le _) (by omega), bind_ok, Nat.sub_zero,
      multiplyVec_vec, bind_ok, pure_eq_ok]
    congr 1
    refine Prod.ext ?_ ?_
    · unfold bluesteinPlanFOf
      rw [hbb]
    · apply vec_ext
      intro k hk
      rw [Nat.zero_add]
  · set X := Spec.l2 n (fun i => (x i).val) with hX
    let a : ℕ → ℂ := fun i => if i < n then (x i).val * chirp n dir i else 0
    have nx : Near n 1 X (fun i => (x i).val) (fun i => (x i).val) := by
      refine ⟨le_rfl, le_rfl, ?_⟩
      rw [l2_congr (g := fun _ => (0 : ℂ)) (fun i _ => by ring), sub_self, zero_mul]
      unfold Spec.l2
      simp
    have n1 := nx.table (w := chirpF F n dir) (ω := chirp n dir) hτ (fun i _ => norm_chirp n dir i)
      (fun i _ => chirpF_err F hn dir i)
    have n2 : Near m (Spec.mulGain F.u * (1 + τ) * 1) X (fun i => (A i).val) a := by
      have hAv : ∀ i, (A i).val = if i < n then (x i * chirpF F n dir i).val else 0 := by
        intro i
        show (if i < n then x i * chirpF F n dir i else 0 : FC F).val = _
        split_ifs
        · rfl
        · apply Complex.ext <;> rfl
      refine ⟨n1.1, ?_, ?_⟩
      · rw [l2_extend (by omega)]; exact n1.2.1
      · rw [l2_congr (g := fun i => if i < n then (x i * chirpF F n dir i).val - (x i).val * chirp n dir i else 0)
          (fun i _ => by beta_reduce; rw [hAv]; dsimp only [a]; split_ifs <;> simp), l2_extend (by omega)]
        exact n1.2.2
    have n3 := n2.dit hb .forward
    have nb : Near m (1 + τ) (Real.sqrt (2 * n - 1)) (fun i => (B i).val) (chirpSym n m dir) := by
      have hl := l2_chirpSym hn hm dir
      refine ⟨by linarith, hl.le, ?_⟩
      rw [add_sub_cancel_left, ← hl]
      have : Spec.l2 m (fun i => (B i).val - chirpSym n m dir i)
          ≤ Spec.l2 m (fun i => (τ : ℂ) * chirpSym n m dir i) := by
        apply l2_mono
        intro i _
        rw [norm_mul, Complex.norm_real, Real.norm_eq_abs, abs_of_nonneg hτ]
        exact chirpSymF_err hn dir i
      rwa [l2_smul, Complex.norm_real, Real.norm_eq_abs, abs_of_nonneg hτ] at this
    have n4 := nb.dit hb .forward
    have n5 := (n3.prod n4).dit hb .backward
    have n6 := ((n5.scale hmpos).range (by omega : n ≤ m)).table (w := chirpF F n dir) (ω := chirp n dir) hτ
      (fun i _ => norm_chirp n dir i) (fun i _ => chirpF_err F hn dir i)
    have hex : ∀ k < n, specDft .backward m (fun i => specDft .forward m a i * specDft .forward m (chirpSym n m dir) i) k
        * ((1 / (m : ℝ) : ℝ) : ℂ) * chirp n dir k = specDft dir n (fun i => (x i).val) k := by
      intro k hk
      have hm0 : (m : ℂ) ≠ 0 := by exact_mod_cast hmpos.ne'
      have := idft_mul_dft a (chirpSym n m dir) (show k < m by omega)
      rw [show specDft .backward m (fun i => specDft .forward m a i * specDft .forward m (chirpSym n m dir) i) k
        = Spec.idft m (fun k => Spec.dft m a k * Spec.dft m (chirpSym n m dir) k) k from rfl, this,
        ← bluestein_sum hn hm dir (fun i => (x i).val) hk]
      congr 1
      push_cast
      field_simp
      rfl
    refine (le_of_eq (l2_congr fun k hk => ?_)).trans (n6.2.2.trans (le_of_eq ?_))
    · rw [← hex k hk]
    · unfold Spec.bluesteinGain
      rw [← hτd]
      have hr : Real.sqrt 2 ^ b * Real.sqrt 2 ^ b = (m : ℝ) := by
        rw [← mul_pow, Real.mul_self_sqrt (by norm_num), hmdef]; push_cast; rfl
      have hm0 : (m : ℝ) ≠ 0 := by exact_mod_cast hmpos.ne'
      rw [← hr]
      have hr0 : Real.sqrt 2 ^ b ≠ 0 := by positivity
      field_simp

/-! ## The naive transform -/

theorem naiveErr_nonneg (F : Rounding) (N : ℕ) : 0 ≤ Spec.naiveErr F.u F.ε N := by
  have h0 := F.u_nonneg
  have h1 := F.u_lt_one
  have h2 : 1 ≤ (1 + F.u) ^ 7 := one_le_pow₀ (by linarith)
  have h3 : 1 ≤ (1 - F.u)⁻¹ := (one_le_inv₀ (by linarith)).2 (by linarith)
  have h4 : 1 ≤ (1 + F.u) ^ 7 * (1 - F.u)⁻¹ := one_le_mul_of_one_le_of_one_le h2 h3
  have h5 : 0 ≤ (1 + F.u) ^ 7 * (1 - F.u)⁻¹ - 1 := by linarith
  have := Real.pi_pos
  have := unitErr_nonneg F
  unfold Spec.naiveErr
  positivity

/-- The factor computed for the indices `n`, `k`. -/
noncomputable def naiveTw (F : Rounding) (N : ℕ) (dir : Direction) (k n : ℕ) : FC F :=
  FC.polar1 (F.rnd (F.rnd (F.rnd (F.rnd (dirSign dir * F.twoPi) * F.rnd n) * F.rnd k) / F.rnd N))

theorem naiveTw_err (F : Rounding) {N n k : ℕ} (hn : n < N) (hk : k < N) (dir : Direction) :
    ‖(naiveTw F N dir k n).val - root N dir ^ (n * k)‖ ≤ Spec.naiveErr F.u F.ε N := by
  have hN : 0 < N := by omega
  have hN' : (0 : ℝ) < N := by exact_mod_cast hN
  have hpi := Real.pi_pos
  unfold naiveTw
  set s := dirSign dir with hs
  have hsg : |s| = 1 := by rw [hs]; unfold dirSign; split <;> simp
  obtain ⟨ρ0, e0, r0⟩ := twoPi_rel F
  obtain ⟨ρ1, e1, r1⟩ := rnd_eq F (s * F.twoPi)
  obtain ⟨ρ2, e2, r2⟩ := rnd_eq F n
  obtain ⟨ρ3, e3, r3⟩ := rnd_eq F (F.rnd (s * F.twoPi) * F.rnd n)
  obtain ⟨ρ4, e4, r4⟩ := rnd_eq F k
  obtain ⟨ρ5, e5, r5⟩ := rnd_eq F (F.rnd (F.rnd (s * F.twoPi) * F.rnd n) * F.rnd k)
  obtain ⟨ρ6, e6, r6⟩ := rnd_eq F N
  obtain ⟨ρ7, e7, r7⟩ := rnd_eq F (F.rnd (F.rnd (F.rnd (s * F.twoPi) * F.rnd n) * F.rnd k) / F.rnd N)
  have hρ6 := rel_ne_zero r6
  have hfac : F.rnd (F.rnd (F.rnd (F.rnd (s * F.twoPi) * F.rnd n) * F.rnd k) / F.rnd N)
      = s * (Real.pi * 2) * (n : ℝ) * (k : ℝ) / (N : ℝ) * (ρ0 * ρ1 * ρ2 * ρ3 * ρ4 * ρ5 * ρ7 * ρ6⁻¹) := by
    rw [e7, e5, e3, e1, e2, e4, e6, e0]
    ring
  have hrel : |ρ0 * ρ1 * ρ2 * ρ3 * ρ4 * ρ5 * ρ7 * ρ6⁻¹ - 1| ≤ (1 + F.u) ^ 7 * (1 - F.u)⁻¹ - 1 := by
    have := rel_mul (rel_mul (rel_mul (rel_mul (rel_mul (rel_mul (rel_mul r0 r1) r2) r3) r4) r5) r7)
      (rel_inv F.u_lt_one r6)
    refine this.trans (le_of_eq ?_)
    ring
  have hθ : |s * (Real.pi * 2) * (n : ℝ) * (k : ℝ) / (N : ℝ)| ≤ 2 * Real.pi * N := by
    rw [abs_div, abs_mul, abs_mul, abs_mul, hsg, one_mul, abs_of_pos (by positivity : 0 < Real.pi * 2),
      Nat.abs_cast, Nat.abs_cast, Nat.abs_cast, div_le_iff₀ hN']
    have h1 : (n : ℝ) ≤ N := by exact_mod_cast hn.le
    have h2 : (k : ℝ) ≤ N := by exact_mod_cast hk.le
    have h3 : (n : ℝ) * k ≤ N * N := mul_le_mul h1 h2 (Nat.cast_nonneg _) hN'.le
    nlinarith
  have hroot : root N dir ^ (n * k) = polar 1 (s * (Real.pi * 2) * (n : ℝ) * (k : ℝ) / (N : ℝ)) := by
    rw [root_pow_eq, polar_eq_exp, hs]
    congr 1
    cases dir <;> (simp [dirSign]; try ring)
  rw [hroot]
  refine (polar1_err _ _).trans ?_
  unfold Spec.naiveErr
  linarith [angle_err hfac hrel hθ]

theorem naiveDftF_vec {N : ℕ} (dir : Direction) (f g : ℕ → FC F) :
    naiveDftF (vec N f) (vec N g) dir
      = .ok (vec N (fun k => accum (fun n => f n * naiveTw F N dir k n) 0 0 N)) := by
  unfold naiveDftF
  simp only [length_vec, decide_true, check_true, bind_ok]
  refine forN_map g (fun k _ => accum (fun n => f n * naiveTw F N dir k n) 0 0 N) _ (fun k hk h _ => ?_)
  have hin : forN N (fun n tmp => do
      let v ← rd (vec N f) n
      pure (tmp + v * naiveTw F N dir k n)) 0 = .ok (accum (fun n => f n * naiveTw F N dir k n) 0 0 N) := by
    refine forN_eq' (fun i => accum (fun n => f n * naiveTw F N dir k n) 0 0 i) rfl rfl ?_
    intro i hi
    rw [rd_vec_ok hi, bind_ok, pure_eq_ok]
    simp only [accum, zero_add]
  unfold naiveTw dirSign at hin ⊢
  rw [hin, bind_ok, wr_vec_ok hk]

theorem naiveDftF_err {N k : ℕ} (hk : k < N) (dir : Direction) (f : ℕ → FC F) :
    ‖(accum (fun n => f n * naiveTw F N dir k n) 0 0 N).val - specDft dir N (fun n => (f n).val) k‖
      ≤ (Spec.naiveGain F.u F.ε N - 1) * ∑ n ∈ range N, ‖(f n).val‖ := by
  have key := accum_err (FC.approx F) f (naiveTw F N dir k) 0 N
  rw [zero_add, Nat.Ico_zero_eq_range] at key
  have hτ := naiveErr_nonneg F N
  unfold Spec.naiveGain Spec.mulGain
  set τ := Spec.naiveErr F.u F.ε N
  set G := (1 + F.u) ^ N * (1 + Real.sqrt 2 * (2 * F.u + F.u ^ 2)) with hG
  have hu := F.u_nonneg
  have hG1 : 1 ≤ G := one_le_mul_of_one_le_of_one_le (one_le_pow₀ (by linarith))
    (by have : 0 ≤ Real.sqrt 2 * (2 * F.u + F.u ^ 2) := by positivity
        linarith)
  have htw : ∀ n ∈ range N, ‖(naiveTw F N dir k n).val - root N dir ^ (n * k)‖ ≤ τ :=
    fun n hn => naiveTw_err F (mem_range.1 hn) hk dir
  have hnorm : ∀ n ∈ range N, ‖(naiveTw F N dir k n).val‖ ≤ 1 + τ := by
    intro n hn
    have h1 : ‖root N dir ^ (n * k)‖ = 1 := by rw [norm_pow, norm_root, one_pow]
    calc ‖(naiveTw F N dir k n).val‖
        = ‖root N dir ^ (n * k) + ((naiveTw F N dir k n).val - root N dir ^ (n * k))‖ := by congr 1; ring
      _ ≤ _ := norm_add_le _ _
      _ ≤ _ := by linarith [htw n hn]
  have hS : ∑ n ∈ range N, ‖(f n).val‖ * ‖(naiveTw F N dir k n).val‖ ≤ (1 + τ) * ∑ n ∈ range N, ‖(f n).val‖ := by
    rw [mul_sum]
    refine sum_le_sum fun n hn => ?_
    rw [mul_comm]
    exact mul_le_mul_of_nonneg_right (hnorm n hn) (norm_nonneg _)
  have hD : ‖∑ n ∈ range N, (f n).val * (naiveTw F N dir k n).val - specDft dir N (fun n => (f n).val) k‖
      ≤ τ * ∑ n ∈ range N, ‖(f n).val‖ := by
    rw [← dftRoot_dir]
    unfold Spec.dftRoot
    rw [← sum_sub_distrib, mul_sum]
    refine (norm_sum_le _ _).trans (sum_le_sum fun n hn => ?_)
    rw [← mul_sub, norm_mul, mul_comm]
    exact mul_le_mul_of_nonneg_right (htw n hn) (norm_nonneg _)
  have hS0 : 0 ≤ ∑ n ∈ range N, ‖(f n).val‖ := sum_nonneg fun _ _ => norm_nonneg _
  refine (norm_sub_le_norm_sub_add_norm_sub _ (∑ n ∈ range N, (f n).val * (naiveTw F N dir k n).val) _).trans ?_
  have k1 := key.trans (mul_le_mul_of_nonneg_left hS (by linarith : 0 ≤ G - 1))
  calc _ ≤ _ := add_le_add k1 hD
    _ = _ := by ring

/-! ## The DCT plan -/

/-- The plan of order `b` with buffer content `f`. -/
noncomputable def dct2PlanFOf (F : Rounding) (b : ℕ) (f : ℕ → FC F) : Dct2PlanF F :=
  { fft := dit2PlanFOf F b, buffer := vec (2 ^ b) f }

theorem dct2PlanF_make_eq {b : ℕ} (hb : b ≤ 27) : Dct2PlanF.make F b = .ok (dct2PlanFOf F b (fun _ => 0)) := by
  unfold Dct2PlanF.make
  rw [dit2Plan_makeF_eq F hb]; rfl

/-- Makhoul's reordering. -/
def makhoulF (N : ℕ) (x : ℕ → FR F) (i : ℕ) : FR F := if i < N / 2 then x (2 * i) else x (2 * (N - 1 - i) + 1)

theorem makhoulF_loop {H : ℕ} (x : ℕ → FR F) (f : ℕ → FC F) :
    forN H (fun i buf => do
      let src := i * 2
      let top := 2 * H - i - 1
      let a ← rd (vec (2 * H) x) src
      let buf ← wr buf i (FC.ofReal a)
      let b ← rd (vec (2 * H) x) (src + 1)
      wr buf top (FC.ofReal b)) (vec (2 * H) f) = .ok (vec (2 * H) (fun i => FC.ofReal (makhoulF (2 * H) x i))) := by
  apply forN_eq' (fun t => vec (2 * H) (fun i =>
    if i < t ∨ 2 * H - 1 - i < t then FC.ofReal (makhoulF (2 * H) x i) else f i))
  · exact vec_ext (fun i _ => by simp)
  · apply vec_ext
    intro i hi
    rw [if_pos (by omega)]
  · intro t ht
    dsimp only
    rw [rd_vec_ok (by omega), bind_ok, wr_vec_ok (by omega), bind_ok, rd_vec_ok (by omega), bind_ok,
      wr_vec_ok (by omega)]
    congr 1
    apply vec_ext
    intro i hi
    by_cases h1 : i = 2 * H - t - 1
    · subst h1
      rw [Function.update_self, if_pos (by omega)]
      unfold makhoulF
      rw [if_neg (by omega)]
      congr 2; omega
    · rw [Function.update_of_ne h1]
      by_cases h2 : i = t
      · subst h2
        rw [Function.update_self, if_pos (by omega)]
        unfold makhoulF
        rw [if_pos (by omega), Nat.mul_comm]
      · rw [Function.update_of_ne h2]
        by_cases h3 : i < t ∨ 2 * H - 1 - i < t
        · rw [if_pos h3, if_pos (by omega)]
        · rw [if_neg h3, if_neg (by omega)]

theorem makhoulF_val (N : ℕ) (x : ℕ → FR F) (i : ℕ) : (makhoulF N x i).val = makhoul N (fun i => (x i).val) i := by
  unfold makhoulF makhoul
  split_ifs <;> rfl

theorem l2_makhoul (H : ℕ) (x : ℕ → ℝ) :
    Spec.l2 (2 * H) (fun i => (makhoul (2 * H) x i : ℂ)) = Spec.l2 (2 * H) (fun i => (x i : ℂ)) := by
  unfold Spec.l2
  congr 1
  simp only [Complex.norm_real]
  rw [sum_ends, sum_two_mul]
  apply sum_congr rfl
  intro m hm
  have := mem_range.1 hm
  unfold makhoul
  rw [if_pos (by omega), if_neg (by omega), show 2 * H - 1 - (2 * H - 1 - m) = m by omega]

theorem dctErr_nonneg (F : Rounding) : 0 ≤ Spec.dctErr F.u F.ε := by
  have h0 := F.u_nonneg
  have h1 := F.u_lt_one
  have h2 : 1 ≤ (1 + F.u) ^ 5 := one_le_pow₀ (by linarith)
  have h3 : 1 ≤ (1 - F.u)⁻¹ := (one_le_inv₀ (by linarith)).2 (by linarith)
  have h4 : 1 ≤ (1 + F.u) ^ 5 * ((1 - F.u)⁻¹) ^ 2 := one_le_mul_of_one_le_of_one_le h2 (one_le_pow₀ h3)
  have h5 : 0 ≤ (1 + F.u) ^ 5 * ((1 - F.u)⁻¹) ^ 2 - 1 := by linarith
  have := Real.pi_pos
  have := unitErr_nonneg F
  unfold Spec.dctErr
  positivity

/-- The exact factor of coefficient `i`, without the 2. -/
noncomputable def dctTw (len i : ℕ) : ℂ := polar 1 (-(Real.pi * i / (2 * len)))

theorem dct2Scale_eq (len i : ℕ) : dct2Scale len i = 2 * dctTw len i := by
  unfold dct2Scale dctTw
  dsimp only
  rw [polar_eq_exp, show (⟨0, -1⟩ : ℂ) = -Complex.I by apply Complex.ext <;> simp]
  congr 2
  push_cast
  ring

theorem dct2ScaleF_err (F : Rounding) {len i : ℕ} (hi : i < len) :
    ‖(dct2ScaleF F len i).val - 2 * dctTw len i‖ ≤ 2 * ((1 + F.u) * (1 + Spec.dctErr F.u F.ε) - 1) := by
  have hl : (0 : ℝ) < len := by exact_mod_cast (by omega : 0 < len)
  have hpi := Real.pi_pos
  unfold dct2ScaleF
  dsimp only
  obtain ⟨ρ0, e0, r0⟩ := twoPi_rel F
  obtain ⟨ρ1, e1, r1⟩ := rnd_eq F (-1 * (F.twoPi / 2))
  obtain ⟨ρ2, e2, r2⟩ := rnd_eq F i
  obtain ⟨ρ3, e3, r3⟩ := rnd_eq F (F.rnd (-1 * (F.twoPi / 2)) * F.rnd i)
  obtain ⟨ρ4, e4, r4⟩ := rnd_eq F len
  obtain ⟨ρ5, e5, r5⟩ := rnd_eq F (2 * F.rnd len)
  obtain ⟨ρ6, e6, r6⟩ := rnd_eq F (F.rnd (F.rnd (-1 * (F.twoPi / 2)) * F.rnd i) / F.rnd (2 * F.rnd len))
  have hρ4 := rel_ne_zero r4
  have hρ5 := rel_ne_zero r5
  set ang := F.rnd (F.rnd (F.rnd (-1 * (F.twoPi / 2)) * F.rnd i) / F.rnd (2 * F.rnd len)) with hang
  have hfac : ang = -(Real.pi * i / (2 * len)) * (ρ0 * ρ1 * ρ2 * ρ3 * ρ6 * ρ4⁻¹ * ρ5⁻¹) := by
    rw [e6, e5, e4, e3, e2, e1, e0]
    field_simp
  have hrel : |ρ0 * ρ1 * ρ2 * ρ3 * ρ6 * ρ4⁻¹ * ρ5⁻¹ - 1| ≤ (1 + F.u) ^ 5 * ((1 - F.u)⁻¹) ^ 2 - 1 := by
    have := rel_mul (rel_mul (rel_mul (rel_mul (rel_mul (rel_mul r0 r1) r2) r3) r6) (rel_inv F.u_lt_one r4))
      (rel_inv F.u_lt_one r5)
    refine this.trans (le_of_eq ?_)
    ring
  have hθ : |-(Real.pi * i / (2 * len))| ≤ Real.pi / 2 := by
    rw [abs_neg, abs_of_nonneg (by positivity), div_le_div_iff₀ (by positivity) (by norm_num)]
    have : (i : ℝ) ≤ len := by exact_mod_cast hi.le
    nlinarith
  have hp : ‖(FC.polar1 ang : FC F).val - dctTw len i‖ ≤ Spec.dctErr F.u F.ε := by
    refine (polar1_err _ _).trans ?_
    unfold Spec.dctErr
    linarith [angle_err hfac hrel hθ]
  set c : FC F := FC.polar1 ang
  have hs : ‖(FC.smul c ⟨2⟩).val - 2 * c.val‖ ≤ F.u * ‖2 * c.val‖ := by
    have e : (2 : ℂ) * c.val = c.val * ((2 : ℝ) : ℂ) := by push_cast; ring
    rw [e]
    apply norm_le_of_parts F.u_nonneg
    · rw [Complex.sub_re, Complex.re_mul_ofReal]
      exact F.rnd_err (c.re * 2)
    · rw [Complex.sub_im, Complex.im_mul_ofReal]
      exact F.rnd_err (c.im * 2)
  have hc : ‖c.val‖ ≤ 1 + Spec.dctErr F.u F.ε := by
    have h1 : ‖dctTw len i‖ = 1 := norm_polar1 _
    calc ‖c.val‖ = ‖dctTw len i + (c.val - dctTw len i)‖ := by congr 1; ring
      _ ≤ _ := norm_add_le _ _
      _ ≤ _ := by linarith
  rw [norm_mul, Complex.norm_ofNat] at hs
  have e : (FC.smul c ⟨2⟩).val - 2 * dctTw len i
      = ((FC.smul c ⟨2⟩).val - 2 * c.val) + 2 * (c.val - dctTw len i) := by ring
  rw [e]
  refine (norm_add_le _ _).trans ?_
  rw [norm_mul, Complex.norm_ofNat]
  have hu := F.u_nonneg
  have := mul_le_mul_of_nonneg_left hc hu
  nlinarith

/-- Product with the computed factor. -/
theorem mul_dct_err (a : FC F) {len i : ℕ} (hi : i < len) :
    ‖(a * dct2ScaleF F len i).val - a.val * (2 * dctTw len i)‖
      ≤ (Spec.mulGain F.u * ((1 + F.u) * (1 + Spec.dctErr F.u F.ε)) - 1) * ‖a.val * (2 * dctTw len i)‖ := by
  have h1 := FC.mul_err a (dct2ScaleF F len i)
  have h2 := dct2ScaleF_err F hi
  have hd := dctErr_nonneg F
  have hu := F.u_nonneg
  set T := (1 + F.u) * (1 + Spec.dctErr F.u F.ε) with hT
  have hω : ‖dctTw len i‖ = 1 := norm_polar1 _
  have h3 : ‖a.val * (2 * dctTw len i)‖ = 2 * ‖a.val‖ := by
    rw [norm_mul, norm_mul, hω, Complex.norm_ofNat]; ring
  rw [h3]
  set w := (dct2ScaleF F len i).val with hw
  have hwn : ‖w‖ ≤ 2 * T := by
    calc ‖w‖ = ‖2 * dctTw len i + (w - 2 * dctTw len i)‖ := by congr 1; ring
      _ ≤ _ := norm_add_le _ _
      _ ≤ 2 + 2 * (T - 1) := by
        rw [norm_mul, hω, Complex.norm_ofNat]; linarith
      _ = _ := by ring
  have e : (a * dct2ScaleF F len i).val - a.val * (2 * dctTw len i)
      = ((a * dct2ScaleF F len i).val - a.val * w) + a.val * (w - 2 * dctTw len i) := by ring
  rw [e]
  refine (norm_add_le _ _).trans ?_
  rw [norm_mul]
  have hv : 0 ≤ Real.sqrt 2 * (2 * F.u + F.u ^ 2) := by positivity
  unfold Spec.mulGain
  set v := Real.sqrt 2 * (2 * F.u + F.u ^ 2)
  have k1 : v * (‖a.val‖ * ‖w‖) ≤ v * (‖a.val‖ * (2 * T)) := by gcongr
  have k2 : ‖a.val‖ * ‖w - 2 * dctTw len i‖ ≤ ‖a.val‖ * (2 * (T - 1)) := by gcongr
  nlinarith

theorem dct2F_call_vec {b : ℕ} (hb : 1 ≤ b) (f : ℕ → FC F) (x : ℕ → FR F) :
    ∃ f', ∃ y : ℕ → FR F, (dct2PlanFOf F b f).call (vec (2 ^ b) x) = .ok (dct2PlanFOf F b f', vec (2 ^ b) y) ∧
      Spec.l2 (2 ^ b) (fun k => (((y k).val - Spec.dct2 (2 ^ b) (fun i => (x i).val) k : ℝ) : ℂ))
        ≤ (Spec.dctGain F.u F.ε b - 1) * (2 * (Real.sqrt 2 ^ b * Spec.l2 (2 ^ b) (fun i => ((x i).val : ℂ)))) := by
  obtain ⟨c, rfl⟩ : ∃ c, b = c + 1 := ⟨b - 1, by omega⟩
  have h2 : 2 ^ (c + 1) = 2 * 2 ^ c := pow_succ' 2 c
  have hl := makhoulF_loop (H := 2 ^ c) x f
  set V : ℕ → FC F := fun i => FC.ofReal (makhoulF (2 ^ (c + 1)) x i) with hV
  refine ⟨ditFn F (c + 1) .forward V,
    fun i => FC.realPart (ditFn F (c + 1) .forward V i * dct2ScaleF F (2 ^ (c + 1)) i), ?_, ?_⟩
  · unfold Dct2PlanF.call
    simp only [length_vec]
    rw [check_decide_ok (show 2 ^ (c + 1) = (dct2PlanFOf F (c + 1) f).size from rfl), bind_ok]
    rw [show (dct2PlanFOf F (c + 1) f).buffer = vec (2 ^ (c + 1)) f from rfl,
      show (dct2PlanFOf F (c + 1) f).fft = dit2PlanFOf F (c + 1) from rfl,
      show 2 ^ (c + 1) / 2 = 2 ^ c by omega]
    rw [← h2] at hl
    rw [hl, bind_ok, (ditF_fn hb V .forward).1, bind_ok]
    rw [forN_map x (fun i _ => FC.realPart (ditFn F (c + 1) .forward V i * dct2ScaleF F (2 ^ (c + 1)) i)) _
      (fun i hi h _ => by rw [rd_vec_ok hi, bind_ok, wr_vec_ok hi]), bind_ok, pure_eq_ok]
    rfl
  · set X := Spec.l2 (2 ^ (c + 1)) (fun i => ((x i).val : ℂ)) with hX
    have hVv : ∀ i, (V i).val = ((makhoul (2 ^ (c + 1)) (fun i => (x i).val) i : ℝ) : ℂ) := by
      intro i
      rw [hV, FC.val_ofReal, makhoulF_val]
    have nx : Near (2 ^ (c + 1)) 1 X (fun i => (V i).val)
        (fun i => ((makhoul (2 ^ (c + 1)) (fun i => (x i).val) i : ℝ) : ℂ)) := by
      refine ⟨le_rfl, ?_, ?_⟩
      · rw [h2, l2_makhoul, ← h2]
      · rw [l2_congr (g := fun _ => (0 : ℂ)) (fun i _ => by beta_reduce; rw [hVv]; ring), sub_self, zero_mul]
        unfold Spec.l2
        simp
    have n1 := nx.dit hb .forward
    have hω : ∀ i, ‖dctTw (2 ^ (c + 1)) i‖ = 1 := fun i => norm_polar1 _
    have n2 := n1.unit (w := dctTw (2 ^ (c + 1))) (fun i _ => hω i)
    set D := specDft .forward (2 ^ (c + 1)) (fun i => ((makhoul (2 ^ (c + 1)) (fun i => (x i).val) i : ℝ) : ℂ)) with hD
    have n3 : Near (2 ^ (c + 1)) (Spec.fftGain F.u F.ε (c + 1) * 1) (2 * (Real.sqrt 2 ^ (c + 1) * X))
        (fun i => (ditFn F (c + 1) .forward V i).val * (2 * dctTw (2 ^ (c + 1)) i))
        (fun i => D i * (2 * dctTw (2 ^ (c + 1)) i)) := by
      refine ⟨n2.1, ?_, ?_⟩
      · rw [l2_congr (g := fun i => (2 : ℂ) * (D i * dctTw (2 ^ (c + 1)) i)) (fun i _ => by ring), l2_smul,
          Complex.norm_ofNat]
        exact mul_le_mul_of_nonneg_left n2.2.1 (by norm_num)
      · rw [l2_congr (g := fun i => (2 : ℂ) * ((ditFn F (c + 1) .forward V i).val * dctTw (2 ^ (c + 1)) i
          - D i * dctTw (2 ^ (c + 1)) i)) (fun i _ => by ring), l2_smul, Complex.norm_ofNat]
        have := mul_le_mul_of_nonneg_left n2.2.2 (by norm_num : (0 : ℝ) ≤ 2)
        linarith
    have hd := dctErr_nonneg F
    have hu := F.u_nonneg
    have n4 := n3.point (h' := fun i => (ditFn F (c + 1) .forward V i * dct2ScaleF F (2 ^ (c + 1)) i).val)
      (one_le_mul_of_one_le_of_one_le (one_le_mulGain F)
        (one_le_mul_of_one_le_of_one_le (by linarith) (by linarith : 1 ≤ 1 + Spec.dctErr F.u F.ε)))
      (fun i hi => mul_dct_err _ hi)
    refine le_trans (l2_mono fun k hk => ?_) (n4.2.2.trans (le_of_eq ?_))
    · have h3 := makhoul_dct (H := 2 ^ c) (by positivity) (fun i => (x i).val) k
      rw [← h2] at h3
      rw [Complex.norm_real, Real.norm_eq_abs, ← h3, dct2Scale_eq]
      exact Complex.abs_re_le_norm ((ditFn F (c + 1) .forward V k * dct2ScaleF F (2 ^ (c + 1)) k).val
        - D k * (2 * dctTw (2 ^ (c + 1)) k))
    · unfold Spec.dctGain
      ring

end Neo
