import Verif.Model.ConvRounding
import Verif.Lemmas.Rounding
import Verif.Lemmas.Rfft
import Verif.Lemmas.FftConv

/-! # Real transforms and the spectral product in rounded arithmetic -/

namespace Neo

open Finset ComplexConjugate

variable {F : Rounding}

/-! ## Euclidean norms -/

theorem l2_mono {N : ℕ} {f g : ℕ → ℂ} (h : ∀ i < N, ‖f i‖ ≤ ‖g i‖) : Spec.l2 N f ≤ Spec.l2 N g := by
  unfold Spec.l2
  exact Real.sqrt_le_sqrt (sum_le_sum fun i hi =>
    pow_le_pow_left₀ (norm_nonneg _) (h i (mem_range.1 hi)) 2)

theorem l2_le_range {M N : ℕ} (h : M ≤ N) (f : ℕ → ℂ) : Spec.l2 M f ≤ Spec.l2 N f := by
  unfold Spec.l2
  exact Real.sqrt_le_sqrt (sum_le_sum_of_subset_of_nonneg
    (fun i hi => mem_range.2 (lt_of_lt_of_le (mem_range.1 hi) h)) (fun _ _ _ => by positivity))

theorem l2_smul (N : ℕ) (c : ℂ) (f : ℕ → ℂ) : Spec.l2 N (fun i => c * f i) = ‖c‖ * Spec.l2 N f := by
  unfold Spec.l2
  simp only [norm_mul, mul_pow]
  rw [← mul_sum, Real.sqrt_mul (by positivity), Real.sqrt_sq (norm_nonneg _)]

/-- Pointwise norms are what `l2` sees. -/
theorem l2_norm (N : ℕ) (f : ℕ → ℂ) : Spec.l2 N (fun i => (‖f i‖ : ℂ)) = Spec.l2 N f := by
  unfold Spec.l2
  simp

theorem norm_le_l2 {N i : ℕ} (h : i < N) (f : ℕ → ℂ) : ‖f i‖ ≤ Spec.l2 N f := by
  unfold Spec.l2
  apply Real.le_sqrt_of_sq_le
  exact single_le_sum (f := fun i => ‖f i‖ ^ 2) (fun _ _ => by positivity) (mem_range.2 h)

/-- `‖f g‖₂ ≤ ‖f‖₂ ‖g‖₂`. -/
theorem l2_mul_le (N : ℕ) (f g : ℕ → ℂ) : Spec.l2 N (fun i => f i * g i) ≤ Spec.l2 N f * Spec.l2 N g := by
  apply l2_le_of_sq (mul_nonneg (l2_nonneg _ _) (l2_nonneg _ _))
  have h0 := l2_nonneg N g
  calc ∑ n ∈ range N, ‖f n * g n‖ ^ 2 ≤ ∑ n ∈ range N, ‖f n‖ ^ 2 * Spec.l2 N g ^ 2 := by
        refine sum_le_sum fun i hi => ?_
        rw [norm_mul, mul_pow]
        have := norm_le_l2 (mem_range.1 hi) g
        gcongr
    _ = _ := by rw [← sum_mul, ← l2_sq, mul_pow]

theorem l2_sum_le {ι : Type} (s : Finset ι) (N : ℕ) (f : ι → ℕ → ℂ) :
    Spec.l2 N (fun k => ∑ i ∈ s, f i k) ≤ ∑ i ∈ s, Spec.l2 N (f i) := by
  classical
  induction s using Finset.induction_on with
  | empty => simp [Spec.l2]
  | insert a s ha ih =>
    rw [sum_insert ha, l2_congr (g := fun k => f a k + ∑ i ∈ s, f i k) (fun k _ => sum_insert ha)]
    exact (l2_add_le _ _ _).trans (by linarith)

/-- A spectrum of real data has at most twice the energy of its first half. -/
theorem l2_hermitian_le {N : ℕ} (hN : N / 2 + 1 ≤ N) (c : ℕ → ℂ) :
    Spec.l2 N (Spec.hermitian N c) ≤ Real.sqrt 2 * Spec.l2 (N / 2 + 1) c := by
  apply l2_le_of_sq (mul_nonneg (Real.sqrt_nonneg _) (l2_nonneg _ _))
  rw [mul_pow, Real.sq_sqrt (by norm_num), l2_sq, two_mul]
  have e : range N = range (N / 2 + 1) ∪ Ico (N / 2 + 1) N := by
    rw [range_eq_Ico, range_eq_Ico, Ico_union_Ico_eq_Ico (by omega) hN]
  rw [e, sum_union (by
    rw [range_eq_Ico]
    exact Ico_disjoint_Ico_consecutive _ _ _)]
  apply add_le_add
  · exact sum_le_sum fun i hi => by
      rw [mem_range] at hi
      unfold Spec.hermitian
      rw [if_pos (by omega)]
  · have h1 : ∑ n ∈ Ico (N / 2 + 1) N, ‖Spec.hermitian N c n‖ ^ 2
        = ∑ n ∈ Ico 1 (N - N / 2), ‖c n‖ ^ 2 := by
      rw [← sum_nbij' (i := fun n => N - n) (j := fun n => N - n) (s := Ico 1 (N - N / 2))
        (f := fun n => ‖c n‖ ^ 2)]
      · intro a ha; rw [mem_Ico] at ha ⊢; omega
      · intro a ha; rw [mem_Ico] at ha ⊢; omega
      · intro a ha; rw [mem_Ico] at ha; omega
      · intro a ha; rw [mem_Ico] at ha; omega
      · intro a ha
        rw [mem_Ico] at ha
        unfold Spec.hermitian
        rw [if_neg (by omega), RCLike.norm_conj, show N - (N - a) = a by omega]
    rw [h1]
    apply sum_le_sum_of_subset_of_nonneg
    · intro i hi
      rw [mem_Ico] at hi
      rw [mem_range]
      omega
    · intros; positivity

theorem hermitian_sub (N : ℕ) (c d : ℕ → ℂ) (k : ℕ) :
    Spec.hermitian N c k - Spec.hermitian N d k = Spec.hermitian N (fun i => c i - d i) k := by
  unfold Spec.hermitian
  split
  · rfl
  · rw [map_sub]

theorem specDft_sub (dir : Direction) (N : ℕ) (x y : ℕ → ℂ) (k : ℕ) :
    specDft dir N x k - specDft dir N y k = specDft dir N (fun n => x n - y n) k := by
  rw [← dftRoot_dir, ← dftRoot_dir, ← dftRoot_dir]
  unfold Spec.dftRoot
  rw [← sum_sub_distrib]
  exact sum_congr rfl fun n _ => by ring

/-! ## `rfft` and `irfft` -/

/-- The plan built for order `b`, with buffer content `f`. -/
noncomputable def rfftPlanFOf (F : Rounding) (b : ℕ) (f : ℕ → FC F) : RfftPlanF F where
  order := b
  fft := dit2PlanFOf F b
  buffer := vec (2 ^ b) f

theorem rfftPlanFOf_size (b : ℕ) (f : ℕ → FC F) : (rfftPlanFOf F b f).size = 2 ^ b := by
  simp [RfftPlanF.size, rfftPlanFOf]

theorem rfftPlanF_make_eq {b : ℕ} (hb : b ≤ 27) :
    RfftPlanF.make F b = .ok (rfftPlanFOf F b (fun _ => 0)) := by
  unfold RfftPlanF.make
  rw [dit2Plan_makeF_eq F hb, bind_ok, fftSize_eq, pure_eq_ok]
  rfl

theorem copyRealToComplexF_vec {n : ℕ} (f : ℕ → FR F) (g : ℕ → FC F) :
    copyRealToComplexF (vec n f) (vec n g) = .ok (vec n (fun i => FC.ofReal (f i))) := by
  unfold copyRealToComplexF
  simp only [length_vec, decide_true, check_true, bind_ok]
  exact forN_map g (fun i _ => FC.ofReal (f i)) _ (fun i hi h _ => by simp [hi])

/-- The transform of order `b` as computed, as a function of the input. -/
noncomputable def ditFn (F : Rounding) (b : ℕ) (dir : Direction) (x : ℕ → FC F) (k : ℕ) : FC F :=
  match (dit2PlanFOf F b).call (vec (2 ^ b) x) dir with
  | .ok y => y.getD k 0
  | .error _ => 0

theorem ditFn_congr {b : ℕ} {dir : Direction} {x y : ℕ → FC F} (h : ∀ i < 2 ^ b, x i = y i) :
    ditFn F b dir x = ditFn F b dir y := by
  unfold ditFn
  rw [vec_ext h]

theorem ditF_fn {b : ℕ} (hb : 1 ≤ b) (x : ℕ → FC F) (dir : Direction) :
    (dit2PlanFOf F b).call (vec (2 ^ b) x) dir = .ok (vec (2 ^ b) (ditFn F b dir x)) ∧
      Spec.l2 (2 ^ b) (fun k => (ditFn F b dir x k).val - specDft dir (2 ^ b) (fun n => (x n).val) k)
        ≤ (Spec.fftGain F.u F.ε b - 1) * (Real.sqrt 2 ^ b * Spec.l2 (2 ^ b) (fun n => (x n).val)) := by
  obtain ⟨y, e, h⟩ := fftF_call hb (kernel := dit2V3) (fun w f => dit2V3_run hb w f) x dir
  have e' : (dit2PlanFOf F b).call (vec (2 ^ b) x) dir = .ok (vec (2 ^ b) y) := e
  have hy : ∀ k < 2 ^ b, ditFn F b dir x k = y k := by
    intro k hk
    unfold ditFn
    rw [e']
    exact getD_vec _ _ _ _ hk
  refine ⟨e'.trans (congrArg _ (vec_ext fun k hk => (hy k hk).symm)), le_trans (le_of_eq ?_) h⟩
  exact l2_congr fun k hk => by rw [hy k hk]

theorem ditF_call {b : ℕ} (hb : 1 ≤ b) (x : ℕ → FC F) (dir : Direction) :
    ∃ y : ℕ → FC F, (dit2PlanFOf F b).call (vec (2 ^ b) x) dir = .ok (vec (2 ^ b) y) ∧
      Spec.l2 (2 ^ b) (fun k => (y k).val - specDft dir (2 ^ b) (fun n => (x n).val) k)
        ≤ (Spec.fftGain F.u F.ε b - 1) * (Real.sqrt 2 ^ b * Spec.l2 (2 ^ b) (fun n => (x n).val)) :=
  ⟨_, ditF_fn hb x dir⟩

theorem FC.val_ofReal (x : FR F) : (FC.ofReal x).val = (x.val : ℂ) := rfl

theorem FC.val_conj (z : FC F) : z.conj.val = conj z.val := rfl

theorem FC.val_realPart (z : FC F) : z.realPart.val = z.val.re := rfl

/-- The half spectrum computed by `rfft`. -/
noncomputable def rfftFn (F : Rounding) (b : ℕ) (x : ℕ → FR F) : ℕ → FC F :=
  ditFn F b .forward (fun i => FC.ofReal (x i))

theorem rfftFn_congr {b : ℕ} {x y : ℕ → FR F} (h : ∀ i < 2 ^ b, x i = y i) : rfftFn F b x = rfftFn F b y :=
  ditFn_congr fun i hi => by rw [h i hi]

theorem rfftFn_err {b : ℕ} (hb : 1 ≤ b) (x : ℕ → FR F) :
    Spec.l2 (2 ^ b / 2 + 1) (fun k => (rfftFn F b x k).val - Spec.dft (2 ^ b) (fun n => ((x n).val : ℂ)) k)
      ≤ (Spec.fftGain F.u F.ε b - 1) * (Real.sqrt 2 ^ b * Spec.l2 (2 ^ b) (fun n => ((x n).val : ℂ))) :=
  (l2_le_range (half_lt hb) _).trans (ditF_fn hb (fun i => FC.ofReal (x i)) .forward).2

theorem rfftF_fn {b m : ℕ} (hb : 1 ≤ b) (hm : 2 ^ b / 2 + 1 ≤ m) (f : ℕ → FC F) (x : ℕ → FR F)
    (o : ℕ → FC F) :
    ∃ f' : ℕ → FC F, (rfftPlanFOf F b f).rfft (vec (2 ^ b) x) (vec m o) = .ok (rfftPlanFOf F b f',
      vec m (fun k => if k < 2 ^ b / 2 + 1 then rfftFn F b x k else o k)) := by
  have e := (ditF_fn hb (fun i => FC.ofReal (x i)) .forward).1
  refine ⟨rfftFn F b x, ?_⟩
  unfold RfftPlanF.rfft
  simp only [rfftPlanFOf_size]
  have h1 : (rfftPlanFOf F b f).buffer = vec (2 ^ b) f := rfl
  have h2 : (rfftPlanFOf F b f).fft = dit2PlanFOf F b := rfl
  rw [h1, h2, copyRealToComplexF_vec, bind_ok, e, bind_ok,
    rdSpan_vec (Nat.zero_le _) (half_lt hb), bind_ok, Nat.sub_zero, copyInto_vec _ _ (by omega), bind_ok,
    pure_eq_ok]
  congr 2
  exact vec_ext (fun k _ => by simp [rfftFn])

theorem rfftF_vec {b m : ℕ} (hb : 1 ≤ b) (hm : 2 ^ b / 2 + 1 ≤ m) (f : ℕ → FC F) (x : ℕ → FR F)
    (o : ℕ → FC F) :
    ∃ f' : ℕ → FC F, ∃ y : ℕ → FC F, (rfftPlanFOf F b f).rfft (vec (2 ^ b) x) (vec m o) = .ok (rfftPlanFOf F b f',
      vec m (fun k => if k < 2 ^ b / 2 + 1 then y k else o k)) ∧
      Spec.l2 (2 ^ b / 2 + 1) (fun k => (y k).val - Spec.dft (2 ^ b) (fun n => ((x n).val : ℂ)) k)
        ≤ (Spec.fftGain F.u F.ε b - 1) * (Real.sqrt 2 ^ b * Spec.l2 (2 ^ b) (fun n => ((x n).val : ℂ))) := by
  obtain ⟨f', e⟩ := rfftF_fn hb hm f x o
  exact ⟨f', _, e, rfftFn_err hb x⟩

/-- The Hermitian extension built by `irfft`. -/
def hermF (b : ℕ) (c : ℕ → FC F) (k : ℕ) : FC F := if k ≤ 2 ^ b / 2 then c k else (c (2 ^ b - k)).conj

theorem hermF_val (b : ℕ) (c : ℕ → FC F) :
    (fun k => (hermF b c k).val) = Spec.hermitian (2 ^ b) (fun k => (c k).val) := by
  funext k
  unfold Spec.hermitian hermF
  split <;> rfl

/-- The samples computed by `irfft`. -/
noncomputable def irfftFn (F : Rounding) (b : ℕ) (c : ℕ → FC F) (n : ℕ) : FR F :=
  (ditFn F b .backward (hermF b c) n).realPart

theorem irfftFn_congr {b : ℕ} {c d : ℕ → FC F} (h : ∀ k ≤ 2 ^ b / 2, c k = d k) : irfftFn F b c = irfftFn F b d := by
  funext n
  unfold irfftFn
  rw [ditFn_congr (y := hermF b d)]
  intro i hi
  unfold hermF
  split
  · exact h _ ‹_›
  · rw [h _ (by omega)]

theorem irfftFn_err {b : ℕ} (hb : 1 ≤ b) (c : ℕ → FC F) :
    Spec.l2 (2 ^ b) (fun n => ((irfftFn F b c n).val : ℂ)
        - ((Spec.idft (2 ^ b) (Spec.hermitian (2 ^ b) (fun k => (c k).val)) n).re : ℂ))
      ≤ (Spec.fftGain F.u F.ε b - 1)
        * (Real.sqrt 2 ^ b * Spec.l2 (2 ^ b) (Spec.hermitian (2 ^ b) (fun k => (c k).val))) := by
  have hy := (ditF_fn hb (hermF b c) .backward).2
  rw [hermF_val] at hy
  refine (l2_mono fun n _ => ?_).trans hy
  rw [irfftFn, FC.val_realPart, ← Complex.ofReal_sub, ← Complex.sub_re, Complex.norm_real]
  exact Complex.abs_re_le_norm _

theorem irfftF_fn {b l m : ℕ} (hb : 1 ≤ b) (hl : 2 ^ b / 2 + 1 ≤ l) (hl2 : l ≤ 2 ^ b)
    (hm : 2 ^ b ≤ m) (f c : ℕ → FC F) (o : ℕ → FR F) :
    ∃ f' : ℕ → FC F, (rfftPlanFOf F b f).irfft (vec l c) (vec m o) = .ok (rfftPlanFOf F b f',
      vec m (fun n => if n < 2 ^ b then irfftFn F b c n else o n)) := by
  set H : ℕ → FC F := hermF b c with hH
  have e := (ditF_fn hb H .backward).1
  set y := ditFn F b .backward H with hy
  refine ⟨y, ?_⟩
  unfold RfftPlanF.irfft
  simp only [rfftPlanFOf_size]
  have h1 : (rfftPlanFOf F b f).buffer = vec (2 ^ b) f := rfl
  have h2 : (rfftPlanFOf F b f).fft = dit2PlanFOf F b := rfl
  have hl' := half_lt hb
  rw [h1, h2, length_vec, copyInto_vec _ _ (by omega), bind_ok]
  rw [forR_eq' (s' := vec (2 ^ b) H)
    (fun i => vec (2 ^ b) (fun k => if k < i then H k
      else if k < l then c k else f k)) hl', bind_ok, e, bind_ok]
  · rw [forN_eq' (s' := vec m (fun n => if n < 2 ^ b then (y n).realPart else o n))
      (fun i => vec m (fun n => if n < i then (y n).realPart else o n)), bind_ok, pure_eq_ok]
    · rfl
    · exact vec_ext (fun n _ => by simp)
    · rfl
    · intro i hi
      rw [rd_vec_ok hi, bind_ok, wr_vec_ok (by omega)]
      congr 1
      apply vec_ext
      intro n _
      by_cases h : n = i
      · subst h; simp
      · have : n < i + 1 ↔ n < i := by omega
        simp [h, this]
  · apply vec_ext
    intro k hk
    by_cases h : k < 2 ^ b / 2 + 1
    · have hkl : k < l := by omega
      have h' : k ≤ 2 ^ b / 2 := by omega
      simp [h, hkl, hH, hermF, h']
    · simp [h]
  · exact vec_ext (fun k hk => by simp [hk])
  · intro i h1 h2
    rw [rd_vec_ok (by omega), bind_ok, wr_vec_ok h2]
    congr 1
    apply vec_ext
    intro k hk
    have hpow : 2 ^ b % 2 = 0 := by
      obtain ⟨c, rfl⟩ : ∃ c, b = c + 1 := ⟨b - 1, by omega⟩
      rw [pow_succ]; omega
    by_cases h : k = i
    · subst h
      have e1 : 2 ^ b - k < k := by omega
      have e2 : 2 ^ b - k ≤ 2 ^ b / 2 := by omega
      have e3 : ¬ k ≤ 2 ^ b / 2 := by omega
      simp [hH, hermF, e1, e2, e3]
    · have : k < i + 1 ↔ k < i := by omega
      simp [h, this]

theorem irfftF_vec {b l m : ℕ} (hb : 1 ≤ b) (hl : 2 ^ b / 2 + 1 ≤ l) (hl2 : l ≤ 2 ^ b)
    (hm : 2 ^ b ≤ m) (f c : ℕ → FC F) (o : ℕ → FR F) :
    ∃ f' : ℕ → FC F, ∃ z : ℕ → FR F, (rfftPlanFOf F b f).irfft (vec l c) (vec m o) = .ok (rfftPlanFOf F b f',
      vec m (fun n => if n < 2 ^ b then z n else o n)) ∧
      Spec.l2 (2 ^ b) (fun n => ((z n).val : ℂ)
          - ((Spec.idft (2 ^ b) (Spec.hermitian (2 ^ b) (fun k => (c k).val)) n).re : ℂ))
        ≤ (Spec.fftGain F.u F.ε b - 1)
          * (Real.sqrt 2 ^ b * Spec.l2 (2 ^ b) (Spec.hermitian (2 ^ b) (fun k => (c k).val))) := by
  obtain ⟨f', e⟩ := irfftF_fn hb hl hl2 hm f c o
  exact ⟨f', _, e, irfftFn_err hb c⟩

/-! ## Scaling by `1 / size` -/

theorem invSize_mul (x : FR F) {N : ℕ} (hN : 0 < N) :
    ∃ ρ, (x * invSizeF F N).val = x.val * (1 / N) * ρ ∧ |ρ - 1| ≤ Spec.scaleGain F.u - 1 := by
  obtain ⟨r1, e1, k1⟩ := rnd_eq F N
  obtain ⟨r2, e2, k2⟩ := rnd_eq F (1 / F.rnd N)
  obtain ⟨r3, e3, k3⟩ := rnd_eq F (x.val * F.rnd (1 / F.rnd N))
  have hu := F.u_lt_one
  have hr1 : r1 ≠ 0 := by
    rintro rfl
    rw [zero_sub, abs_neg, abs_one] at k1
    linarith
  have hN' : (N : ℝ) ≠ 0 := by positivity
  refine ⟨r1⁻¹ * r2 * r3, ?_, ?_⟩
  · show F.rnd (x.val * F.rnd (1 / F.rnd N)) = _
    rw [e3, e2, e1]
    field_simp
  · have := rel_mul (rel_mul (rel_inv hu k1) k2) k3
    refine this.trans (le_of_eq ?_)
    unfold Spec.scaleGain
    ring

theorem one_le_scaleGain (F : Rounding) : 1 ≤ Spec.scaleGain F.u := by
  have h := F.u_nonneg
  have h1 := F.u_lt_one
  unfold Spec.scaleGain
  rw [← div_eq_mul_inv, one_le_div (by linarith)]
  nlinarith

/-- From a half spectrum close to `C` to scaled samples close to those of `C`. -/
theorem specOutF_err {b : ℕ} (hb : 1 ≤ b) (c : ℕ → FC F) (C : ℕ → ℂ) (z : ℕ → FR F) {e h : ℝ}
    (he : Spec.l2 (2 ^ b / 2 + 1) (fun k => (c k).val - C k) ≤ e)
    (hh : Spec.l2 (2 ^ b) (Spec.hermitian (2 ^ b) C) ≤ h)
    (hz : Spec.l2 (2 ^ b) (fun n => ((z n).val : ℂ)
          - ((Spec.idft (2 ^ b) (Spec.hermitian (2 ^ b) (fun k => (c k).val)) n).re : ℂ))
        ≤ (Spec.fftGain F.u F.ε b - 1)
          * (Real.sqrt 2 ^ b * Spec.l2 (2 ^ b) (Spec.hermitian (2 ^ b) (fun k => (c k).val)))) :
    Spec.l2 (2 ^ b) (fun n => ((z n * invSizeF F (2 ^ b)).val : ℂ) - (specOut (2 ^ b) C n : ℂ))
      ≤ (Spec.scaleGain F.u * Spec.fftGain F.u F.ε b * (Real.sqrt 2 * e)
          + (Spec.scaleGain F.u * Spec.fftGain F.u F.ε b - 1) * h) / Real.sqrt 2 ^ b := by
  set N := 2 ^ b with hN
  set g := Spec.fftGain F.u F.ε b
  set S := Spec.scaleGain F.u
  set r := Real.sqrt 2 ^ b with hr
  have hg : 1 ≤ g := one_le_fftGain F b
  have hS : 1 ≤ S := one_le_scaleGain F
  have hr0 : 0 < r := by positivity
  have hrN : r * r = N := by
    rw [hr, ← mul_pow, Real.mul_self_sqrt (by norm_num), hN]; push_cast; rfl
  have hN0 : (0 : ℝ) < N := by rw [← hrN]; positivity
  set T : ℕ → ℂ := Spec.hermitian N C with hT
  set T' : ℕ → ℂ := Spec.hermitian N (fun k => (c k).val) with hT'
  have hd : Spec.l2 N (fun k => T' k - T k) ≤ Real.sqrt 2 * e := by
    rw [l2_congr (g := Spec.hermitian N (fun k => (c k).val - C k)) (fun k _ => hermitian_sub _ _ _ _)]
    exact (l2_hermitian_le (half_lt hb) _).trans (mul_le_mul_of_nonneg_left he (Real.sqrt_nonneg _))
  have hT'n : Spec.l2 N T' ≤ h + Real.sqrt 2 * e := by
    rw [l2_congr (g := fun k => (T' k - T k) + T k) (fun k _ => by ring)]
    exact (l2_add_le _ _ _).trans (by linarith)
  -- the unscaled samples
  set σ : ℕ → ℂ := fun n => ((Spec.idft N T n).re : ℂ) with hσ
  have hsub : Spec.l2 N (fun n => ((Spec.idft N T' n).re : ℂ) - σ n) ≤ r * (Real.sqrt 2 * e) := by
    have k1 : Spec.l2 N (fun n => ((Spec.idft N T' n).re : ℂ) - σ n)
        ≤ Spec.l2 N (specDft .backward N (fun k => T' k - T k)) := by
      apply l2_mono
      intro n _
      rw [← specDft_sub, hσ, ← Complex.ofReal_sub, ← Complex.sub_re, Complex.norm_real]
      exact Complex.abs_re_le_norm _
    refine k1.trans ?_
    rw [l2_specDft hb]
    exact mul_le_mul_of_nonneg_left hd hr0.le
  have hσn : Spec.l2 N σ ≤ r * h := by
    have k1 : Spec.l2 N σ ≤ Spec.l2 N (specDft .backward N T) := by
      apply l2_mono
      intro n _
      rw [hσ, Complex.norm_real]
      exact Complex.abs_re_le_norm _
    refine k1.trans ?_
    rw [l2_specDft hb]
    exact mul_le_mul_of_nonneg_left hh hr0.le
  have hzσ : Spec.l2 N (fun n => ((z n).val : ℂ) - σ n)
      ≤ r * (g * (Real.sqrt 2 * e) + (g - 1) * h) := by
    refine (l2_sub_le _ _ (fun n => ((Spec.idft N T' n).re : ℂ)) _).trans ?_
    have k2 : (g - 1) * (r * Spec.l2 N T') ≤ (g - 1) * (r * (h + Real.sqrt 2 * e)) := by
      have : 0 ≤ g - 1 := by linarith
      gcongr
    calc _ ≤ (g - 1) * (r * (h + Real.sqrt 2 * e)) + r * (Real.sqrt 2 * e) :=
          add_le_add (hz.trans k2) hsub
      _ = _ := by ring
  -- scaling
  have hpt : ∀ n, ‖((z n * invSizeF F N).val : ℂ) - (specOut N C n : ℂ)‖
      ≤ (1 / N) * (S * ‖((z n).val : ℂ) - σ n‖ + (S - 1) * ‖σ n‖) := by
    intro n
    obtain ⟨ρ, e1, k1⟩ := invSize_mul (z n) (by positivity : 0 < N)
    rw [e1]
    have e2 : (specOut N C n : ℂ) = σ n * (1 / N : ℝ) := by
      unfold specOut
      rw [hσ]
      push_cast
      rfl
    rw [e2]
    have e3 : (((z n).val * (1 / N) * ρ : ℝ) : ℂ) - σ n * (1 / N : ℝ)
        = ((1 / N : ℝ) : ℂ) * ((ρ : ℂ) * (((z n).val : ℂ) - σ n) + ((ρ - 1 : ℝ) : ℂ) * σ n) := by
      push_cast
      ring
    rw [e3, norm_mul, Complex.norm_real, Real.norm_eq_abs, abs_of_nonneg (by positivity)]
    apply mul_le_mul_of_nonneg_left _ (by positivity)
    refine (norm_add_le _ _).trans ?_
    rw [norm_mul, norm_mul, Complex.norm_real, Complex.norm_real, Real.norm_eq_abs, Real.norm_eq_abs]
    have hρ : |ρ| ≤ S := by
      have := abs_add_le (ρ - 1) 1
      rw [sub_add_cancel, abs_one] at this
      linarith
    gcongr
  have hfin : Spec.l2 N (fun n => ((z n * invSizeF F N).val : ℂ) - (specOut N C n : ℂ))
      ≤ (1 / N) * (S * Spec.l2 N (fun n => ((z n).val : ℂ) - σ n) + (S - 1) * Spec.l2 N σ) := by
    have k1 : Spec.l2 N (fun n => ((z n * invSizeF F N).val : ℂ) - (specOut N C n : ℂ))
        ≤ Spec.l2 N (fun n => ((1 / N : ℝ) : ℂ) * ((S : ℂ) * (‖((z n).val : ℂ) - σ n‖ : ℂ)
            + ((S - 1 : ℝ) : ℂ) * (‖σ n‖ : ℂ))) := by
      apply l2_mono
      intro n _
      refine (hpt n).trans (le_of_eq ?_)
      have p : 0 ≤ (1 / (N : ℝ)) * (S * ‖((z n).val : ℂ) - σ n‖ + (S - 1) * ‖σ n‖) := by
        have : 0 ≤ S - 1 := by linarith
        positivity
      generalize ‖σ n‖ = q1 at p ⊢
      generalize ‖((z n).val : ℂ) - σ n‖ = q2 at p ⊢
      rw [← Complex.ofReal_mul, ← Complex.ofReal_mul, ← Complex.ofReal_add, ← Complex.ofReal_mul, Complex.norm_real,
        Real.norm_eq_abs, abs_of_nonneg p]
    refine k1.trans ?_
    rw [l2_smul, Complex.norm_real, Real.norm_eq_abs, abs_of_nonneg (by positivity)]
    apply mul_le_mul_of_nonneg_left _ (by positivity)
    refine (l2_add_le _ _ _).trans ?_
    rw [l2_smul, l2_smul, l2_norm, l2_norm, Complex.norm_real, Complex.norm_real, Real.norm_eq_abs, Real.norm_eq_abs,
      abs_of_nonneg (by linarith), abs_of_nonneg (by linarith)]
  refine hfin.trans ?_
  have k3 : S * Spec.l2 N (fun n => ((z n).val : ℂ) - σ n) ≤ S * (r * (g * (Real.sqrt 2 * e) + (g - 1) * h)) :=
    mul_le_mul_of_nonneg_left hzσ (by linarith)
  have k4 : (S - 1) * Spec.l2 N σ ≤ (S - 1) * (r * h) := mul_le_mul_of_nonneg_left hσn (by linarith)
  calc _ ≤ (1 / N) * (S * (r * (g * (Real.sqrt 2 * e) + (g - 1) * h)) + (S - 1) * (r * h)) := by
        apply mul_le_mul_of_nonneg_left _ (by positivity)
        linarith
    _ = _ := by
        rw [← hrN]
        field_simp
        ring

/-! ## Products of spectra -/

/-- Rounded sum of products of approximate spectra against the exact sum of products of the exact spectra. -/
theorem prodF_err {ι : Type} (s : Finset ι) {M : ℕ} {g g' Q : ℝ} (hg : 1 ≤ g) (hg' : 1 ≤ g') (hQ : 1 ≤ Q) (x' h' x h : ι → ℕ → ℂ)
    (c : ℕ → ℂ) (a d : ι → ℝ)
    (hx : ∀ i ∈ s, Spec.l2 M (x i) ≤ a i) (hh : ∀ i ∈ s, Spec.l2 M (h i) ≤ d i)
    (ex : ∀ i ∈ s, Spec.l2 M (fun k => x' i k - x i k) ≤ (g - 1) * a i)
    (eh : ∀ i ∈ s, Spec.l2 M (fun k => h' i k - h i k) ≤ (g' - 1) * d i)
    (hc : ∀ k < M, ‖c k - ∑ i ∈ s, x' i k * h' i k‖ ≤ (Q - 1) * ∑ i ∈ s, ‖x' i k‖ * ‖h' i k‖) :
    Spec.l2 M (fun k => c k - ∑ i ∈ s, x i k * h i k) ≤ (g * g' * Q - 1) * ∑ i ∈ s, a i * d i := by
  have ha0 : ∀ i ∈ s, 0 ≤ a i := fun i hi => (l2_nonneg _ _).trans (hx i hi)
  have hd0 : ∀ i ∈ s, 0 ≤ d i := fun i hi => (l2_nonneg _ _).trans (hh i hi)
  have gx : ∀ i ∈ s, Spec.l2 M (x' i) ≤ g * a i := fun i hi => by
    rw [l2_congr (g := fun k => (x' i k - x i k) + x i k) (fun k _ => by ring)]
    refine (l2_add_le _ _ _).trans ?_
    have := ex i hi
    have := hx i hi
    linarith
  have gh : ∀ i ∈ s, Spec.l2 M (h' i) ≤ g' * d i := fun i hi => by
    rw [l2_congr (g := fun k => (h' i k - h i k) + h i k) (fun k _ => by ring)]
    refine (l2_add_le _ _ _).trans ?_
    have := eh i hi
    have := hh i hi
    linarith
  have k1 : Spec.l2 M (fun k => c k - ∑ i ∈ s, x' i k * h' i k) ≤ (Q - 1) * ∑ i ∈ s, g * a i * (g' * d i) := by
    have m : Spec.l2 M (fun k => c k - ∑ i ∈ s, x' i k * h' i k)
        ≤ Spec.l2 M (fun k => ((Q - 1 : ℝ) : ℂ) * ∑ i ∈ s, ((‖x' i k * h' i k‖ : ℝ) : ℂ)) := by
      apply l2_mono
      intro k hk
      refine (hc k hk).trans (le_of_eq ?_)
      rw [← Complex.ofReal_sum, ← Complex.ofReal_mul, Complex.norm_real, Real.norm_eq_abs, abs_of_nonneg]
      · simp only [norm_mul]
      · exact mul_nonneg (by linarith) (sum_nonneg fun _ _ => norm_nonneg _)
    refine m.trans ?_
    rw [l2_smul, Complex.norm_real, Real.norm_eq_abs, abs_of_nonneg (by linarith)]
    apply mul_le_mul_of_nonneg_left _ (by linarith)
    refine (l2_sum_le _ _ _).trans (sum_le_sum fun i hi => ?_)
    rw [l2_norm]
    exact (l2_mul_le _ _ _).trans (mul_le_mul (gx i hi) (gh i hi) (l2_nonneg _ _)
      (mul_nonneg (by linarith) (ha0 i hi)))
  have k2 : Spec.l2 M (fun k => ∑ i ∈ s, x' i k * h' i k - ∑ i ∈ s, x i k * h i k)
      ≤ ∑ i ∈ s, (g * g' - 1) * (a i * d i) := by
    rw [l2_congr (g := fun k => ∑ i ∈ s, ((x' i k - x i k) * h' i k + x i k * (h' i k - h i k)))
      (fun k _ => by
        rw [← sum_sub_distrib]
        exact sum_congr rfl fun i _ => by ring)]
    refine (l2_sum_le _ _ _).trans (sum_le_sum fun i hi => ?_)
    refine (l2_add_le _ _ _).trans ?_
    have q1 := (l2_mul_le M (fun k => x' i k - x i k) (h' i)).trans
      (mul_le_mul (ex i hi) (gh i hi) (l2_nonneg _ _) (mul_nonneg (by linarith) (ha0 i hi)))
    have q2 := (l2_mul_le M (x i) (fun k => h' i k - h i k)).trans
      (mul_le_mul (hx i hi) (eh i hi) (l2_nonneg _ _) (ha0 i hi))
    refine (add_le_add q1 q2).trans (le_of_eq (by ring))
  refine (l2_sub_le _ _ (fun k => ∑ i ∈ s, x' i k * h' i k) _).trans ((add_le_add k1 k2).trans (le_of_eq ?_))
  have e1 : ∑ i ∈ s, g * a i * (g' * d i) = g * g' * ∑ i ∈ s, a i * d i := by
    rw [mul_sum]; exact sum_congr rfl fun i _ => by ring
  rw [e1, ← mul_sum]
  ring

/-! ## `fft_convolver` -/

/-- An `fft_convolver` with transform size `2 ^ b`. -/
noncomputable def fcFOf (F : Rounding) (n l b : ℕ) (f : ℕ → FC F) (tmp : ℕ → FR F) (ss ps : ℕ → FC F) :
    FftConvolverF F where
  signalSize := n
  patchSize := l
  plan := rfftPlanFOf F b f
  tmp := vec (2 ^ b) tmp
  signalSpectrum := vec (2 ^ b / 2 + 1) ss
  patchSpectrum := vec (2 ^ b / 2 + 1) ps

theorem fftConvolverF_make_eq {n l : ℕ} (hn : 1 < n) (hl : 1 < l) (hb : Nat.clog 2 (n + l - 1) ≤ 27) :
    FftConvolverF.make F n l = .ok (fcFOf F n l (Nat.clog 2 (n + l - 1)) (fun _ => 0) (fun _ => 0)
      (fun _ => 0) (fun _ => 0)) := by
  unfold FftConvolverF.make outputSizeFull
  rw [if_neg (by omega), bind_ok, nextOrder_eq, rfftPlanF_make_eq hb, bind_ok, check_decide_ok hn, bind_ok,
    check_decide_ok hl, bind_ok, pure_eq_ok]
  simp only [rfftPlanFOf_size]
  rfl

theorem zeroPadForwardF_vec {b n : ℕ} (hb : 1 ≤ b) (hn : n ≤ 2 ^ b) (f : ℕ → FC F) (tmp x : ℕ → FR F)
    (o : ℕ → FC F) :
    ∃ f' : ℕ → FC F, ∃ y : ℕ → FC F,
      zeroPadForwardF (rfftPlanFOf F b f) (vec (2 ^ b) tmp) (vec n x) (vec (2 ^ b / 2 + 1) o)
      = .ok (rfftPlanFOf F b f', vec (2 ^ b) (zext n x), vec (2 ^ b / 2 + 1) y) ∧
      Spec.l2 (2 ^ b / 2 + 1) (fun k => (y k).val - Spec.dft (2 ^ b) (fun i => ((zext n x i).val : ℂ)) k)
        ≤ (Spec.fftGain F.u F.ε b - 1)
          * (Real.sqrt 2 ^ b * Spec.l2 (2 ^ b) (fun i => ((zext n x i).val : ℂ))) := by
  obtain ⟨f1, y, e1, h1⟩ := rfftF_vec hb le_rfl f (zext n x) o
  refine ⟨f1, y, ?_, h1⟩
  unfold zeroPadForwardF
  rw [length_vec, copyInto_vec _ _ (by omega), bind_ok, length_vec, rdSpan_vec hn le_rfl, bind_ok,
    fillVec_vec, bind_ok, wrSpan_vec (by omega), bind_ok]
  have e : (vec (2 ^ b) fun i => if n ≤ i ∧ i < n + (2 ^ b - n) then (0 : FR F)
      else if 0 ≤ i ∧ i < 0 + n then x (i - 0) else tmp i) = vec (2 ^ b) (zext n x) := by
    apply vec_ext
    intro i hi
    unfold zext
    by_cases c : i < n
    · rw [if_neg (by omega), if_pos (by omega), if_pos c, Nat.sub_zero]
    · rw [if_pos (by omega), if_neg c]
  rw [e, e1, bind_ok]
  simp only [pure_eq_ok]
  congr 3
  exact vec_ext (fun k hk => by rw [if_pos hk])

/-- Spectrum of zero-padded data: `‖X‖₂ = √N ‖x‖₂`. -/
theorem l2_dft {b : ℕ} (hb : 1 ≤ b) (x : ℕ → ℂ) :
    Spec.l2 (2 ^ b) (Spec.dft (2 ^ b) x) = Real.sqrt 2 ^ b * Spec.l2 (2 ^ b) x :=
  l2_specDft hb .forward x

/-- Time-domain error of a rounded sum of products of real spectra: the common part of all FFT based
convolvers.  The spectra of the second factor may be worse than those of the first by the factor `κ`. -/
theorem spectral_err {ι : Type} (s : Finset ι) {b : ℕ} (hb : 1 ≤ b) {κ Q : ℝ} (hκ : 1 ≤ κ) (hQ : 1 ≤ Q)
    (x h : ι → ℕ → ℝ) (x' h' : ι → ℕ → FC F) (c : ℕ → FC F) (z : ℕ → FR F)
    (ex : ∀ i ∈ s, Spec.l2 (2 ^ b / 2 + 1) (fun k => (x' i k).val - Spec.dft (2 ^ b) (fun n => (x i n : ℂ)) k)
      ≤ (Spec.fftGain F.u F.ε b - 1) * (Real.sqrt 2 ^ b * Spec.l2 (2 ^ b) (fun n => (x i n : ℂ))))
    (eh : ∀ i ∈ s, Spec.l2 (2 ^ b / 2 + 1) (fun k => (h' i k).val - Spec.dft (2 ^ b) (fun n => (h i n : ℂ)) k)
      ≤ (Spec.fftGain F.u F.ε b * κ - 1) * (Real.sqrt 2 ^ b * Spec.l2 (2 ^ b) (fun n => (h i n : ℂ))))
    (hc : ∀ k < 2 ^ b / 2 + 1, ‖(c k).val - ∑ i ∈ s, (x' i k).val * (h' i k).val‖
      ≤ (Q - 1) * ∑ i ∈ s, ‖(x' i k).val‖ * ‖(h' i k).val‖)
    (hz : Spec.l2 (2 ^ b) (fun n => ((z n).val : ℂ)
          - ((Spec.idft (2 ^ b) (Spec.hermitian (2 ^ b) (fun k => (c k).val)) n).re : ℂ))
        ≤ (Spec.fftGain F.u F.ε b - 1)
          * (Real.sqrt 2 ^ b * Spec.l2 (2 ^ b) (Spec.hermitian (2 ^ b) (fun k => (c k).val)))) :
    Spec.l2 (2 ^ b) (fun n => ((z n * invSizeF F (2 ^ b)).val : ℂ)
        - ((∑ i ∈ s, Spec.circConv (2 ^ b) (x i) (h i) n : ℝ) : ℂ))
      ≤ Spec.spectralGain F.u F.ε b (κ * Q)
        * (Real.sqrt 2 ^ b * ∑ i ∈ s, Spec.l2 (2 ^ b) (fun n => (x i n : ℂ)) * Spec.l2 (2 ^ b) (fun n => (h i n : ℂ)))
      := by
  set g := Spec.fftGain F.u F.ε b with hgd
  set r := Real.sqrt 2 ^ b with hr
  have hr0 : 0 < r := by positivity
  have hg : 1 ≤ g := one_le_fftGain F b
  set X : ι → ℕ → ℂ := fun i => Spec.dft (2 ^ b) (fun n => (x i n : ℂ)) with hX
  set H : ι → ℕ → ℂ := fun i => Spec.dft (2 ^ b) (fun n => (h i n : ℂ)) with hH
  set C : ℕ → ℂ := fun k => ∑ i ∈ s, X i k * H i k with hC
  set W := ∑ i ∈ s, Spec.l2 (2 ^ b) (fun n => (x i n : ℂ)) * Spec.l2 (2 ^ b) (fun n => (h i n : ℂ)) with hW
  have hXn : ∀ i, Spec.l2 (2 ^ b) (X i) = r * Spec.l2 (2 ^ b) (fun n => (x i n : ℂ)) := fun i => l2_dft hb _
  have hHn : ∀ i, Spec.l2 (2 ^ b) (H i) = r * Spec.l2 (2 ^ b) (fun n => (h i n : ℂ)) := fun i => l2_dft hb _
  have eW : ∑ i ∈ s, r * Spec.l2 (2 ^ b) (fun n => (x i n : ℂ)) * (r * Spec.l2 (2 ^ b) (fun n => (h i n : ℂ)))
      = r ^ 2 * W := by
    rw [hW, mul_sum]; exact sum_congr rfl fun i _ => by ring
  have he := prodF_err s hg (one_le_mul_of_one_le_of_one_le hg hκ) hQ (fun i k => (x' i k).val) (fun i k => (h' i k).val) X H (fun k => (c k).val)
    (fun i => r * Spec.l2 (2 ^ b) (fun n => (x i n : ℂ))) (fun i => r * Spec.l2 (2 ^ b) (fun n => (h i n : ℂ)))
    (fun i _ => (l2_le_range (half_lt hb) _).trans (hXn i).le)
    (fun i _ => (l2_le_range (half_lt hb) _).trans (hHn i).le) ex eh hc
  rw [eW] at he
  have hherm : ∀ k < 2 ^ b, Spec.hermitian (2 ^ b) C k = C k := by
    intro k hk
    rw [hC, hermitian_sum]
    exact sum_congr rfl fun i _ => hermitian_mul_dft _ _ hk
  have hh : Spec.l2 (2 ^ b) (Spec.hermitian (2 ^ b) C) ≤ r ^ 2 * W := by
    rw [l2_congr hherm, ← eW]
    refine (l2_sum_le _ _ _).trans (sum_le_sum fun i _ => ?_)
    rw [← hXn, ← hHn]
    exact l2_mul_le _ _ _
  have key := specOutF_err hb c C z he hh hz
  have hs : ∀ n < 2 ^ b, specOut (2 ^ b) C n = ∑ i ∈ s, Spec.circConv (2 ^ b) (x i) (h i) n :=
    fun n hn => specOut_sum s x h hn
  rw [l2_congr (g := fun n => ((z n * invSizeF F (2 ^ b)).val : ℂ) - (specOut (2 ^ b) C n : ℂ))
    (fun n hn => by rw [hs n hn])]
  refine key.trans (le_of_eq ?_)
  unfold Spec.spectralGain
  rw [← hr, ← hgd]
  field_simp
  ring

theorem fftConvolverF_call {n l b : ℕ} (hn : 1 ≤ n) (hl : 1 ≤ l) (hb : 1 ≤ b)
    (hK : n + l - 1 ≤ 2 ^ b) (f : ℕ → FC F) (tmp : ℕ → FR F) (ss ps : ℕ → FC F) (x h o : ℕ → FR F) :
    ∃ f' tmp' ss' ps', ∃ y : ℕ → FR F,
      (fcFOf F n l b f tmp ss ps).call (vec n x) (vec l h) (vec (n + l - 1) o)
        = .ok (fcFOf F n l b f' tmp' ss' ps', vec (n + l - 1) y) ∧
      Spec.l2 (n + l - 1) (fun k => ((y k).val : ℂ)
          - ((Spec.conv (fun i => (zext n x i).val) (fun i => (zext l h i).val) k : ℝ) : ℂ))
        ≤ Spec.spectralGain F.u F.ε b (1 + Real.sqrt 2 * (2 * F.u + F.u ^ 2))
          * (Real.sqrt 2 ^ b * (Spec.l2 (2 ^ b) (fun i => ((zext n x i).val : ℂ))
            * Spec.l2 (2 ^ b) (fun i => ((zext l h i).val : ℂ)))) := by
  obtain ⟨f1, x', e1, ex⟩ := zeroPadForwardF_vec hb (by omega : n ≤ 2 ^ b) f tmp x ss
  obtain ⟨f2, h', e2, eh⟩ := zeroPadForwardF_vec hb (by omega : l ≤ 2 ^ b) f1 (zext n x) h ps
  obtain ⟨f3, z, e3, ez⟩ := irfftF_vec hb le_rfl (half_lt hb) (le_refl (2 ^ b)) f2 (fun k => x' k * h' k) (zext l h)
  have hu := F.u_nonneg
  have hQ : 1 ≤ 1 + Real.sqrt 2 * (2 * F.u + F.u ^ 2) := by
    have : 0 ≤ Real.sqrt 2 * (2 * F.u + F.u ^ 2) := by positivity
    linarith
  have key := spectral_err {()} hb le_rfl hQ (fun _ i => (zext n x i).val) (fun _ i => (zext l h i).val)
    (fun _ => x') (fun _ => h') (fun k => x' k * h' k) z (fun _ _ => ex) (fun _ _ => by rw [mul_one]; exact eh)
    (fun k _ => by
      rw [sum_singleton, sum_singleton, add_sub_cancel_left]
      exact FC.mul_err _ _) ez
  rw [sum_singleton, one_mul] at key
  refine ⟨f3, fun i => z i * invSizeF F (2 ^ b), fun k => x' k * h' k, h', fun i => z i * invSizeF F (2 ^ b), ?_, ?_⟩
  · unfold FftConvolverF.call
    have h1 : (fcFOf F n l b f tmp ss ps).signalSize = n := rfl
    have h2 : (fcFOf F n l b f tmp ss ps).patchSize = l := rfl
    have h3 : (fcFOf F n l b f tmp ss ps).plan = rfftPlanFOf F b f := rfl
    have h4 : (fcFOf F n l b f tmp ss ps).tmp = vec (2 ^ b) tmp := rfl
    have h5 : (fcFOf F n l b f tmp ss ps).signalSpectrum = vec (2 ^ b / 2 + 1) ss := rfl
    have h6 : (fcFOf F n l b f tmp ss ps).patchSpectrum = vec (2 ^ b / 2 + 1) ps := rfl
    simp only [h1, h2, h3, h4, h5, h6, length_vec, outputSizeFull, decide_true, check_true, bind_ok]
    rw [e1, bind_ok]
    simp only []
    rw [e2, bind_ok]
    simp only []
    rw [multiplyInPlace_vec, bind_ok]
    unfold transformBackwardF
    rw [e3, bind_ok]
    simp only [rfftPlanFOf_size]
    rw [scaleVec_vec, bind_ok]
    have hout : (vec (2 ^ b) fun i => (if i < 2 ^ b then z i else zext l h i) * invSizeF F (2 ^ b))
        = vec (2 ^ b) (fun i => z i * invSizeF F (2 ^ b)) := vec_ext (fun i hi => by rw [if_pos hi])
    rw [hout, rdSpan_vec (Nat.zero_le _) hK, bind_ok, Nat.sub_zero, copyVec_vec, bind_ok, pure_eq_ok,
      bind_ok]
    simp only [pure_eq_ok, Nat.zero_add]
    rfl
  · refine le_trans ((l2_le_range hK _).trans' (le_of_eq (l2_congr fun k hk => ?_))) key
    rw [sum_singleton, circConv_eq_conv (P := n) (Q := l)
      (fun m hm => by rw [zext_zero _ hm]; rfl) (fun m hm => by rw [zext_zero _ hm]; rfl) (by omega) (by omega), conv_comm]

end Neo
