import Verif.Model.CompressedIeee
import Verif.Lemmas.IeeeError
import Verif.Props.CompressedFdl

/-! # Rounded compression and decompression of single samples -/

namespace Neo

open Spec Props

variable {f g : Fmt} {t : IntT}

/-- The formats of the samples: at least 24 bits, at least the integers below `2 ^ 32`. -/
def SampleFmt (f : Fmt) : Prop := f.Ieee ∧ 24 ≤ f.p ∧ 32 ≤ f.emax

/-- The storage types of the library. -/
def Small (t : IntT) : Prop := t = i8 ∨ t = i16

theorem Small.bounds (ht : Small t) : (127 : ℝ) ≤ t.max ∧ (t.max : ℝ) ≤ 32767 := by
  rcases ht with rfl | rfl <;> norm_num [i8, i16, IntT.max]

theorem Small.fits (ht : Small t) (z : ℤ) : t.Fits z ↔ -(t.max + 1) ≤ z ∧ z ≤ t.max := by
  rcases ht with rfl | rfl <;> norm_num [i8, i16, IntT.max, IntT.min, IntT.Fits]

theorem Small.conv_fits (ht : Small t) (z : ℤ) : t.Fits (t.conv z) := by
  rcases ht with rfl | rfl
  all_goals
    simp only [IntT.Fits, IntT.conv, IntT.min, IntT.max, i8, i16, if_true]
    norm_num
    omega

theorem Small.max_lt (ht : Small t) : t.max < 2 ^ 15 ∧ 0 < t.max := by
  rcases ht with rfl | rfl <;> norm_num [i8, i16, IntT.max]

theorem SampleFmt.u_le (hf : SampleFmt f) : f.u ≤ 1 / 16777216 := by
  have h : (2 : ℝ) ^ (-(f.p : ℤ)) ≤ (2 : ℝ) ^ (-24 : ℤ) := zpow_le_zpow_right₀ (by norm_num) (by have := hf.2.1; omega)
  refine h.trans ?_
  norm_num

theorem SampleFmt.minNormal_le (hf : SampleFmt f) : f.minNormal ≤ 1 := by
  obtain ⟨⟨h1, h2, h3⟩, h4, h5⟩ := hf
  exact zpow_le_one_of_nonpos₀ (by norm_num) (by omega)

theorem SampleFmt.range (hf : SampleFmt f) : (4294967296 : ℝ) ≤ (2 : ℝ) ^ f.emax := by
  have h : (2 : ℝ) ^ (32 : ℤ) ≤ (2 : ℝ) ^ f.emax := zpow_le_zpow_right₀ (by norm_num) hf.2.2
  refine le_trans ?_ h
  norm_num

theorem SampleFmt.hp (hf : SampleFmt f) : 1 ≤ f.p := by have := hf.2.1; omega

/-- Small integers are numbers of the format. -/
theorem SampleFmt.grid (hf : SampleFmt f) {z : ℤ} (hz : |z| < 2 ^ 24) : f.OnGrid z := by
  obtain ⟨⟨h1, h2, h3⟩, h4, h5⟩ := hf
  refine ⟨z, 0, hz.trans_le (pow_le_pow_right₀ (by norm_num) h4), by omega, by simp⟩

theorem SampleFmt.round_int (hf : SampleFmt f) {z : ℤ} (hz : |z| < 2 ^ 24) : f.round (.fin z) = .fin z := by
  refine round_mem (hf.grid hz) ?_
  have h : |(z : ℝ)| < 2 ^ 24 := by exact_mod_cast hz
  have := hf.range
  norm_num at h
  linarith

theorem Small.round_max (ht : Small t) (hf : SampleFmt f) : f.round (.fin t.max) = .fin t.max := by
  refine hf.round_int ?_
  have := ht.max_lt
  rw [abs_of_pos this.2]
  exact this.1.trans (by norm_num)

/-! ## `lround` -/

theorem lroundR_neg (x : ℝ) : lroundR (-x) = -lroundR x := by
  unfold lroundR
  rcases lt_trichotomy x 0 with h | h | h
  · rw [if_pos (by linarith), if_neg (by linarith), show -x + 1 / 2 = -(x - 1 / 2) by ring, Int.floor_neg]
  · subst h
    norm_num
  · rw [if_neg (by linarith), if_pos h.le, show -x - 1 / 2 = -(x + 1 / 2) by ring, Int.ceil_neg]

theorem lroundR_mono {x y : ℝ} (h : x ≤ y) : lroundR x ≤ lroundR y := by
  unfold lroundR
  split_ifs with h1 h2
  · exact Int.floor_le_floor (by linarith)
  · linarith
  · have a : ⌈x - 1 / 2⌉ ≤ 0 := Int.ceil_le.2 (by push_cast; linarith)
    have b : 0 ≤ ⌊y + 1 / 2⌋ := Int.floor_nonneg.2 (by linarith)
    exact a.trans b
  · exact Int.ceil_le_ceil (by linarith)

theorem lroundR_near {x : ℝ} {n : ℤ} (h : |x - n| < 1 / 2) : lroundR x = n := by
  have h1 := abs_lt.1 h
  have h2 := abs_le.1 (lroundR_close x)
  have a : (lroundR x : ℝ) < n + 1 := by linarith
  have b : (n : ℝ) < lroundR x + 1 := by linarith
  have a' : lroundR x < n + 1 := by exact_mod_cast a
  have b' : n < lroundR x + 1 := by exact_mod_cast b
  omega

theorem i64_fits (z : ℤ) : i64.Fits z ↔ -2 ^ 63 ≤ z ∧ z < 2 ^ 63 := by
  unfold IntT.Fits IntT.min IntT.max i64
  norm_num
  omega

/-! ## Storing -/

theorem compressI_fin (ht : Small t) (hg : SampleFmt g) {x : ℝ}
    (h1 : |f.rndInf (x * t.max)| < (2 : ℝ) ^ f.emax) (h2 : i64.Fits (lroundR (f.rndInf (x * t.max)))) :
    compressI f g t (.fin x) = .ok (t.conv (lroundR (f.rndInf (x * t.max)))) := by
  unfold compressI
  rw [ht.round_max hg, show FVal.mul (.fin x) (.fin (t.max : ℝ)) = .fin (x * t.max) from rfl, round_fin_of_lt h1]
  unfold lroundI
  dsimp only
  rw [if_pos h2, bind_ok, pure_eq_ok]

theorem compressI_near (ht : Small t) (hf : SampleFmt f) (hg : SampleFmt g) {x : ℝ} {r : ℤ} (hr : t.Fits r)
    (h : lroundR (f.rndInf (x * t.max)) = r) : compressI f g t (.fin x) = .ok r := by
  have hb := (ht.fits r).1 hr
  have hm := ht.max_lt
  have hc := abs_le.1 (lroundR_close (f.rndInf (x * t.max)))
  rw [h] at hc
  have hr1 : (r : ℝ) ≤ 2 ^ 15 := by
    have : r ≤ 2 ^ 15 := by omega
    exact_mod_cast this
  have hr2 : -(2 : ℝ) ^ 15 ≤ r := by
    have : -2 ^ 15 ≤ r := by omega
    exact_mod_cast this
  have hrange := hf.range
  rw [compressI_fin ht hg, h, IntT.conv_eq (by rcases ht with rfl | rfl <;> decide) hr]
  · rw [abs_lt]
    norm_num at hr1 hr2
    constructor <;> linarith
  · rw [h, i64_fits]
    constructor <;> omega

/-- A sample in `[-1, 1]` is stored as an integer of magnitude at most the largest one. -/
theorem compressI_unit (ht : Small t) (hf : SampleFmt f) (hg : SampleFmt g) {x : ℝ} (hx : |x| ≤ 1) :
    ∃ r : ℤ, compressI f g t (.fin x) = .ok r ∧ |r| ≤ t.max ∧ |(r : ℝ) - x * t.max| ≤ 1 / 2 + f.u * t.max ∧
      r = lroundR (f.rndInf (x * t.max)) := by
  obtain ⟨hm1, hm2⟩ := ht.bounds
  have hml := ht.max_lt
  have habs : |x * (t.max : ℝ)| ≤ t.max := by
    rw [abs_mul, abs_of_pos (by linarith : (0 : ℝ) < t.max)]
    nlinarith
  have hgrid : f.OnGrid (t.max : ℝ) := hf.grid (by rw [abs_of_pos hml.2]; omega)
  have hy : |f.rndInf (x * t.max)| ≤ t.max := by
    rw [rndInf_abs f hf.hp]
    exact rndInf_le_grid hf.hp hgrid habs
  have hr := lroundR_abs_le hy
  have hfit : t.Fits (lroundR (f.rndInf (x * t.max))) := by
    rw [ht.fits]
    have := abs_le.1 hr
    constructor <;> omega
  refine ⟨_, compressI_near ht hf hg hfit rfl, hr, ?_, rfl⟩
  have h1 := lroundR_close (f.rndInf (x * t.max))
  have h2 := rndInf_abs_err hf.1 habs (hf.minNormal_le.trans (by linarith))
  calc _ = |((lroundR (f.rndInf (x * t.max)) : ℝ) - f.rndInf (x * t.max)) + (f.rndInf (x * t.max) - x * t.max)| := by
        congr 1; ring
    _ ≤ _ := (abs_add_le _ _).trans (add_le_add h1 h2)

/-! ## Reading -/

/-- `inv_scale`. -/
noncomputable def invMax (f : Fmt) (t : IntT) : ℝ := f.rndInf (1 / (t.max : ℝ))

theorem invMax_mul (ht : Small t) (hf : SampleFmt f) : |(t.max : ℝ) * invMax f t - 1| < f.u := by
  obtain ⟨hm1, hm2⟩ := ht.bounds
  refine recip_mul hf.1 (by linarith) ?_
  have h : (2 : ℝ) ^ (30 : ℤ) ≤ (2 : ℝ) ^ (f.emax - 2) := zpow_le_zpow_right₀ (by norm_num) (by have := hf.2.2; omega)
  refine le_trans ?_ h
  norm_num
  linarith

theorem invMax_bounds (ht : Small t) (hf : SampleFmt f) : 0 < invMax f t ∧ invMax f t ≤ 1 / 64 := by
  obtain ⟨hm1, hm2⟩ := ht.bounds
  have h := abs_lt.1 (invMax_mul ht hf)
  have hu := hf.u_le
  have hpos : 0 < invMax f t := by
    by_contra hc
    push_neg at hc
    nlinarith [h.1]
  refine ⟨hpos, ?_⟩
  by_contra hc
  push_neg at hc
  nlinarith [h.2]

theorem decompressI_eq (ht : Small t) (hf : SampleFmt f) {r : ℤ} (hr : t.Fits r) :
    decompressI f t r = .fin (f.rndInf (r * invMax f t)) ∧ |(r : ℝ) * invMax f t| < 2 := by
  obtain ⟨hm1, hm2⟩ := ht.bounds
  have hml := ht.max_lt
  obtain ⟨hi1, hi2⟩ := invMax_bounds ht hf
  have hrange := hf.range
  have hu := hf.u_le
  have hu0 := u_pos f
  have hb := (ht.fits r).1 hr
  have hinv : f.round (FVal.div (.fin 1) (f.round (.fin t.max))) = .fin (invMax f t) := by
    rw [ht.round_max hf]
    show f.round (if (t.max : ℝ) = 0 then _ else .fin (1 / (t.max : ℝ))) = _
    rw [if_neg (by linarith)]
    refine round_fin_of_lt ?_
    show |invMax f t| < _
    rw [abs_of_pos hi1]
    linarith
  have hrr : |(r : ℝ)| ≤ t.max + 1 := by
    have : |r| ≤ t.max + 1 := by rw [abs_le]; constructor <;> omega
    exact_mod_cast this
  have hlt2 : |(r : ℝ) * invMax f t| < 2 := by
    rw [abs_mul, abs_of_pos hi1]
    have := (abs_lt.1 (invMax_mul ht hf)).2
    nlinarith
  refine ⟨?_, hlt2⟩
  unfold decompressI
  dsimp only
  rw [hinv, hf.round_int (by rw [abs_lt]; constructor <;> omega),
    show FVal.mul (.fin (r : ℝ)) (.fin (invMax f t)) = .fin (r * invMax f t) from rfl]
  refine round_fin_of_lt ?_
  have h1 := rndInf_err_lt_two hf.1 hlt2
  have h2 := abs_sub_abs_le_abs_sub (f.rndInf (r * invMax f t)) (r * invMax f t)
  change _ ≤ f.u at h1
  linarith

/-- What is read is the stored integer over the largest one, up to three unit roundoffs (two for the values that
samples in `[-1, 1]` are stored as). -/
theorem decompressI_near (ht : Small t) (hf : SampleFmt f) {r : ℤ} (hr : t.Fits r) :
    ∃ w : ℝ, decompressI f t r = .fin w ∧ |w - r / t.max| ≤ 3 * f.u ∧
      (|r| ≤ t.max → |w| ≤ 1 ∧ |w - r / t.max| ≤ 2 * f.u) := by
  obtain ⟨hm1, hm2⟩ := ht.bounds
  have hml := ht.max_lt
  obtain ⟨hi1, hi2⟩ := invMax_bounds ht hf
  have hu0 := u_pos f
  have hb := (ht.fits r).1 hr
  obtain ⟨he, hlt2⟩ := decompressI_eq ht hf hr
  have h1 := rndInf_err_lt_two hf.1 hlt2
  change _ ≤ f.u at h1
  have hmul := invMax_mul ht hf
  have hdiff : ∀ c : ℝ, |(r : ℝ)| ≤ c * t.max → |(r : ℝ) * invMax f t - r / t.max| ≤ c * f.u := by
    intro c hc
    have e : (r : ℝ) * invMax f t - r / t.max = r / t.max * (t.max * invMax f t - 1) := by
      have : (t.max : ℝ) ≠ 0 := by linarith
      field_simp
    rw [e, abs_mul, abs_div, abs_of_pos (by linarith : (0 : ℝ) < t.max)]
    refine mul_le_mul ?_ hmul.le (abs_nonneg _) ?_
    · rw [div_le_iff₀ (by linarith)]; exact hc
    · have h0 := (abs_nonneg (r : ℝ)).trans hc
      by_contra hcon
      push_neg at hcon
      nlinarith
  have htot : ∀ c : ℝ, |(r : ℝ)| ≤ c * t.max → |f.rndInf (r * invMax f t) - r / t.max| ≤ (c + 1) * f.u := by
    intro c hc
    calc _ = |(f.rndInf (r * invMax f t) - r * invMax f t) + (r * invMax f t - r / t.max)| := by congr 1; ring
      _ ≤ f.u + c * f.u := (abs_add_le _ _).trans (add_le_add h1 (hdiff c hc))
      _ = _ := by ring
  refine ⟨_, he, ?_, fun hle => ⟨?_, ?_⟩⟩
  · have hrr : |(r : ℝ)| ≤ t.max + 1 := by
      have : |r| ≤ t.max + 1 := by rw [abs_le]; constructor <;> omega
      exact_mod_cast this
    have := htot 2 (by linarith)
    linarith
  · rw [rndInf_abs f hf.hp]
    refine rndInf_le_one hf.1 ?_
    have hrr : |(r : ℝ)| ≤ t.max := by exact_mod_cast hle
    rw [abs_mul, abs_of_pos hi1]
    have := (abs_lt.1 hmul).2
    change _ < 1 + f.u
    nlinarith
  · have hrr : |(r : ℝ)| ≤ t.max := by exact_mod_cast hle
    have := htot 1 (by linarith)
    linarith

/-- Reading a stored integer and storing the result again gives the same integer. -/
theorem compressI_decompressI (ht : Small t) (hf : SampleFmt f) (hg : SampleFmt g) {r : ℤ} (hr : t.Fits r) :
    compressI f g t (decompressI f t r) = .ok r := by
  obtain ⟨hm1, hm2⟩ := ht.bounds
  have hml := ht.max_lt
  have hu := hf.u_le
  have hu0 := u_pos f
  have hb := (ht.fits r).1 hr
  obtain ⟨w, hw, hn, -⟩ := decompressI_near ht hf hr
  rw [hw]
  refine compressI_near ht hf hg hr (lroundR_near ?_)
  have hrr : |(r : ℝ)| ≤ t.max + 1 := by
    have : |r| ≤ t.max + 1 := by rw [abs_le]; constructor <;> omega
    exact_mod_cast this
  have h1 : |w * t.max - r| ≤ 3 * f.u * t.max := by
    have e : w * t.max - r = (w - r / t.max) * t.max := by
      have : (t.max : ℝ) ≠ 0 := by linarith
      field_simp
    rw [e, abs_mul, abs_of_pos (by linarith : (0 : ℝ) < t.max)]
    exact mul_le_mul_of_nonneg_right hn (by linarith)
  have h2 : |w * t.max| ≤ t.max + 2 := by
    have := abs_sub_abs_le_abs_sub (w * t.max) r
    nlinarith
  have h3 := rndInf_abs_err hf.1 h2 (hf.minNormal_le.trans (by linarith))
  calc |f.rndInf (w * t.max) - r| = |(f.rndInf (w * t.max) - w * t.max) + (w * t.max - r)| := by congr 1; ring
    _ ≤ f.u * (t.max + 2) + 3 * f.u * t.max := (abs_add_le _ _).trans (add_le_add h3 h1)
    _ < 1 / 2 := by nlinarith

end Neo
