import Verif.Lemmas.NormIeee
import Verif.Lemmas.Algo
import Verif.Props.Algo

/-! # C92: normalisation and mean in IEEE 754 arithmetic -/

namespace Neo.Props

open Neo Spec

variable {f : Fmt}

/-- The binary formats are IEEE formats in the sense of the theorems below. -/
theorem ieee_formats : binary16.Ieee ∧ Spec.binary32.Ieee ∧ binary64.Ieee := by
  refine ⟨⟨?_, ?_, ?_⟩, ⟨?_, ?_, ?_⟩, ⟨?_, ?_, ?_⟩⟩ <;> simp [binary16, Spec.binary32, binary64]

/-- `p` is the largest magnitude of the numbers in `x` (NaN is not a number). -/
def PeakOf (x : List FVal) (p : ℝ) : Prop := (∀ v, .fin v ∈ x → |v| ≤ p) ∧ ∃ v, .fin v ∈ x ∧ |v| = p

/-! ## The largest magnitude -/

private theorem foldl_maxI_fin (x : List FVal) (hx : ∀ s, .inf s ∉ x) (a : ℝ) (ha : 0 ≤ a) :
    ∃ M, x.foldl (fun m v => maxI m v.abs) (.fin a) = .fin M ∧ a ≤ M ∧ (∀ v, .fin v ∈ x → |v| ≤ M) ∧
      (M = a ∨ ∃ v, .fin v ∈ x ∧ |v| = M) := by
  induction x generalizing a with
  | nil => exact ⟨a, rfl, le_rfl, by simp, Or.inl rfl⟩
  | cons y ys ih =>
    have hys : ∀ s, FVal.inf s ∉ ys := fun s h => hx s (List.mem_cons_of_mem _ h)
    rw [List.foldl_cons]
    cases y with
    | inf s => exact absurd List.mem_cons_self (hx s)
    | nan =>
      have : maxI (.fin a) FVal.nan.abs = .fin a := by
        unfold maxI; rw [if_neg]; exact id
      rw [this]
      obtain ⟨M, h1, h2, h3, h4⟩ := ih hys a ha
      refine ⟨M, h1, h2, fun v hv => h3 v (by simpa using hv), h4.imp id ?_⟩
      rintro ⟨v, hv, h⟩
      exact ⟨v, List.mem_cons_of_mem _ hv, h⟩
    | fin w =>
      have : maxI (.fin a) (FVal.fin w).abs = .fin (max a |w|) := by
        unfold maxI FVal.abs FVal.Lt
        dsimp only
        split
        · rename_i h; rw [max_eq_right h.le]
        · rename_i h; rw [max_eq_left (not_lt.1 h)]
      rw [this]
      obtain ⟨M, h1, h2, h3, h4⟩ := ih hys (max a |w|) (le_max_of_le_left ha)
      refine ⟨M, h1, (le_max_left _ _).trans h2, ?_, ?_⟩
      · intro v hv
        rcases List.mem_cons.1 hv with h | h
        · injection h with h; subst h; exact (le_max_right _ _).trans h2
        · exact h3 v h
      · rcases h4 with h | ⟨v, hv, h⟩
        · rcases le_total a |w| with hle | hle
          · right; exact ⟨w, by simp, by rw [h, max_eq_right hle]⟩
          · left; rw [h, max_eq_left hle]
        · right; exact ⟨v, List.mem_cons_of_mem _ hv, h⟩

private theorem foldl_maxI_top (x : List FVal) : x.foldl (fun m v => maxI m v.abs) (.inf false) = .inf false := by
  induction x with
  | nil => rfl
  | cons y ys ih =>
    rw [List.foldl_cons]
    have : maxI (.inf false) y.abs = .inf false := by
      unfold maxI; rw [if_neg]
      cases y <;> simp [FVal.abs, FVal.Lt]
    rw [this, ih]

private theorem foldl_maxI_inf (x : List FVal) (hx : ∃ s, .inf s ∈ x) (a : ℝ) :
    x.foldl (fun m v => maxI m v.abs) (.fin a) = .inf false := by
  induction x generalizing a with
  | nil => obtain ⟨s, h⟩ := hx; simp at h
  | cons y ys ih =>
    rw [List.foldl_cons]
    cases y with
    | inf s =>
      have : maxI (.fin a) (FVal.inf s).abs = .inf false := by
        unfold maxI FVal.abs FVal.Lt; dsimp only; rw [if_pos rfl]
      rw [this]; exact foldl_maxI_top ys
    | nan =>
      have : maxI (.fin a) FVal.nan.abs = .fin a := by
        unfold maxI; rw [if_neg]; exact id
      rw [this]
      exact ih (by simpa using hx) a
    | fin w =>
      have hys : ∃ s, FVal.inf s ∈ ys := by simpa using hx
      have : ∃ b, maxI (.fin a) (FVal.fin w).abs = .fin b := by
        unfold maxI
        split
        · exact ⟨_, rfl⟩
        · exact ⟨_, rfl⟩
      obtain ⟨b, hb⟩ := this
      rw [hb]; exact ih hys b

/-! ## The factor and the scaled samples -/

private theorem peakFactorI_zero : peakFactorI f (.fin 0) = .fin 1 := by unfold peakFactorI; rw [if_pos rfl]

private theorem peakFactorI_pos {p : ℝ} (hp : 0 < p) : peakFactorI f (.fin p) = f.round (.fin (1 / p)) := by
  unfold peakFactorI
  rw [if_neg (by intro h; injection h with h; linarith)]
  have : (FVal.fin p).abs = .fin p := by
    show FVal.fin |p| = _
    rw [abs_of_pos hp]
  rw [this]
  unfold FVal.div
  dsimp only
  rw [if_neg hp.ne']

private theorem peakFactorI_inf : peakFactorI f (.inf false) = .fin 0 := by
  unfold peakFactorI
  rw [if_neg (by intro h; cases h)]
  show f.round (.fin 0) = .fin 0
  exact round_mem (onGrid_zero f) (by rw [abs_zero]; exact two_zpow_pos _)

/-- What `normalize_peak` makes of one sample if the peak `p` has a normal reciprocal. -/
def NormalOut (f : Fmt) (p : ℝ) (a b : FVal) : Prop :=
  (a = .nan ∧ b = .nan) ∨ ∃ v q, a = .fin v ∧ b = .fin q ∧ |q| ≤ 1 ∧ |q - v / p| ≤ (2 : ℝ) ^ (1 - (f.p : ℤ)) ∧
    (|v| = p → 1 - (2 : ℝ) ^ (-(f.p : ℤ)) ≤ |q|)

/-- What it makes of one sample if the reciprocal of the peak is subnormal. -/
def HugeOut (f : Fmt) (p : ℝ) (a b : FVal) : Prop :=
  (a = .nan ∧ b = .nan) ∨ ∃ v q, a = .fin v ∧ b = .fin q ∧ |q| ≤ 1 + (2 : ℝ) ^ (2 - (f.p : ℤ)) ∧
    |q - v / p| ≤ 5 * (2 : ℝ) ^ (-(f.p : ℤ)) ∧ (|v| = p → 1 - (2 : ℝ) ^ (2 - (f.p : ℤ)) ≤ |q|)

/-- What it makes of one sample if the reciprocal of the peak overflows. -/
def TinyOut (a b : FVal) : Prop :=
  (a = .nan ∧ b = .nan) ∨ ∃ v, a = .fin v ∧ b = if v = 0 then .nan else .inf (decide (v < 0))

/-- What it makes of one sample if some sample is infinite. -/
def InfOut (a b : FVal) : Prop :=
  ((∃ v, a = .fin v) ∧ b = .fin 0) ∨ ((∀ v, a ≠ .fin v) ∧ b = .nan)

private theorem one_lt_max (hf : f.Ieee) : (4 : ℝ) ≤ (2 : ℝ) ^ f.emax := by
  have := zpow_le_zpow_right₀ (a := (2 : ℝ)) (by norm_num) (show (2 : ℤ) ≤ f.emax by have := hf.2.1; omega)
  norm_num at this ⊢; exact this

private theorem abs_mul_le {v p g : ℝ} (hv : |v| ≤ p) (hg : 0 ≤ g) : |v * g| ≤ p * g := by
  rw [abs_mul, abs_of_nonneg hg]; exact mul_le_mul_of_nonneg_right hv hg

private theorem sub_div_bound {v p g δ : ℝ} (hp : 0 < p) (hv : |v| ≤ p) (h : |p * g - 1| ≤ δ) : |v * g - v / p| ≤ δ := by
  have e : v * g - v / p = (v / p) * (p * g - 1) := by field_simp
  rw [e, abs_mul, abs_div, abs_of_pos hp]
  have h1 : |v| / p ≤ 1 := (div_le_one hp).2 hv
  calc _ ≤ 1 * |p * g - 1| := mul_le_mul_of_nonneg_right h1 (abs_nonneg _)
    _ ≤ δ := by rw [one_mul]; exact h

private theorem normal_out (hf : f.Ieee) {p : ℝ} (hg : f.OnGrid p) (h1 : (2 : ℝ) ^ (-f.emax) < p)
    (h2 : p ≤ (2 : ℝ) ^ (f.emax - 2)) {v : ℝ} (hv : |v| ≤ p) :
    NormalOut f p (.fin v) (scaleOpI f (peakFactorI f (.fin p)) (.fin v)) := by
  have hp3 := hf.1
  have hp1 : 1 ≤ f.p := by omega
  have hp0 : 0 < p := (two_zpow_pos _).trans h1
  obtain ⟨g0, g1⟩ := recip_finite hf hg h1
  have hm := recip_mul hf hp0 h2
  have ht := two_zpow_pos (-(f.p : ℤ))
  have ht1 : (2 : ℝ) ^ (-(f.p : ℤ)) ≤ 1 := zpow_le_one_of_nonpos₀ (by norm_num) (by omega)
  rw [peakFactorI_pos hp0, round_fin_of_lt (by rwa [abs_of_nonneg g0])]
  set g := f.rndInf (1 / p)
  set t := (2 : ℝ) ^ (-(f.p : ℤ))
  have hm' := abs_lt.1 hm
  have hvg : |v * g| < 1 + t := lt_of_le_of_lt (abs_mul_le hv g0) (by linarith [hm'.2])
  have hq : |f.rndInf (v * g)| ≤ 1 := by rw [rndInf_abs f hp1]; exact rndInf_le_one hf hvg
  right
  refine ⟨v, f.rndInf (v * g), rfl, ?_, hq, ?_, ?_⟩
  · show f.round (.fin (v * g)) = _
    exact round_fin_of_lt (lt_of_le_of_lt hq (by linarith [one_lt_max hf]))
  · have a1 := rndInf_err_lt_two hf (t := v * g) (by linarith)
    have a2 := sub_div_bound hp0 hv hm.le
    have a3 := abs_add_le (f.rndInf (v * g) - v * g) (v * g - v / p)
    rw [show f.rndInf (v * g) - v * g + (v * g - v / p) = f.rndInf (v * g) - v / p by ring] at a3
    rw [show 1 - (f.p : ℤ) = -(f.p : ℤ) + 1 by ring, zpow_add_one₀ (by norm_num)]
    linarith
  · intro he
    rw [rndInf_abs f hp1, abs_mul, he, abs_of_nonneg g0]
    exact grid_le_rndInf hp1 (one_sub_onGrid hf) (by linarith [hm'.1])

private theorem huge_out (hf : f.Ieee) {p : ℝ} (hg : f.OnGrid p) (h1 : (2 : ℝ) ^ (f.emax - 2) < p)
    (h2 : p < (2 : ℝ) ^ f.emax) {v : ℝ} (hv : |v| ≤ p) :
    HugeOut f p (.fin v) (scaleOpI f (peakFactorI f (.fin p)) (.fin v)) := by
  have hp3 := hf.1
  have hp1 : 1 ≤ f.p := by omega
  have hp0 : 0 < p := (two_zpow_pos _).trans h1
  obtain ⟨g0, g1⟩ := recip_finite hf hg (lt_of_le_of_lt (zpow_le_zpow_right₀ (by norm_num) (by have := hf.2.1; omega)) h1)
  have hm := recip_mul_sub hf h1 h2
  obtain ⟨gr1, gr2⟩ := one_add_onGrid hf
  have ht1 : (2 : ℝ) ^ (2 - (f.p : ℤ)) ≤ 1 / 2 := by
    have := zpow_le_zpow_right₀ (a := (2 : ℝ)) (by norm_num) (show 2 - (f.p : ℤ) ≤ -1 by omega)
    norm_num at this ⊢; linarith
  have h4 : (2 : ℝ) ^ (2 - (f.p : ℤ)) = 4 * (2 : ℝ) ^ (-(f.p : ℤ)) := by
    rw [show 2 - (f.p : ℤ) = -(f.p : ℤ) + 2 by ring, zpow_add₀ (by norm_num)]; norm_num; ring
  rw [peakFactorI_pos hp0, round_fin_of_lt (by rwa [abs_of_nonneg g0])]
  set g := f.rndInf (1 / p)
  set t := (2 : ℝ) ^ (2 - (f.p : ℤ))
  have hm' := abs_le.1 hm
  have hvg : |v * g| ≤ 1 + t := (abs_mul_le hv g0).trans (by linarith [hm'.2])
  have hq : |f.rndInf (v * g)| ≤ 1 + t := by rw [rndInf_abs f hp1]; exact rndInf_le_grid hp1 gr1 hvg
  right
  refine ⟨v, f.rndInf (v * g), rfl, ?_, hq, ?_, ?_⟩
  · show f.round (.fin (v * g)) = _
    exact round_fin_of_lt (lt_of_le_of_lt hq (by linarith [one_lt_max hf]))
  · have a1 := rndInf_err_lt_two hf (t := v * g) (by linarith)
    have a2 := sub_div_bound hp0 hv hm
    have a3 := abs_add_le (f.rndInf (v * g) - v * g) (v * g - v / p)
    rw [show f.rndInf (v * g) - v * g + (v * g - v / p) = f.rndInf (v * g) - v / p by ring] at a3
    linarith
  · intro he
    rw [rndInf_abs f hp1, abs_mul, he, abs_of_nonneg g0]
    exact grid_le_rndInf hp1 gr2 (by linarith [hm'.1])

private theorem tiny_out (hf : f.Ieee) {p : ℝ} (h0 : 0 < p) (h : p ≤ (2 : ℝ) ^ (-f.emax)) (v : ℝ) :
    TinyOut (.fin v) (scaleOpI f (peakFactorI f (.fin p)) (.fin v)) := by
  rw [peakFactorI_pos h0, round_fin_of_le (recip_infinite hf h0 h)]
  right
  refine ⟨v, rfl, ?_⟩
  unfold scaleOpI FVal.mul
  dsimp only
  split
  · rfl
  · simp [Fmt.round]

private theorem nan_out (a : FVal) : scaleOpI f a .nan = .nan := by
  unfold scaleOpI FVal.mul; rfl

private theorem inf_out (a : FVal) : InfOut a (scaleOpI f (.fin 0) a) := by
  have h0 : f.round (.fin 0) = .fin 0 := round_mem (onGrid_zero f) (by rw [abs_zero]; exact two_zpow_pos _)
  cases a with
  | fin v =>
    left
    refine ⟨⟨v, rfl⟩, ?_⟩
    unfold scaleOpI FVal.mul
    dsimp only
    rw [mul_zero, h0]
  | inf s =>
    right
    refine ⟨fun v h => (nomatch h), ?_⟩
    unfold scaleOpI FVal.mul
    simp [Fmt.round]
  | nan => exact Or.inr ⟨fun v h => (nomatch h), nan_out _⟩

private theorem one_out {v : FVal} (h : ∀ w, v = .fin w → w = 0) (hi : ∀ s, v ≠ .inf s) : scaleOpI f (.fin 1) v = v := by
  cases v with
  | fin w =>
    obtain rfl := h w rfl
    unfold scaleOpI FVal.mul
    dsimp only
    rw [zero_mul]
    exact round_mem (onGrid_zero f) (by rw [abs_zero]; exact two_zpow_pos _)
  | inf s => exact absurd rfl (hi s)
  | nan => exact nan_out _

/-- Everything `normalize_peak` can do, in terms of the list of samples and the resulting list. -/
def PeakSpec (f : Fmt) (x y : List FVal) : Prop :=
  ((∃ s, .inf s ∈ x) → List.Forall₂ InfOut x y) ∧
  ((∀ s, .inf s ∉ x) → ((∀ v, .fin v ∈ x → v = 0) → y = x) ∧ ∀ p, PeakOf x p → 0 < p →
    ((2 : ℝ) ^ (-f.emax) < p → p ≤ (2 : ℝ) ^ (f.emax - 2) → List.Forall₂ (NormalOut f p) x y) ∧
    ((2 : ℝ) ^ (f.emax - 2) < p → List.Forall₂ (HugeOut f p) x y) ∧
    (p ≤ (2 : ℝ) ^ (-f.emax) → List.Forall₂ TinyOut x y))

private theorem peak_core (hf : f.Ieee) (x : List FVal) (hx : ∀ v ∈ x, f.Mem v) :
    PeakSpec f x (x.map (scaleOpI f (peakFactorI f (x.foldl (fun m v => maxI m v.abs) (.fin 0))))) := by
  constructor
  · intro hi
    rw [foldl_maxI_inf x hi, peakFactorI_inf, List.forall₂_map_right_iff, List.forall₂_same]
    exact fun v _ => inf_out v
  · intro hi
    obtain ⟨M, h1, h2, h3, h4⟩ := foldl_maxI_fin x hi 0 le_rfl
    rw [h1]
    constructor
    · intro hz
      have hM : M = 0 := by
        rcases h4 with h | ⟨v, hv, h⟩
        · exact h
        · rw [hz v hv, abs_zero] at h; exact h.symm
      rw [hM, peakFactorI_zero]
      conv_rhs => rw [← List.map_id x]
      exact List.map_congr_left fun v hv => one_out (fun w hw => hz w (hw ▸ hv)) (fun s hs => hi s (hs ▸ hv))
    · rintro p ⟨q1, w, hw, q2⟩ hp0
      have hM : M = p := by
        apply le_antisymm
        · rcases h4 with h | ⟨v, hv, h⟩
          · rw [h]; exact hp0.le
          · rw [← h]; exact q1 v hv
        · rw [← q2]; exact h3 w hw
      subst hM
      obtain ⟨wg, wl⟩ := hx _ hw
      have hg : f.OnGrid M := by
        rw [← q2]
        rcases abs_choice w with h | h <;> rw [h]
        · exact wg
        · exact onGrid_neg wg
      have hl : M < (2 : ℝ) ^ f.emax := by rw [← q2]; exact wl
      refine ⟨fun k1 k2 => ?_, fun k1 => ?_, fun k1 => ?_⟩
      all_goals
        rw [List.forall₂_map_right_iff, List.forall₂_same]
        intro v hv
        cases v with
        | inf s => exact absurd hv (hi s)
        | nan => exact Or.inl ⟨rfl, nan_out _⟩
        | fin v => first | exact normal_out hf hg k1 k2 (q1 v hv) | exact huge_out hf hg k1 hl (q1 v hv) |
            exact tiny_out hf hp0 k1 v

private theorem unaryOp_eq_map (op : FVal → FVal) (x : List FVal) : unaryOp op x = .ok (x.map op) := by
  rw [eq_vec_getD x .nan, unaryOp_vec, map_vec]

/-- **C92** (vectors, partial): what `normalize_peak` computes on any vector of values of an IEEE format.  Without
infinities: a silent vector is unchanged; if the peak is between `2^-emax` (excluded) and `2^(emax-2)`, every sample ends
within `[-1, 1]` and within `2^(1-p)` of the exact quotient, and the peak at `1 - 2^-p` or more; above, the peak may exceed
`1` by up to `2^(2-p)`; at `2^-emax` and below the factor overflows: samples become infinite, and zeros NaN.  With an
infinity: finite samples become `0`, the others NaN.  NaN samples do not influence the factor.  Missing: the claim that the
peak ends in `[1 - 2^-p, 1]` whenever some sample is not zero, which is false (`C92_peak_false`). -/
theorem C92_peak_vec_partial (f : Fmt) (hf : f.Ieee) (x : List FVal) (hx : ∀ v ∈ x, f.Mem v) :
    ∃ y, normalizePeakVecI f x = .ok y ∧ PeakSpec f x y := by
  refine ⟨_, ?_, peak_core hf x hx⟩
  unfold normalizePeakVecI normalizePeakFactorVecI
  split
  · rename_i h
    obtain rfl := List.eq_nil_of_length_eq_zero h
    rw [bind_ok, unaryOp_eq_map]; rfl
  · rw [forN_fold_vec x (fun m v => maxI m v.abs) (.fin 0) _ le_rfl, List.take_length, bind_ok, pure_eq_ok, bind_ok,
      unaryOp_eq_map]

/-- **C92** (matrices, partial): the same for the elements of every valid rank-2 view, in either loop order. -/
theorem C92_peak_mat_partial (f : Fmt) (hf : f.Ieee) (colMajor : Bool) (v : MatView) (data : List FVal)
    (hv : v.Valid data.length) (hx : ∀ w ∈ entries v data, f.Mem w) :
    ∃ d, normalizePeakMatI f colMajor v data = .ok d ∧ d.length = data.length ∧
      PeakSpec f (entries v data) (entries v d) ∧
      ∀ m, (∀ r < v.rows, ∀ c < v.cols, v.idx r c ≠ m) → d[m]? = data[m]? := by
  set a := peakFactorI f ((entries v data).foldl (fun m v => maxI m v.abs) (.fin 0)) with ha
  obtain ⟨d, h1, h2, h3, h4⟩ := C60_matrix_unary colMajor (scaleOpI f a) v data hv
  have hrow : ∀ r < v.rows, row v d r = (row v data r).map (scaleOpI f a) := by
    intro r hr
    unfold row
    rw [List.map_filterMap]
    apply List.filterMap_congr
    intro c hc
    exact h3 r hr c (List.mem_range.1 hc)
  have hent : entries v d = (entries v data).map (scaleOpI f a) := by
    rw [entries_eq_rows, entries_eq_rows, List.map_flatMap, List.flatMap_def, List.flatMap_def]
    congr 1
    apply List.map_congr_left
    intro r hr
    exact hrow r (List.mem_range.1 hr)
  refine ⟨d, ?_, h2, by rw [hent, ha]; exact peak_core hf _ hx, h4⟩
  unfold normalizePeakMatI normalizePeakFactorMatI
  split
  · rename_i h
    have he : entries v data = [] := by simp [entries, h.1]
    rw [he] at ha
    rw [bind_ok]
    rw [ha, List.foldl_nil, peakFactorI_zero] at h1
    exact h1
  · rw [forN_fold_mat v data (fun m v => maxI m v.abs) (.fin 0) hv.1, bind_ok, pure_eq_ok, bind_ok]
    exact h1

/-! ## The negations -/

private theorem b32_grid {m k : ℤ} (hm : |m| < 2 ^ 24) (hk : -149 ≤ k) : Spec.binary32.OnGrid (m * (2 : ℝ) ^ k) :=
  ⟨m, k, hm, hk, rfl⟩

/-- **C92 fails** at both ends of the range of `float`: a vector with a tiny sample and a zero becomes infinity and NaN; the
single sample `1.5 · 2^127` becomes `1 + 2^-23`. -/
theorem C92_peak_false :
    normalizePeakVecI Spec.binary32 [.fin ((2 : ℝ) ^ (-149 : ℤ)), .fin 0] = .ok [.inf false, .nan] ∧
    normalizePeakVecI Spec.binary32 [.fin (3 * (2 : ℝ) ^ (126 : ℤ))] = .ok [.fin (1 + (2 : ℝ) ^ (-23 : ℤ))] := by
  have hf := ieee_formats.2.1
  have h0 := b32_grid (m := 0) (k := 0) (by norm_num) (by norm_num)
  constructor
  · have g1 := b32_grid (m := 1) (k := -149) (by norm_num) (by norm_num)
    rw [Int.cast_one, one_mul] at g1
    rw [Int.cast_zero, zero_mul] at h0
    obtain ⟨y, e, -, k⟩ := C92_peak_vec_partial Spec.binary32 hf [.fin ((2 : ℝ) ^ (-149 : ℤ)), .fin 0] (by
      intro v hv
      simp only [List.mem_cons, List.not_mem_nil, or_false] at hv
      rcases hv with rfl | rfl
      · exact ⟨g1, by rw [abs_of_pos (two_zpow_pos _)]; exact zpow_lt_zpow_right₀ (by norm_num) (by simp [Spec.binary32])⟩
      · exact ⟨h0, by rw [abs_zero]; exact two_zpow_pos _⟩)
    have hp : PeakOf [.fin ((2 : ℝ) ^ (-149 : ℤ)), .fin 0] ((2 : ℝ) ^ (-149 : ℤ)) := by
      refine ⟨?_, _, List.mem_cons_self, abs_of_pos (two_zpow_pos _)⟩
      intro v hv
      simp only [List.mem_cons, List.not_mem_nil, or_false, FVal.fin.injEq] at hv
      rcases hv with rfl | rfl
      · rw [abs_of_pos (two_zpow_pos _)]
      · rw [abs_zero]; exact (two_zpow_pos _).le
    have := ((k (by simp)).2 _ hp (two_zpow_pos _)).2.2 (zpow_le_zpow_right₀ (by norm_num) (by simp [Spec.binary32]))
    rw [e]
    cases this with
    | cons a b =>
      cases b with
      | cons b c =>
        cases c
        rcases a with ⟨a, -⟩ | ⟨v, a, rfl⟩
        · cases a
        rcases b with ⟨b, -⟩ | ⟨w, b, rfl⟩
        · cases b
        injection a with a
        injection b with b
        subst a; subst b
        have hp := two_zpow_pos (-149)
        rw [if_neg hp.ne', if_pos rfl, decide_eq_false (not_lt.2 hp.le)]
  · have hP : (0 : ℝ) < 3 * (2 : ℝ) ^ (126 : ℤ) := by positivity
    have hfold : [FVal.fin (3 * (2 : ℝ) ^ (126 : ℤ))].foldl (fun m v => maxI m v.abs) (.fin 0)
        = .fin (3 * (2 : ℝ) ^ (126 : ℤ)) := by
      show maxI (.fin 0) (FVal.fin (3 * (2 : ℝ) ^ (126 : ℤ))).abs = _
      have : (FVal.fin (3 * (2 : ℝ) ^ (126 : ℤ))).abs = .fin (3 * (2 : ℝ) ^ (126 : ℤ)) := by
        show FVal.fin |_| = _
        rw [abs_of_pos hP]
      rw [this]
      unfold maxI
      exact if_pos hP
    have hrec : Spec.binary32.rndInf (1 / (3 * (2 : ℝ) ^ (126 : ℤ))) = 2796203 * (2 : ℝ) ^ (-149 : ℤ) := by
      have hu : Spec.binary32.ulpExp (1 / (3 * (2 : ℝ) ^ (126 : ℤ))) = -149 := by
        unfold Fmt.ulpExp
        apply max_eq_left
        have hr : 0 < 1 / (3 * (2 : ℝ) ^ (126 : ℤ)) := by positivity
        have := (Int.lt_zpow_iff_log_lt (b := 2) (r := |1 / (3 * (2 : ℝ) ^ (126 : ℤ))|) (x := -126) (by norm_num)
          (by rw [abs_of_pos hr]; exact hr)).1 (by rw [abs_of_pos hr]; norm_num)
        show _ - ((24 : ℕ) - 1 : ℤ) ≤ -149
        push_cast; omega
      have := rndInf_of_near (f := Spec.binary32) (x := 1 / (3 * (2 : ℝ) ^ (126 : ℤ))) (n := 2796203) (by
        rw [hu, abs_of_nonpos (by norm_num)]; norm_num)
      rw [this, hu]; norm_num
    have hfac : peakFactorI Spec.binary32 (.fin (3 * (2 : ℝ) ^ (126 : ℤ))) = .fin (2796203 * (2 : ℝ) ^ (-149 : ℤ)) := by
      rw [peakFactorI_pos hP, round_fin_of_lt (by
        rw [hrec, abs_of_pos (by positivity)]
        show _ < (2 : ℝ) ^ (128 : ℤ)
        norm_num), hrec]
    unfold normalizePeakVecI normalizePeakFactorVecI
    rw [if_neg (by simp), forN_fold_vec [FVal.fin (3 * (2 : ℝ) ^ (126 : ℤ))] (fun m v => maxI m v.abs) (.fin 0) _ le_rfl, List.take_length, bind_ok,
      pure_eq_ok, bind_ok, unaryOp_eq_map, hfold, hfac]
    have hprod : (3 * (2 : ℝ) ^ (126 : ℤ)) * (2796203 * (2 : ℝ) ^ (-149 : ℤ)) = 8388609 * (2 : ℝ) ^ (-23 : ℤ) := by norm_num
    have g := b32_grid (m := 8388609) (k := -23) (by norm_num) (by norm_num)
    show Except.ok [Spec.binary32.round (.fin (3 * (2 : ℝ) ^ (126 : ℤ) * (2796203 * (2 : ℝ) ^ (-149 : ℤ))))] = _
    rw [hprod]
    push_cast at g
    rw [round_mem g (by
      rw [abs_of_pos (by positivity)]
      show _ < (2 : ℝ) ^ (128 : ℤ)
      norm_num)]
    norm_num

/-! ## Energy -/

private theorem round_of_nonneg {t : ℝ} (hp : 1 ≤ f.p) (ht : 0 ≤ t) :
    f.round (.fin t) = .inf false ∨ ∃ y, 0 ≤ y ∧ f.round (.fin t) = .fin y := by
  have h0 := grid_le_rndInf hp (onGrid_zero f) ht
  rcases lt_or_ge (f.rndInf t) ((2 : ℝ) ^ f.emax) with h | h
  · exact Or.inr ⟨_, h0, round_fin_of_lt (by rwa [abs_of_nonneg h0])⟩
  · exact Or.inl (round_fin_of_le h)

private theorem energyStep_top (hp : 1 ≤ f.p) (v : ℝ) : energyStepI f (.inf false) (.fin v) = .inf false := by
  unfold energyStepI
  show f.round (FVal.add (.inf false) (f.round (.fin (v * v)))) = _
  rcases round_of_nonneg (f := f) hp (mul_self_nonneg v) with h | ⟨y, -, h⟩ <;> rw [h] <;> simp [FVal.add, Fmt.round]

private theorem energyStep_fin (hp : 1 ≤ f.p) {a : ℝ} (ha : 0 ≤ a) (v : ℝ) :
    energyStepI f (.fin a) (.fin v) = .inf false ∨ ∃ y, 0 ≤ y ∧ energyStepI f (.fin a) (.fin v) = .fin y := by
  unfold energyStepI
  show f.round (FVal.add (.fin a) (f.round (.fin (v * v)))) = _ ∨ ∃ y, 0 ≤ y ∧ f.round (FVal.add (.fin a) (f.round (.fin (v * v)))) = _
  rcases round_of_nonneg (f := f) hp (mul_self_nonneg v) with h | ⟨y, hy, h⟩ <;> rw [h]
  · left; rfl
  · exact round_of_nonneg hp (add_nonneg ha hy)

private theorem energy_fold_top (hp : 1 ≤ f.p) (x : List FVal) (hx : ∀ v ∈ x, ∃ w, v = .fin w) :
    x.foldl (energyStepI f) (.inf false) = .inf false := by
  induction x with
  | nil => rfl
  | cons v l ih =>
    obtain ⟨w, rfl⟩ := hx v List.mem_cons_self
    rw [List.foldl_cons, energyStep_top hp, ih fun v hv => hx v (List.mem_cons_of_mem _ hv)]

private theorem energy_fold_big (hp : 1 ≤ f.p) (he : f.emin ≤ f.emax) (x : List FVal) (hx : ∀ v ∈ x, ∃ w, v = .fin w)
    (hb : ∃ w, .fin w ∈ x ∧ (2 : ℝ) ^ f.emax ≤ w * w) (a : ℝ) (ha : 0 ≤ a) :
    x.foldl (energyStepI f) (.fin a) = .inf false := by
  induction x generalizing a with
  | nil => obtain ⟨w, h, -⟩ := hb; simp at h
  | cons v l ih =>
    have hl : ∀ v ∈ l, ∃ w, v = .fin w := fun v hv => hx v (List.mem_cons_of_mem _ hv)
    obtain ⟨u, rfl⟩ := hx v List.mem_cons_self
    rw [List.foldl_cons]
    obtain ⟨w, hw, hb⟩ := hb
    rcases List.mem_cons.1 hw with h | h
    · injection h with h
      subst h
      have : energyStepI f (.fin a) (.fin w) = .inf false := by
        unfold energyStepI
        show f.round (FVal.add (.fin a) (f.round (.fin (w * w)))) = _
        rw [round_fin_of_le (grid_le_rndInf hp (two_zpow_onGrid hp he) hb)]
        rfl
      rw [this, energy_fold_top hp l hl]
    · rcases energyStep_fin hp ha u with e | ⟨y, hy, e⟩ <;> rw [e]
      · exact energy_fold_top hp l hl
      · exact ih hl ⟨w, h, hb⟩ y hy

private theorem normalizeEnergy_eq (x : List FVal) :
    normalizeEnergyVecI f x = .ok (x.map (scaleOpI f (energyFactorI f (x.foldl (energyStepI f) (.fin 0))))) := by
  unfold normalizeEnergyVecI
  rw [forN_fold_vec x (energyStepI f) (.fin 0) _ le_rfl, List.take_length, bind_ok, unaryOp_eq_map]

/-- **C92**: `normalize_energy` of finite samples, one of them with a square beyond the range of the format, sets every
sample to zero. -/
theorem C92_energy_overflow (f : Fmt) (hf : f.Ieee) (x : List FVal) (hx : ∀ v ∈ x, ∃ w, v = .fin w)
    (hb : ∃ w, .fin w ∈ x ∧ (2 : ℝ) ^ f.emax ≤ w * w) :
    normalizeEnergyVecI f x = .ok (List.replicate x.length (.fin 0)) := by
  obtain ⟨h1, h2, h3⟩ := id hf
  have h0 : f.round (.fin 0) = .fin 0 := round_mem (onGrid_zero f) (by rw [abs_zero]; exact two_zpow_pos _)
  rw [normalizeEnergy_eq, energy_fold_big (by omega) (by omega) x hx hb 0 le_rfl]
  have hfac : energyFactorI f (.inf false) = .fin 0 := by
    unfold energyFactorI
    rw [if_neg (by intro h; cases h)]
    exact h0
  rw [hfac, List.eq_replicate_iff.2 ⟨List.length_map _, ?_⟩]
  intro b hb
  obtain ⟨v, hv, rfl⟩ := List.mem_map.1 hb
  obtain ⟨w, rfl⟩ := hx v hv
  show f.round (.fin (w * 0)) = _
  rw [mul_zero, h0]

private theorem rndInf_small {t : ℝ} (h0 : 0 ≤ t) (h : t ≤ (2 : ℝ) ^ (f.emin - 1)) (hp : 1 ≤ f.p) : f.rndInf t = 0 := by
  rcases h0.eq_or_lt with rfl | h0
  · exact rndInf_zero f
  have hu : f.ulpExp t = f.emin := by
    unfold Fmt.ulpExp
    apply max_eq_left
    rw [abs_of_pos h0]
    have := (Int.lt_zpow_iff_log_lt (b := 2) (r := t) (x := f.emin) (by norm_num) h0).1
      (lt_of_le_of_lt h (by push_cast; exact zpow_lt_zpow_right₀ (by norm_num) (by omega)))
    omega
  unfold Fmt.rndInf
  rw [hu]
  have ht : t * (2 : ℝ) ^ (-f.emin) ≤ 1 / 2 := by
    calc _ ≤ (2 : ℝ) ^ (f.emin - 1) * (2 : ℝ) ^ (-f.emin) := mul_le_mul_of_nonneg_right h (two_zpow_pos _).le
      _ = 1 / 2 := by rw [← zpow_add₀ (by norm_num), show f.emin - 1 + -f.emin = -1 by ring]; norm_num
  have ht0 : 0 ≤ t * (2 : ℝ) ^ (-f.emin) := mul_nonneg h0.le (two_zpow_pos _).le
  set s := t * (2 : ℝ) ^ (-f.emin)
  have hfl : ⌊s⌋ = 0 := Int.floor_eq_zero_iff.2 ⟨ht0, by linarith⟩
  have hfr : Int.fract s = s := by rw [Int.fract, hfl]; simp
  have : rne s = 0 := by
    unfold rne
    rw [hfr, hfl]
    split
    · rfl
    · rw [if_neg (not_lt.2 ht), if_pos (by simp)]
  rw [this]; simp

/-- **C92**: `normalize_energy` of samples whose squares all underflow changes nothing. -/
theorem C92_energy_underflow (f : Fmt) (hf : f.Ieee) (x : List FVal) (hx : ∀ v ∈ x, f.Mem v)
    (hs : ∀ v ∈ x, ∃ w, v = .fin w ∧ w * w ≤ (2 : ℝ) ^ (f.emin - 1)) :
    normalizeEnergyVecI f x = .ok x := by
  have hp : 1 ≤ f.p := by have := hf.1; omega
  have h0 : f.round (.fin 0) = .fin 0 := round_mem (onGrid_zero f) (by rw [abs_zero]; exact two_zpow_pos _)
  have hfold : x.foldl (energyStepI f) (.fin 0) = .fin 0 := by
    clear hx
    induction x with
    | nil => rfl
    | cons v l ih =>
      obtain ⟨w, rfl, hw⟩ := hs v List.mem_cons_self
      rw [List.foldl_cons]
      have hz := rndInf_small (f := f) (mul_self_nonneg w) hw hp
      have : energyStepI f (.fin 0) (.fin w) = .fin 0 := by
        unfold energyStepI
        show f.round (FVal.add (.fin 0) (f.round (.fin (w * w)))) = _
        rw [round_fin_of_lt (by rw [hz, abs_zero]; exact two_zpow_pos _), hz]
        show f.round (.fin (0 + 0)) = _
        rw [add_zero, h0]
      rw [this]
      exact ih fun v hv => hs v (List.mem_cons_of_mem _ hv)
  rw [normalizeEnergy_eq, hfold]
  have hfac : energyFactorI f (.fin 0) = .fin 1 := by unfold energyFactorI; rw [if_pos rfl]
  rw [hfac]
  congr 1
  conv_rhs => rw [← List.map_id x]
  apply List.map_congr_left
  intro v hv
  obtain ⟨w, rfl, -⟩ := hs v hv
  obtain ⟨a, b⟩ := hx _ hv
  show f.round (.fin (w * 1)) = _
  rw [mul_one]
  exact round_mem a b

/-! ## Mean -/

/-- **C92**: the mean of finite samples is infinite if the first two already add up to a number beyond the range of the
format, although the exact mean of numbers of the format always lies within the range. -/
theorem C92_mean_overflow (f : Fmt) (hf : f.Ieee) (a b : ℝ) (r : List FVal) (ha : f.Mem (.fin a))
    (hr : ∀ v ∈ r, ∃ w, v = .fin w) (hab : (2 : ℝ) ^ f.emax ≤ a + b)
    (hn : (r.length : ℝ) + 2 ≤ (2 : ℝ) ^ (f.emax - 1)) (hi : r.length + 2 < 2 ^ 31) :
    meanVecI f (.fin a :: .fin b :: r) = .ok (some (.inf false)) := by
  obtain ⟨h1, h2, h3⟩ := id hf
  have hp : 1 ≤ f.p := by omega
  unfold meanVecI
  rw [if_neg (by simp), forInt_eq (by simpa using hi), forN_fold_vec (.fin a :: .fin b :: r) (fun s v => f.round (s.add v)) (.fin 0) _ le_rfl,
    List.take_length, bind_ok]
  have hfold : (FVal.fin a :: .fin b :: r).foldl (fun s v => f.round (s.add v)) (.fin 0) = .inf false := by
    rw [List.foldl_cons, List.foldl_cons]
    have e1 : f.round (FVal.add (.fin 0) (.fin a)) = .fin a := by
      show f.round (.fin (0 + a)) = _
      rw [zero_add]; exact round_mem ha.1 ha.2
    have e2 : f.round (FVal.add (.fin a) (.fin b)) = .inf false :=
      round_fin_of_le (grid_le_rndInf hp (two_zpow_onGrid hp (by omega)) hab)
    rw [e1, e2]
    clear hn hi
    induction r with
    | nil => rfl
    | cons v l ih =>
      obtain ⟨w, rfl⟩ := hr v List.mem_cons_self
      rw [List.foldl_cons]
      exact ih fun v hv => hr v (List.mem_cons_of_mem _ hv)
  rw [hfold]
  have hlen : (0 : ℝ) ≤ ((FVal.fin a :: .fin b :: r).length : ℕ) := Nat.cast_nonneg _
  have hle : (((FVal.fin a :: .fin b :: r).length : ℕ) : ℝ) ≤ (2 : ℝ) ^ (f.emax - 1) := by
    simp only [List.length_cons]; push_cast; linarith
  have g := rndInf_le_grid hp (two_zpow_onGrid hp (by omega)) hle
  have g0 := grid_le_rndInf hp (onGrid_zero f) hlen
  rw [round_fin_of_lt (by
    rw [abs_of_nonneg g0]
    exact lt_of_le_of_lt g (zpow_lt_zpow_right₀ (by norm_num) (by omega)))]
  show Except.ok (some (FVal.inf (xor false (decide (_ < 0))))) = _
  rw [decide_eq_false (not_lt.2 g0)]
  rfl

/-- **C92**: away from the subnormal numbers and from overflow, one operation of the format has a relative error of at most
`2^-p`: the assumption under which C71 to C73, C88, C90 and C91 bound the errors of the algorithms. -/
theorem C92_standard_model (f : Fmt) (hp : 1 ≤ f.p) (t : ℝ) (ht : (2 : ℝ) ^ (f.emin + f.p - 1) ≤ |t|)
    (hm : |t| ≤ (1 - (2 : ℝ) ^ (-(f.p : ℤ))) * (2 : ℝ) ^ f.emax) (he : f.emin ≤ f.emax - f.p) :
    ∃ r, f.round (.fin t) = .fin r ∧ |r - t| ≤ (2 : ℝ) ^ (-(f.p : ℤ)) * |t| := by
  refine ⟨f.rndInf t, round_fin_of_lt ?_, rndInf_rel hp ht⟩
  have hp1 : (1 : ℤ) ≤ 2 ^ f.p := one_le_pow₀ (by norm_num)
  have hg : f.OnGrid ((1 - (2 : ℝ) ^ (-(f.p : ℤ))) * (2 : ℝ) ^ f.emax) := by
    refine ⟨2 ^ f.p - 1, f.emax - f.p, by rw [abs_of_nonneg (by omega)]; omega, he, ?_⟩
    push_cast
    rw [sub_mul, sub_mul, one_mul, one_mul, ← zpow_natCast, ← zpow_add₀ (by norm_num), ← zpow_add₀ (by norm_num)]
    congr 2
    · ring
    · ring
  rw [rndInf_abs f hp]
  refine lt_of_le_of_lt (rndInf_le_grid hp hg hm) ?_
  have := two_zpow_pos f.emax
  have := two_zpow_pos (-(f.p : ℤ))
  nlinarith

/-! ## The hypotheses hold in concrete cases -/

/-- A vector of `float`s with a normal peak, a zero and a NaN. -/
example : ∃ y, normalizePeakVecI Spec.binary32 [.fin 3, .fin 0, .nan, .fin (-1)] = .ok y ∧
    List.Forall₂ (NormalOut Spec.binary32 3) [.fin 3, .fin 0, .nan, .fin (-1)] y := by
  have h3 := b32_grid (m := 3) (k := 0) (by norm_num) (by norm_num)
  have h0 := b32_grid (m := 0) (k := 0) (by norm_num) (by norm_num)
  have h1 := b32_grid (m := -1) (k := 0) (by norm_num) (by norm_num)
  norm_num at h3 h0 h1
  obtain ⟨y, e, -, k⟩ := C92_peak_vec_partial Spec.binary32 ieee_formats.2.1 [.fin 3, .fin 0, .nan, .fin (-1)] (by
    intro v hv
    simp only [List.mem_cons, List.not_mem_nil, or_false] at hv
    rcases hv with rfl | rfl | rfl | rfl
    · exact ⟨h3, by norm_num [Spec.binary32]⟩
    · exact ⟨h0, by norm_num [Spec.binary32]⟩
    · trivial
    · exact ⟨h1, by norm_num [Spec.binary32]⟩)
  refine ⟨y, e, ((k (by simp)).2 3 ⟨?_, 3, by simp, by norm_num⟩ (by norm_num)).1 ?_ ?_⟩
  · intro v hv
    simp only [List.mem_cons, List.not_mem_nil, or_false, FVal.fin.injEq, reduceCtorEq, false_or] at hv
    rcases hv with rfl | rfl | rfl <;> norm_num
  · norm_num [Spec.binary32]
  · norm_num [Spec.binary32]

/-- `2^64` squared is beyond the range of `float`. -/
example : normalizeEnergyVecI Spec.binary32 [.fin 1, .fin ((2 : ℝ) ^ (64 : ℤ))] = .ok [.fin 0, .fin 0] :=
  C92_energy_overflow _ ieee_formats.2.1 _ (by simp)
    ⟨(2 : ℝ) ^ (64 : ℤ), by simp, by norm_num [Spec.binary32]⟩

/-- `2^-75` squared is half of the smallest `float`. -/
example : normalizeEnergyVecI Spec.binary32 [.fin ((2 : ℝ) ^ (-75 : ℤ))] = .ok [.fin ((2 : ℝ) ^ (-75 : ℤ))] := by
  have g := b32_grid (m := 1) (k := -75) (by norm_num) (by norm_num)
  rw [Int.cast_one, one_mul] at g
  refine C92_energy_underflow _ ieee_formats.2.1 _ ?_ ?_
  · intro v hv
    rw [List.mem_singleton.1 hv]
    exact ⟨g, by rw [abs_of_pos (two_zpow_pos _)]; norm_num [Spec.binary32]⟩
  · intro v hv
    exact ⟨_, List.mem_singleton.1 hv, by norm_num [Spec.binary32]⟩

/-- The mean of two `float`s `2^127` is infinite. -/
example : meanVecI Spec.binary32 [.fin ((2 : ℝ) ^ (127 : ℤ)), .fin ((2 : ℝ) ^ (127 : ℤ))] = .ok (some (.inf false)) := by
  have g := b32_grid (m := 1) (k := 127) (by norm_num) (by norm_num)
  rw [Int.cast_one, one_mul] at g
  exact C92_mean_overflow _ ieee_formats.2.1 _ _ [] ⟨g, by rw [abs_of_pos (two_zpow_pos _)]; norm_num [Spec.binary32]⟩ (by simp)
    (by norm_num [Spec.binary32]) (by norm_num [Spec.binary32]) (by norm_num)

/-- `1/3` in `double`. -/
example : ∃ r, binary64.round (.fin (1 / 3)) = .fin r ∧ |r - 1 / 3| ≤ (2 : ℝ) ^ (-53 : ℤ) * |1 / 3| :=
  C92_standard_model binary64 (by simp [binary64]) (1 / 3) (by
      rw [abs_of_pos (by norm_num)]
      have : (2 : ℝ) ^ (binary64.emin + binary64.p - 1) ≤ (2 : ℝ) ^ (-2 : ℤ) :=
        zpow_le_zpow_right₀ (by norm_num) (by simp [binary64])
      norm_num at this ⊢
      linarith)
    (by
      rw [abs_of_pos (by norm_num)]
      have : (1 : ℝ) ≤ (2 : ℝ) ^ binary64.emax := one_le_zpow₀ (by norm_num) (by simp [binary64])
      have h2 : (2 : ℝ) ^ (-(binary64.p : ℤ)) ≤ 1 / 2 := by norm_num [binary64]
      nlinarith) (by simp [binary64])

end Neo.Props
