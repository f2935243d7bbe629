import Verif.Lemmas.Stats
import Verif.Props.Algo
import Mathlib.Tactic.IntervalCases

/-!
# Properties C48, C49, C50, C54: statistics, normalisation and comparison
-/

namespace Neo.Props

open Spec

/-! ## C50: statistics -/

/-- **C50** (vectors): `mean` is nothing for the empty vector and the arithmetic mean otherwise;
`variance` and `standard_deviation` are nothing below two elements and the population variance and
its square root otherwise.  Vectors of `2^31` elements or more are excluded by the `int` counter. -/
theorem C50_vec (x : List ℝ) (h : x.length < 2 ^ 31) :
    meanVec x = .ok (if x.length < 1 then none else some (Spec.mean x)) ∧
    varianceVec x = .ok (if x.length < 2 then none else some (Spec.variance x)) ∧
    standardDeviationVec x
      = .ok (if x.length < 2 then none else some (Real.sqrt (Spec.variance x))) := by
  have hm : 1 ≤ x.length → meanUncheckedVec x = .ok (Spec.mean x) := by
    intro h1
    unfold meanUncheckedVec
    rw [sumVec_eq _ _ h, bind_ok, fdiv_ok (by rw [Nat.cast_ne_zero]; omega), List.map_id]
    rfl
  have hv : varianceVec x = .ok (if x.length < 2 then none else some (Spec.variance x)) := by
    unfold varianceVec
    split
    · rfl
    · rw [hm (by omega), bind_ok, sumVec_eq _ _ h, bind_ok,
        fdiv_ok (by rw [Nat.cast_ne_zero]; omega), bind_ok, pure_eq_ok, variance_unfold]
  refine ⟨?_, hv, ?_⟩
  · unfold meanVec
    split
    · rfl
    · rw [hm (by omega)]; rfl
  · unfold standardDeviationVec
    rw [hv, bind_ok]
    split <;> rfl

example : meanVec [1, 2, 6] = .ok (some 3) ∧ varianceVec [1, 2, 6] = .ok (some (14 / 3)) := by
  obtain ⟨h1, h2, -⟩ := C50_vec [1, 2, 6] (by decide)
  rw [h1, h2]
  norm_num [Spec.mean, Spec.variance]

/-- **C50** (matrices): the same for every in-bounds rank-2 view, over all its elements. -/
theorem C50_mat (v : MatView) (data : List ℝ)
    (hv : ∀ r < v.rows, ∀ c < v.cols, v.idx r c < data.length) (hr : v.rows < 2 ^ 31)
    (hc : v.cols < 2 ^ 31) :
    (entries v data).length = v.rows * v.cols ∧
    meanMat v data = .ok (if v.rows * v.cols < 1 then none else some (Spec.mean (entries v data))) ∧
    varianceMat v data
      = .ok (if v.rows * v.cols < 2 then none else some (Spec.variance (entries v data))) ∧
    standardDeviationMat v data
      = .ok (if v.rows * v.cols < 2 then none
          else some (Real.sqrt (Spec.variance (entries v data)))) := by
  have hl := entries_length hv
  have hm : 1 ≤ v.rows * v.cols → meanUncheckedMat v data = .ok (Spec.mean (entries v data)) := by
    intro h1
    unfold meanUncheckedMat
    rw [sumMat_eq _ _ _ hv hr hc, bind_ok, fdiv_ok (by rw [Nat.cast_ne_zero]; omega), List.map_id,
      ← hl]
    rfl
  have hv' : varianceMat v data
      = .ok (if v.rows * v.cols < 2 then none else some (Spec.variance (entries v data))) := by
    unfold varianceMat
    split
    · rfl
    · rw [hm (by omega), bind_ok, sumMat_eq _ _ _ hv hr hc, bind_ok,
        fdiv_ok (by rw [Nat.cast_ne_zero]; omega), bind_ok, pure_eq_ok, variance_unfold, hl]
  refine ⟨hl, ?_, hv', ?_⟩
  · unfold meanMat
    split
    · rfl
    · rw [hm (by omega)]; rfl
  · unfold standardDeviationMat
    rw [hv', bind_ok]
    split <;> rfl

example : meanMat (MatView.right 2 2) [1, 2, 3, 6] = .ok (some 3) := by
  rw [(C50_mat (MatView.right 2 2) [1, 2, 3, 6] (MatView.right_valid 2 2).1 (by decide)
    (by decide)).2.1]
  rw [if_neg (by decide), show entries (MatView.right 2 2) [1, 2, 3, 6] = ([1, 2, 3, 6] : List ℝ)
    from rfl]
  norm_num [Spec.mean]

/-- **C50**: with `2^31` elements or more the `int` counter of the loop overflows. -/
theorem C50_too_long (x : List ℝ) (h : 2 ^ 31 ≤ x.length) :
    meanVec x = .error .overflow ∧ varianceVec x = .error .overflow := by
  have hs : ∀ f, sumVec f x = .error .overflow := by
    intro f
    unfold sumVec forInt
    rw [Nat.min_eq_right h]
    have := forN_fold_vec x (fun s v => s + f v) 0 _ h
    rw [this, bind_ok, if_neg (by omega)]
  have hm : meanUncheckedVec x = .error .overflow := by
    unfold meanUncheckedVec
    rw [hs]; rfl
  have h2 : (2 : ℕ) ≤ 2 ^ 31 := Nat.le_self_pow (by decide) 2
  constructor
  · unfold meanVec
    rw [if_neg (by have := h2.trans h; omega), hm]; rfl
  · unfold varianceVec
    rw [if_neg (by have := h2.trans h; omega), hm]; rfl

example : (List.replicate (2 ^ 31) (0 : ℝ)).length = 2 ^ 31 := List.length_replicate

/-- **C50**: the variance returned for a vector is non-negative, zero exactly for constant vectors,
invariant under shifts, and scales with the square of a factor. -/
theorem C50_variance_laws (x : List ℝ) (h2 : 2 ≤ x.length) (h : x.length < 2 ^ 31) :
    ∃ s, varianceVec x = .ok (some s) ∧ 0 ≤ s ∧ (s = 0 ↔ ∃ c, x = List.replicate x.length c) ∧
      (∀ c, varianceVec (x.map (· + c)) = .ok (some s)) ∧
      (∀ a, varianceVec (x.map (a * ·)) = .ok (some (a ^ 2 * s))) := by
  have hx : x ≠ [] := by rintro rfl; simp at h2
  have hv : ∀ y : List ℝ, y.length = x.length → varianceVec y = .ok (some (Spec.variance y)) := by
    intro y hy
    rw [(C50_vec y (by omega)).2.1, if_neg (by omega)]
  refine ⟨Spec.variance x, hv x rfl, variance_nonneg x, ?_, ?_, ?_⟩
  · rw [variance_eq_zero hx]
    constructor
    · rintro ⟨c, hc⟩; exact ⟨c, List.eq_replicate_iff.2 ⟨rfl, hc⟩⟩
    · rintro ⟨c, hc⟩; exact ⟨c, (List.eq_replicate_iff.1 hc).2⟩
  · intro c; rw [hv _ (by simp), variance_shift hx]
  · intro a; rw [hv _ (by simp), variance_scale]

example : ∃ s, varianceVec [3, 3, 3] = .ok (some s) ∧ s = 0 := by
  obtain ⟨s, h, -, h0, -⟩ := C50_variance_laws [3, 3, 3] (by decide) (by decide)
  exact ⟨s, h, h0.2 ⟨3, rfl⟩⟩

theorem mseVec_eq {α : Type} (mag : α → ℝ) (x y : List α) (h : x.length = y.length) (hx : x ≠ []) :
    mseVec mag x y = .ok (Spec.mean (List.zipWith (fun a b => (mag a - mag b) ^ 2) x y)) := by
  unfold mseVec
  rw [check_decide_ok h, bind_ok]
  have key : ∀ k, k ≤ x.length → forN k (fun i s => do
      let a ← rd x i
      let b ← rd y i
      pure (s + (mag a - mag b) * (mag a - mag b))) 0
      = .ok ((List.zipWith (fun a b => (mag a - mag b) ^ 2) x y).take k).sum := by
    intro k hk
    induction k with
    | zero => simp
    | succ k ih =>
      rw [forN_succ, ih (by omega), bind_ok, rd_ok (by omega), bind_ok, rd_ok (by omega), bind_ok,
        pure_eq_ok, List.take_succ_eq_append_getElem (by simp; omega), List.sum_append]
      simp [pow_two]
  rw [key _ le_rfl, bind_ok, fdiv_ok (by rw [Nat.cast_ne_zero]; simpa using hx), Spec.mean]
  rw [List.take_of_length_le (by simp)]
  simp [h]

theorem mseMat_eq {α : Type} (mag : α → ℝ) (vx vy : MatView) (x y : List α)
    (hr : vx.rows = vy.rows) (hc : vx.cols = vy.cols)
    (hx : ∀ r < vx.rows, ∀ c < vx.cols, vx.idx r c < x.length)
    (hy : ∀ r < vy.rows, ∀ c < vy.cols, vy.idx r c < y.length) (h0 : 1 ≤ vx.rows * vx.cols) :
    mseMat mag vx x vy y
      = .ok (Spec.mean (List.zipWith (fun a b => (mag a - mag b) ^ 2) (entries vx x) (entries vy y))) := by
  have hlx := entries_length hx
  have hly := entries_length hy
  unfold mseMat
  rw [check_decide_ok ⟨hr, hc⟩, bind_ok]
  -- one row
  have hrow : ∀ r < vx.rows, ∀ s : ℝ, ∀ k ≤ vx.cols, forN k (fun j s => do
      let a ← rd x (vx.idx r j)
      let b ← rd y (vy.idx r j)
      pure (s + (mag a - mag b) * (mag a - mag b))) s
      = .ok (s + (List.zipWith (fun a b => (mag a - mag b) ^ 2)
          ((List.range k).filterMap (fun c => x[vx.idx r c]?))
          ((List.range k).filterMap (fun c => y[vy.idx r c]?))).sum) := by
    intro r hrr s k hk
    have hlen : ∀ (v : MatView) (z : List α) (k : ℕ), (∀ c < k, v.idx r c < z.length) →
        ((List.range k).filterMap (fun c => z[v.idx r c]?)).length = k := by
      intro v z k hz
      exact row_length (v := ⟨0, k, v.off, v.s0, v.s1⟩) hz
    induction k with
    | zero => simp
    | succ k ih =>
      have h1 := hx r hrr k (by omega)
      have h2 := hy r (by omega) k (by omega)
      rw [forN_succ, ih (by omega), bind_ok, rd_ok h1, bind_ok, rd_ok h2, bind_ok,
        pure_eq_ok, List.range_succ, List.filterMap_append, List.filterMap_append,
        List.zipWith_append (by
          rw [hlen _ _ _ (fun c hc' => hx r hrr c (by omega)),
            hlen _ _ _ (fun c hc' => hy r (by omega) c (by omega))]), List.sum_append]
      simp [List.getElem?_eq_getElem h1, List.getElem?_eq_getElem h2, pow_two, add_assoc]
  have hall : ∀ R ≤ vx.rows, forN R (fun i s => forN vx.cols (fun j s => do
      let a ← rd x (vx.idx i j)
      let b ← rd y (vy.idx i j)
      pure (s + (mag a - mag b) * (mag a - mag b))) s) 0
      = .ok (List.zipWith (fun a b => (mag a - mag b) ^ 2)
          ((List.range R).flatMap (row vx x)) ((List.range R).flatMap (row vy y))).sum := by
    intro R hR
    induction R with
    | zero => simp
    | succ R ih =>
      have e1 := entries_length (v := ⟨R, vx.cols, vx.off, vx.s0, vx.s1⟩) (data := x)
        (fun r hr' => hx r (by have : r < R := hr'; omega))
      have e2 := entries_length (v := ⟨R, vy.cols, vy.off, vy.s0, vy.s1⟩) (data := y)
        (fun r hr' => hy r (by have : r < R := hr'; omega))
      have e3 : ((List.range R).flatMap (row vx x)).length = ((List.range R).flatMap (row vy y)).length :=
        e1.trans (by rw [show (⟨R, vx.cols, vx.off, vx.s0, vx.s1⟩ : MatView).cols = vy.cols from hc]; exact e2.symm)
      rw [forN_succ, ih (by omega), bind_ok, hrow R (by omega) _ _ le_rfl, List.range_succ,
        List.flatMap_append, List.flatMap_append, List.zipWith_append e3, List.sum_append]
      simp only [List.flatMap_cons, List.flatMap_nil, List.append_nil]
      rw [hc]; unfold row; rw [hc]
  rw [hall _ le_rfl, bind_ok, fdiv_ok (by rw [Nat.cast_ne_zero]; omega), Spec.mean]
  rw [List.length_zipWith, hlx, hly, ← hr, ← hc, Nat.min_self, entries_eq_rows, entries_eq_rows, ← hr]

theorem zipWith_sq_eq_zero {α : Type} (mag : α → ℝ) (x y : List α) (h : x.length = y.length)
    (hx : x ≠ []) :
    0 ≤ Spec.mean (List.zipWith (fun a b => (mag a - mag b) ^ 2) x y) ∧
    (Spec.mean (List.zipWith (fun a b => (mag a - mag b) ^ 2) x y) = 0 ↔ x.map mag = y.map mag) := by
  have e : List.zipWith (fun a b => (mag a - mag b) ^ 2) x y
      = (x.zip y).map (fun p => (mag p.1 - mag p.2) ^ 2) := by
    rw [List.zip, List.map_zipWith]
  have hl : ((x.zip y).length : ℝ) ≠ 0 := by
    rw [Nat.cast_ne_zero, List.length_zip, ← h, Nat.min_self]; simpa using hx
  rw [e, Spec.mean, List.length_map]
  refine ⟨div_nonneg (sq_sum_nonneg _ _) (Nat.cast_nonneg _), ?_⟩
  rw [div_eq_zero_iff, or_iff_left hl, sq_sum_eq_zero]
  clear hl e hx
  induction x generalizing y with
  | nil =>
    have : y = [] := List.eq_nil_of_length_eq_zero h.symm
    simp [this]
  | cons a as ih =>
    cases y with
    | nil => simp at h
    | cons b bs =>
      simp only [List.zip_cons_cons, List.forall_mem_cons, List.map_cons, List.cons.injEq]
      rw [ih bs (by simpa using h), sub_eq_zero]

/-- **C50**: the mean squared error of two real vectors or matrices of equal, non-zero extents is the
mean of the squared differences; it is non-negative, zero exactly for equal inputs, and the root mean
squared error is its square root. -/
theorem C50_mse_real (x y : List ℝ) (h : x.length = y.length) (hx : x ≠ []) :
    ∃ e, mseReal x y = .ok e ∧ e = Spec.mean (List.zipWith (fun a b => (a - b) ^ 2) x y) ∧
      0 ≤ e ∧ (e = 0 ↔ x = y) ∧ rmseVec id x y = .ok (Real.sqrt e) := by
  have h1 := mseVec_eq id x y h hx
  obtain ⟨h2, h3⟩ := zipWith_sq_eq_zero id x y h hx
  simp only [List.map_id] at h3
  exact ⟨_, h1, rfl, h2, h3, by unfold rmseVec; rw [h1]; rfl⟩

theorem C50_mse_real_mat (vx vy : MatView) (x y : List ℝ)
    (hr : vx.rows = vy.rows) (hc : vx.cols = vy.cols)
    (hx : ∀ r < vx.rows, ∀ c < vx.cols, vx.idx r c < x.length)
    (hy : ∀ r < vy.rows, ∀ c < vy.cols, vy.idx r c < y.length) (h0 : 1 ≤ vx.rows * vx.cols) :
    ∃ e, mseMat id vx x vy y = .ok e ∧
      e = Spec.mean (List.zipWith (fun a b => (a - b) ^ 2) (entries vx x) (entries vy y)) ∧
      0 ≤ e ∧ (e = 0 ↔ entries vx x = entries vy y) ∧
      rmseMat id vx x vy y = .ok (Real.sqrt e) := by
  have h1 := mseMat_eq id vx vy x y hr hc hx hy h0
  obtain ⟨h2, h3⟩ := zipWith_sq_eq_zero id (entries vx x) (entries vy y)
    (by rw [entries_length hx, entries_length hy, hr, hc])
    (by
      intro e
      have := entries_length hx
      rw [e, List.length_nil] at this
      omega)
  simp only [List.map_id] at h3
  exact ⟨_, h1, rfl, h2, h3, by unfold rmseMat; rw [h1]; rfl⟩

example : mseReal [1, 2] [1, 4] = .ok 2 := by
  obtain ⟨e, h, h2, -⟩ := C50_mse_real [1, 2] [1, 4] rfl (by simp)
  rw [h, h2]; norm_num [Spec.mean]

example : ∃ e, mseMat id (MatView.right 1 2) [1, 2] (MatView.left 1 2) [1, 4] = .ok e ∧ e ≠ 0 := by
  obtain ⟨e, h, h2, -⟩ := C50_mse_real_mat (MatView.right 1 2) (MatView.left 1 2) [1, 2] [1, 4] rfl rfl
    (MatView.right_valid 1 2).1 (MatView.left_valid 1 2).1 (by decide)
  refine ⟨e, h, ?_⟩
  rw [h2]
  rw [show entries (MatView.right 1 2) [1, 2] = ([1, 2] : List ℝ) from rfl,
    show entries (MatView.left 1 2) [1, 4] = ([1, 4] : List ℝ) from rfl]
  norm_num [Spec.mean]

/-- **C50**, corners of the mean squared error: different extents are an assertion failure and empty
inputs divide zero by zero (there is no "too short" result). -/
theorem C50_mse_corner {α : Type} (mag : α → ℝ) (x y : List α) :
    (x.length ≠ y.length → mseVec mag x y = .error .assertion) ∧
    mseVec mag ([] : List α) [] = .error .divZero := by
  constructor
  · intro h
    exact bind_check_false h _
  · unfold mseVec
    simp [fdiv_zero]

/-- **C50 fails for complex inputs**: `mean_squared_error` compares magnitudes only, so it is zero
exactly when the magnitudes agree; `1` and `-1` have error zero. -/
theorem C50_mse_complex_false :
    (∀ x y : List ℂ, x.length = y.length → x ≠ [] →
      ∃ e, mseComplex x y = .ok e ∧ 0 ≤ e ∧ (e = 0 ↔ x.map (fun z => ‖z‖) = y.map (fun z => ‖z‖))) ∧
    ¬ (∀ x y : List ℂ, x.length = y.length → x ≠ [] →
      (mseComplex x y = .ok 0 ↔ x = y)) := by
  have h1 : ∀ x y : List ℂ, x.length = y.length → x ≠ [] →
      ∃ e, mseComplex x y = .ok e ∧ 0 ≤ e ∧
        (e = 0 ↔ x.map (fun z => ‖z‖) = y.map (fun z => ‖z‖)) := by
    intro x y h hx
    obtain ⟨h2, h3⟩ := zipWith_sq_eq_zero (fun z : ℂ => ‖z‖) x y h hx
    exact ⟨_, mseVec_eq _ x y h hx, h2, h3⟩
  refine ⟨h1, fun hcl => ?_⟩
  obtain ⟨e, he, -, h0⟩ := h1 [1] [-1] rfl (by simp)
  rw [h0.2 (by simp)] at he
  have := (hcl [1] [-1] rfl (by simp)).1 he
  simp only [List.cons.injEq, and_true] at this
  norm_num [Complex.ext_iff] at this

/-! ## C49: peak and energy normalisation -/

theorem scaleVec_eq_map (a : ℝ) (x : List ℝ) : scaleVec a x = .ok (x.map (· * a)) := by
  rw [eq_vec_getD x 0, scaleVec_vec, map_vec]

/-- **C49** (vectors, peak): `normalize_peak` multiplies by one positive factor; a silent or empty
vector is unchanged, any other ends with largest magnitude exactly `1`; a second call changes
nothing. -/
theorem C49_peak_vec (x : List ℝ) :
    ∃ y a, normalizePeakVec x = .ok y ∧ 0 < a ∧ y = x.map (· * a) ∧
      ((∀ v ∈ x, v = 0) → y = x) ∧
      ((∃ v ∈ x, v ≠ 0) → (∀ w ∈ y, |w| ≤ 1) ∧ ∃ w ∈ y, |w| = 1) ∧
      normalizePeakVec y = .ok y := by
  have hf : ∀ z : List ℝ, normalizePeakFactorVec z
      = peakFactorOf (z.foldl (fun m v => max m |v|) 0) := by
    intro z
    unfold normalizePeakFactorVec
    split
    · rename_i h
      have : z = [] := List.eq_nil_of_length_eq_zero h
      subst this
      simp [peakFactorOf]
    · rw [forN_fold_vec z (fun m v => max m |v|) 0 _ le_rfl, List.take_length, bind_ok]
  have hrun : ∀ z : List ℝ, ∀ b, peakFactorOf (z.foldl (fun m v => max m |v|) 0) = .ok b →
      normalizePeakVec z = .ok (z.map (· * b)) := by
    intro z b hb
    unfold normalizePeakVec
    rw [hf, hb, bind_ok, scaleVec_eq_map]
  obtain ⟨a, ha, hpos, h0, h1, -⟩ := peakFactor_spec x
  have hpeak : (∃ v ∈ x, v ≠ 0) →
      (∀ w ∈ x.map (· * a), |w| ≤ 1) ∧ ∃ w ∈ x.map (· * a), |w| = 1 := by
    intro hne
    obtain ⟨k1, v, hv, k2⟩ := h1 hne
    exact ⟨fun w hw => by obtain ⟨v, hv, rfl⟩ := List.mem_map.1 hw; exact k1 v hv,
      _, List.mem_map.2 ⟨v, hv, rfl⟩, k2⟩
  have hsil : (∀ v ∈ x, v = 0) → x.map (· * a) = x := by
    intro h; rw [h0 h]; simp
  refine ⟨_, a, hrun x a ha, hpos, rfl, hsil, hpeak, ?_⟩
  obtain ⟨b, hb, -, h0', -, h2'⟩ := peakFactor_spec (x.map (· * a))
  have hb1 : b = 1 := by
    by_cases h : ∀ v ∈ x, v = 0
    · apply h0'
      rw [hsil h]; exact h
    · push Not at h
      exact h2' (hpeak h).1 (hpeak h).2
  rw [hrun _ b hb, hb1]; simp

example : ∃ y, normalizePeakVec [1, -4, 2] = .ok y ∧ ∃ w ∈ y, |w| = 1 := by
  obtain ⟨y, -, h, -, -, -, h1, -⟩ := C49_peak_vec [1, -4, 2]
  exact ⟨y, h, (h1 ⟨1, by simp, by norm_num⟩).2⟩

/-- **C49** (vectors, energy): `normalize_energy` multiplies by one positive factor; a silent or empty
vector is unchanged, any other ends with energy exactly `1`; a second call changes nothing. -/
theorem C49_energy_vec (x : List ℝ) :
    ∃ y a, normalizeEnergyVec x = .ok y ∧ 0 < a ∧ y = x.map (· * a) ∧
      ((∀ v ∈ x, v = 0) → y = x) ∧ ((∃ v ∈ x, v ≠ 0) → energy y = 1) ∧
      normalizeEnergyVec y = .ok y := by
  have hrun : ∀ z : List ℝ, ∀ b, energyFactorOf (energy z) = .ok b →
      normalizeEnergyVec z = .ok (z.map (· * b)) := by
    intro z b hb
    unfold normalizeEnergyVec normalizeEnergyFactorVec
    rw [forN_fold_vec z (fun e v => e + v * v) 0 _ le_rfl, List.take_length, bind_ok, foldl_energy,
      hb, bind_ok, scaleVec_eq_map]
  obtain ⟨a, ha, hpos, h0, h1⟩ := energyFactor_spec (energy_nonneg x)
  have hsil : (∀ v ∈ x, v = 0) → x.map (· * a) = x := by
    intro h; rw [h0 ((energy_eq_zero x).2 h)]; simp
  have hen : (∃ v ∈ x, v ≠ 0) → energy (x.map (· * a)) = 1 := by
    rintro ⟨v, hv, hne⟩
    rw [energy_map_mul]
    exact h1 (fun h => hne ((energy_eq_zero x).1 h v hv))
  refine ⟨_, a, hrun x a ha, hpos, rfl, hsil, hen, ?_⟩
  obtain ⟨b, hb, hbpos, h0', h1'⟩ := energyFactor_spec (energy_nonneg (x.map (· * a)))
  have hb1 : b = 1 := by
    by_cases h : ∀ v ∈ x, v = 0
    · apply h0'
      rw [hsil h]; exact (energy_eq_zero x).2 h
    · push Not at h
      have he := hen h
      have := h1' (by rw [he]; exact one_ne_zero)
      rw [he, one_mul] at this
      nlinarith
  rw [hrun _ b hb, hb1]; simp

example : ∃ y, normalizeEnergyVec [3, 4] = .ok y ∧ energy y = 1 := by
  obtain ⟨y, -, h, -, -, -, h1, -⟩ := C49_energy_vec [3, 4]
  exact ⟨y, h, h1 ⟨3, by simp, by norm_num⟩⟩

/-- Scaling a matrix view: its rows are scaled, the rest of the storage is unchanged. -/
theorem scaleMat_spec (colMajor : Bool) (a : ℝ) (v : MatView) (data : List ℝ)
    (hv : v.Valid data.length) :
    ∃ d, scaleMat colMajor a v data = .ok d ∧ d.length = data.length ∧
      (∀ r < v.rows, row v d r = (row v data r).map (· * a)) ∧
      entries v d = (entries v data).map (· * a) ∧
      (∀ m, (∀ r < v.rows, ∀ c < v.cols, v.idx r c ≠ m) → d[m]? = data[m]?) ∧
      ((∀ w ∈ entries v data, w * a = w) → d = data) := by
  obtain ⟨d, h1, h2, h3, h4⟩ := C60_matrix_unary colMajor (fun x : ℝ => x * a) v data hv
  have hrow : ∀ r < v.rows, row v d r = (row v data r).map (· * a) := by
    intro r hr
    unfold row
    rw [List.map_filterMap]
    apply List.filterMap_congr
    intro c hc
    exact h3 r hr c (List.mem_range.1 hc)
  refine ⟨d, h1, h2, hrow, ?_, h4, ?_⟩
  · rw [entries_eq_rows, entries_eq_rows, List.map_flatMap]
    rw [List.flatMap_def, List.flatMap_def]
    congr 1
    apply List.map_congr_left
    intro r hr
    exact hrow r (List.mem_range.1 hr)
  · intro hw
    apply List.ext_getElem?
    intro m
    by_cases hm : ∀ r < v.rows, ∀ c < v.cols, v.idx r c ≠ m
    · exact h4 m hm
    · push Not at hm
      obtain ⟨r, hr, c, hc, rfl⟩ := hm
      rw [h3 r hr c hc]
      have hb := hv.1 r hr c hc
      rw [List.getElem?_eq_getElem hb]
      simp only [Option.map_some, Option.some.injEq]
      exact hw _ (mem_entries.2 ⟨r, hr, c, hc, List.getElem?_eq_getElem hb⟩)

/-- **C49** (matrices): the same for every valid rank-2 view in either loop order, over all its
elements; the storage outside the view is unchanged. -/
theorem C49_peak_mat (colMajor : Bool) (v : MatView) (data : List ℝ) (hv : v.Valid data.length) :
    ∃ d a, normalizePeakMat colMajor v data = .ok d ∧ 0 < a ∧ d.length = data.length ∧
      entries v d = (entries v data).map (· * a) ∧
      (∀ m, (∀ r < v.rows, ∀ c < v.cols, v.idx r c ≠ m) → d[m]? = data[m]?) ∧
      ((∀ w ∈ entries v data, w = 0) → d = data) ∧
      ((∃ w ∈ entries v data, w ≠ 0) →
        (∀ w ∈ entries v d, |w| ≤ 1) ∧ ∃ w ∈ entries v d, |w| = 1) ∧
      normalizePeakMat colMajor v d = .ok d := by
  have hf : ∀ z : List ℝ, v.Valid z.length → normalizePeakFactorMat v z
      = peakFactorOf ((entries v z).foldl (fun m v => max m |v|) 0) := by
    intro z hz
    unfold normalizePeakFactorMat
    split
    · rename_i h
      have : entries v z = [] := by simp [entries, h.1]
      simp [this, peakFactorOf]
    · rw [forN_fold_mat v z (fun m v => max m |v|) 0 hz.1, bind_ok]
  obtain ⟨a, ha, hpos, h0, h1, -⟩ := peakFactor_spec (entries v data)
  obtain ⟨d, e1, e2, -, e3, e4, e5⟩ := scaleMat_spec colMajor a v data hv
  have hsil : (∀ w ∈ entries v data, w = 0) → d = data := by
    intro h; apply e5; intro w hw; rw [h w hw, zero_mul]
  have hpeak : (∃ w ∈ entries v data, w ≠ 0) →
      (∀ w ∈ entries v d, |w| ≤ 1) ∧ ∃ w ∈ entries v d, |w| = 1 := by
    intro hne
    obtain ⟨k1, w, hw, k2⟩ := h1 hne
    rw [e3]
    exact ⟨fun w hw => by obtain ⟨u, hu, rfl⟩ := List.mem_map.1 hw; exact k1 u hu,
      _, List.mem_map.2 ⟨w, hw, rfl⟩, k2⟩
  refine ⟨d, a, ?_, hpos, e2, e3, e4, hsil, hpeak, ?_⟩
  · unfold normalizePeakMat
    rw [hf data hv, ha, bind_ok, e1]
  · have hvd : v.Valid d.length := e2 ▸ hv
    obtain ⟨b, hb, -, h0', -, h2'⟩ := peakFactor_spec (entries v d)
    have hb1 : b = 1 := by
      by_cases h : ∀ w ∈ entries v data, w = 0
      · apply h0'; rw [hsil h]; exact h
      · push Not at h
        exact h2' (hpeak h).1 (hpeak h).2
    obtain ⟨d', f1, -, -, -, -, f5⟩ := scaleMat_spec colMajor b v d hvd
    unfold normalizePeakMat
    rw [hf d hvd, hb, bind_ok, f1, f5 (by rw [hb1]; simp)]

/-- **C49** (matrices, energy). -/
theorem C49_energy_mat (colMajor : Bool) (v : MatView) (data : List ℝ) (hv : v.Valid data.length) :
    ∃ d a, normalizeEnergyMat colMajor v data = .ok d ∧ 0 < a ∧ d.length = data.length ∧
      entries v d = (entries v data).map (· * a) ∧
      (∀ m, (∀ r < v.rows, ∀ c < v.cols, v.idx r c ≠ m) → d[m]? = data[m]?) ∧
      ((∀ w ∈ entries v data, w = 0) → d = data) ∧
      ((∃ w ∈ entries v data, w ≠ 0) → energy (entries v d) = 1) ∧
      normalizeEnergyMat colMajor v d = .ok d := by
  have hf : ∀ z : List ℝ, v.Valid z.length → normalizeEnergyFactorMat v z
      = energyFactorOf (energy (entries v z)) := by
    intro z hz
    unfold normalizeEnergyFactorMat
    rw [forN_fold_mat v z (fun e v => e + v * v) 0 hz.1, bind_ok, foldl_energy]
  obtain ⟨a, ha, hpos, h0, h1⟩ := energyFactor_spec (energy_nonneg (entries v data))
  obtain ⟨d, e1, e2, -, e3, e4, e5⟩ := scaleMat_spec colMajor a v data hv
  have hsil : (∀ w ∈ entries v data, w = 0) → d = data := by
    intro h; apply e5; intro w hw; rw [h w hw, zero_mul]
  have hen : (∃ w ∈ entries v data, w ≠ 0) → energy (entries v d) = 1 := by
    rintro ⟨w, hw, hne⟩
    rw [e3, energy_map_mul]
    exact h1 (fun h => hne ((energy_eq_zero _).1 h w hw))
  refine ⟨d, a, ?_, hpos, e2, e3, e4, hsil, hen, ?_⟩
  · unfold normalizeEnergyMat
    rw [hf data hv, ha, bind_ok, e1]
  · have hvd : v.Valid d.length := e2 ▸ hv
    obtain ⟨b, hb, hbpos, h0', h1'⟩ := energyFactor_spec (energy_nonneg (entries v d))
    have hb1 : b = 1 := by
      by_cases h : ∀ w ∈ entries v data, w = 0
      · apply h0'; rw [hsil h]; exact (energy_eq_zero _).2 h
      · push Not at h
        have he := hen h
        have := h1' (by rw [he]; exact one_ne_zero)
        rw [he, one_mul] at this
        nlinarith
    obtain ⟨d', f1, -, -, -, -, f5⟩ := scaleMat_spec colMajor b v d hvd
    unfold normalizeEnergyMat
    rw [hf d hvd, hb, bind_ok, f1, f5 (by rw [hb1]; simp)]

example : ∃ w ∈ entries (MatView.right 2 2) [0, 0, 3, 4], w ≠ (0 : ℝ) :=
  ⟨3, by
    rw [show entries (MatView.right 2 2) [0, 0, 3, 4] = ([0, 0, 3, 4] : List ℝ) from rfl]
    simp, by norm_num⟩

/-! ## C48: normalising an impulse response -/

theorem rowOf_eq (v : MatView) (data : List ℝ) (r : ℕ)
    (h : ∀ c < v.cols, v.idx r c < data.length) : rowOf v data r = .ok (row v data r) := by
  unfold rowOf
  rw [forN_fold_row v data r (fun out x => out ++ [x]) [] h]
  congr 1
  have : ∀ (l acc : List ℝ), l.foldl (fun out x => out ++ [x]) acc = acc ++ l := by
    intro l
    induction l with
    | nil => simp
    | cons y ys ih => intro acc; simp [ih]
  simp [this]

theorem normalizeEnergyFactorVec_eq (z : List ℝ) :
    normalizeEnergyFactorVec z = energyFactorOf (energy z) := by
  unfold normalizeEnergyFactorVec
  rw [forN_fold_vec z (fun e v => e + v * v) 0 _ le_rfl, List.take_length, bind_ok, foldl_energy]

/-- The factor is the smallest of the energy factors of the channels. -/
theorem impulseFactor_spec (v : MatView) (data : List ℝ)
    (hv : ∀ r < v.rows, ∀ c < v.cols, v.idx r c < data.length) (hr : 1 ≤ v.rows) :
    ∃ f, impulseFactor v data = .ok f ∧ 0 < f ∧
      (∀ r < v.rows, ∃ a, energyFactorOf (energy (row v data r)) = .ok a ∧ f ≤ a) ∧
      (∃ r < v.rows, energyFactorOf (energy (row v data r)) = .ok f) := by
  have hfac : ∀ r, ∃ a, energyFactorOf (energy (row v data r)) = .ok a ∧ 0 < a :=
    fun r => by
      obtain ⟨a, h, h', -⟩ := energyFactor_spec (energy_nonneg (row v data r))
      exact ⟨a, h, h'⟩
  choose fac hfac hpos using hfac
  unfold impulseFactor
  rw [rowOf_eq v data 0 (hv 0 (by omega)), bind_ok, normalizeEnergyFactorVec_eq, hfac, bind_ok]
  unfold forR
  obtain ⟨f, h1, h2, h3, r, h4, h5⟩ := forN_inv (n := v.rows - 1)
    (body := fun i f => do
      let c ← rowOf v data (1 + i)
      let g ← normalizeEnergyFactorVec c
      pure (min f g)) (s := fac 0)
    (fun i f => 0 < f ∧ (∀ r < i + 1, f ≤ fac r) ∧ ∃ r, r < i + 1 ∧ f = fac r)
    ⟨hpos 0, fun r hr => by rw [show r = 0 by omega], 0, by omega, rfl⟩ (by
      rintro i hi f ⟨k1, k2, r, k3, k4⟩
      refine ⟨min f (fac (1 + i)), ?_, lt_min k1 (hpos _), ?_, ?_⟩
      · rw [rowOf_eq v data (1 + i) (hv _ (by omega)), bind_ok, normalizeEnergyFactorVec_eq, hfac]
        rfl
      · intro r hr
        rcases Nat.lt_succ_iff_lt_or_eq.1 hr with h | rfl
        · exact (min_le_left _ _).trans (k2 r h)
        · rw [Nat.add_comm i 1]; exact min_le_right _ _
      · rcases le_total f (fac (1 + i)) with h | h
        · exact ⟨r, by omega, by rw [min_eq_left h, k4]⟩
        · exact ⟨1 + i, by omega, by rw [min_eq_right h]⟩)
  refine ⟨f, h1, h2, fun r hr => ⟨fac r, hfac r, h3 r (by omega)⟩, r, by omega, ?_⟩
  rw [h5]; exact hfac r

/-- **C48** (partial): `normalize_impulse` scales all channels by one positive factor, never divides
by zero, leaves every channel with energy at most `1`, and leaves a wholly silent matrix unchanged.
The loudest channel ends with energy exactly `1` if no channel is silent, or if some channel has
energy `1` or more to begin with.  Missing: a silent channel beside quiet ones, where the claim is
false (`C48_silent_channel_false`). -/
theorem C48_normalize_impulse_partial (colMajor : Bool) (v : MatView) (data : List ℝ)
    (hv : v.Valid data.length) :
    ∃ d a, normalizeImpulseMat colMajor v data = .ok d ∧ 0 < a ∧ d.length = data.length ∧
      (∀ r < v.rows, row v d r = (row v data r).map (· * a)) ∧
      (∀ m, (∀ r < v.rows, ∀ c < v.cols, v.idx r c ≠ m) → d[m]? = data[m]?) ∧
      (∀ r < v.rows, energy (row v d r) ≤ 1) ∧
      ((∀ r < v.rows, energy (row v data r) = 0) → d = data) ∧
      ((∀ r < v.rows, energy (row v data r) ≠ 0) ∨ (∃ r < v.rows, 1 ≤ energy (row v data r)) →
        1 ≤ v.rows → ∃ r < v.rows, energy (row v d r) = 1 ∧
          ∀ r' < v.rows, energy (row v data r') ≤ energy (row v data r)) := by
  unfold normalizeImpulseMat
  rcases Nat.eq_zero_or_pos v.rows with h0 | h0
  · rw [if_pos (by omega)]
    exact ⟨data, 1, rfl, one_pos, rfl, by intro r hr; omega, fun _ _ => rfl, by intro r hr; omega,
      fun _ => rfl, by intros; omega⟩
  rw [if_neg (by omega)]
  obtain ⟨f, h1, hpos, h2, r0, hr0, h3⟩ := impulseFactor_spec v data hv.1 h0
  obtain ⟨d, e1, e2, e3, e4, e5, e6⟩ := scaleMat_spec colMajor f v data hv
  have hE : ∀ r < v.rows, energy (row v d r) = energy (row v data r) * f ^ 2 := by
    intro r hr; rw [e3 r hr, energy_map_mul]
  have hle : ∀ r < v.rows, energy (row v d r) ≤ 1 := by
    intro r hr
    rw [hE r hr]
    obtain ⟨a, ha, hfa⟩ := h2 r hr
    obtain ⟨a', ha', -, -, k⟩ := energyFactor_spec (energy_nonneg (row v data r))
    rw [ha] at ha'
    obtain rfl : a = a' := by injection ha'
    by_cases h : energy (row v data r) = 0
    · rw [h]; simp
    · rw [← k h]
      exact mul_le_mul_of_nonneg_left (pow_le_pow_left₀ hpos.le hfa 2) (energy_nonneg _)
  refine ⟨d, f, by rw [h1]; exact e1, hpos, e2, e3, e5, hle, ?_, ?_⟩
  · intro hs
    apply e6
    intro w hw
    obtain ⟨r, hr, c, hc, hw⟩ := mem_entries.1 hw
    have := (energy_eq_zero _).1 (hs r hr) w (mem_row.2 ⟨c, hc, hw⟩)
    rw [this, zero_mul]
  · intro hyp _
    -- the channel that determines the factor is not silent, or has factor one together with another
    have key : ∃ r < v.rows, energy (row v data r) ≠ 0 ∧ energy (row v data r) * f ^ 2 = 1 := by
      obtain ⟨a', ha', -, k0, k1⟩ := energyFactor_spec (energy_nonneg (row v data r0))
      rw [h3] at ha'
      obtain rfl : f = a' := by injection ha'
      by_cases hz : energy (row v data r0) = 0
      · have hf1 := k0 hz
        rcases hyp with hall | ⟨r, hr, hge⟩
        · exact absurd hz (hall r0 hr0)
        · have := hle r hr
          rw [hE r hr, hf1] at this
          refine ⟨r, hr, by intro h; rw [h] at hge; linarith, ?_⟩
          rw [hf1]; linarith
      · exact ⟨r0, hr0, hz, k1 hz⟩
    obtain ⟨r, hr, -, hr1⟩ := key
    refine ⟨r, hr, by rw [hE r hr, hr1], ?_⟩
    intro r' hr'
    have := hle r' hr'
    rw [hE r' hr', ← hr1] at this
    exact le_of_mul_le_mul_right this (by positivity)

example : ∃ d, normalizeImpulseMat false (MatView.right 2 1) [2, 4] = .ok d ∧
    energy (row (MatView.right 2 1) d 1) = 1 := by
  obtain ⟨d, a, h, -, -, h1, -, h2, -, h3⟩ :=
    C48_normalize_impulse_partial false (MatView.right 2 1) [2, 4] (MatView.right_valid 2 1)
  obtain ⟨r, hr, he, hm⟩ := h3 (Or.inr ⟨0, by decide, by
    rw [show row (MatView.right 2 1) [2, 4] 0 = ([2] : List ℝ) from rfl]; norm_num [energy]⟩)
    (by decide)
  refine ⟨d, h, ?_⟩
  have hr2 : r < 2 := hr
  interval_cases r
  · have := hm 1 (by decide)
    rw [show row (MatView.right 2 1) [2, 4] 0 = ([2] : List ℝ) from rfl,
      show row (MatView.right 2 1) [2, 4] 1 = ([4] : List ℝ) from rfl] at this
    norm_num [energy] at this
  · exact he

/-- **C48** (one channel): the vector form ends with energy exactly `1` unless the impulse is silent, in which case it
is unchanged. -/
theorem C48_vec (x : List ℝ) :
    ∃ y a, normalizeImpulseVec x = .ok y ∧ 0 < a ∧ y = x.map (· * a) ∧
      ((∀ v ∈ x, v = 0) → y = x) ∧ ((∃ v ∈ x, v ≠ 0) → energy y = 1) := by
  obtain ⟨y, a, h1, h2, h3, h4, h5, -⟩ := C49_energy_vec x
  exact ⟨y, a, h1, h2, h3, h4, h5⟩

/-- **C48 fails**: if one channel is silent and every channel has energy below `1`, the factor of
the silent channel (which is `1`) wins, and nothing is changed at all: the loudest channel keeps an
energy below `1`. -/
theorem C48_silent_channel_false (colMajor : Bool) (v : MatView) (data : List ℝ)
    (hv : v.Valid data.length) (hs : ∃ r < v.rows, energy (row v data r) = 0)
    (hq : ∀ r < v.rows, energy (row v data r) < 1) :
    normalizeImpulseMat colMajor v data = .ok data := by
  obtain ⟨rs, hrs, hz⟩ := hs
  unfold normalizeImpulseMat
  rw [if_neg (by omega)]
  obtain ⟨f, h1, hpos, h2, r0, hr0, h3⟩ := impulseFactor_spec v data hv.1 (by omega)
  have hf : f = 1 := by
    obtain ⟨a, ha, hfa⟩ := h2 rs hrs
    obtain ⟨a', ha', -, k0, -⟩ := energyFactor_spec (energy_nonneg (row v data rs))
    rw [ha] at ha'
    obtain rfl : a = a' := by injection ha'
    rw [k0 hz] at hfa
    obtain ⟨a', ha', -, k0, k1⟩ := energyFactor_spec (energy_nonneg (row v data r0))
    rw [h3] at ha'
    obtain rfl : f = a' := by injection ha'
    by_cases h : energy (row v data r0) = 0
    · exact k0 h
    · have e1 := k1 h
      have e2 := hq r0 hr0
      have e3 : f ^ 2 ≤ 1 := pow_le_one₀ hpos.le hfa
      have e4 := energy_nonneg (row v data r0)
      nlinarith
  obtain ⟨d, e1, -, -, -, -, e6⟩ := scaleMat_spec colMajor f v data hv
  rw [h1, bind_ok, e1, e6 (by rw [hf]; simp)]

example : normalizeImpulseMat false (MatView.right 2 1) [0, 1 / 2] = .ok [0, 1 / 2] :=
  C48_silent_channel_false false (MatView.right 2 1) [0, 1 / 2] (MatView.right_valid 2 1)
    ⟨0, by decide, by
      rw [show row (MatView.right 2 1) [0, 1 / 2] 0 = ([0] : List ℝ) from rfl]; norm_num [energy]⟩
    (by
      intro r hr
      have hr2 : r < 2 := hr
      interval_cases r
      · rw [show row (MatView.right 2 1) [0, 1 / 2] 0 = ([0] : List ℝ) from rfl]; norm_num [energy]
      · rw [show row (MatView.right 2 1) [0, 1 / 2] 1 = ([1 / 2] : List ℝ) from rfl]
        norm_num [energy])

/-! ## C54: `allmatch` and `allclose` -/

/-- **C54** (vectors): for vectors of equal length `allmatch` is true exactly if the predicate holds
for every pair of corresponding elements; different lengths are an assertion failure. -/
theorem C54_allmatch_vec {α β : Type} (p : α → β → Bool) (x : List α) (y : List β)
    (hl : x.length < 2 ^ 31) :
    (x.length = y.length → ∃ b, allmatchVec p x y = .ok b ∧
      (b = true ↔ ∀ (i : ℕ) (u : α) (w : β), x[i]? = some u → y[i]? = some w → p u w = true)) ∧
    (x.length ≠ y.length → allmatchVec p x y = .error .assertion) := by
  constructor
  · intro h
    unfold allmatchVec
    rw [check_decide_ok h, bind_ok, forIntWhile_eq hl
      (fun i => if hi : i < x.length then p x[i] (y[i]'(h ▸ hi)) else true) _ (by
        intro i hi
        rw [rd_ok hi, bind_ok, rd_ok (h ▸ hi), bind_ok, pure_eq_ok, dif_pos hi])]
    refine ⟨_, rfl, ?_⟩
    rw [decide_eq_true_iff]
    constructor
    · intro hp i u w hu hw
      obtain ⟨hi, rfl⟩ := List.getElem?_eq_some_iff.1 hu
      obtain ⟨hi', rfl⟩ := List.getElem?_eq_some_iff.1 hw
      have := hp i hi
      rwa [dif_pos hi] at this
    · intro hp i hi
      rw [dif_pos hi]
      exact hp i _ _ (List.getElem?_eq_getElem hi) (List.getElem?_eq_getElem (h ▸ hi))
  · intro h
    exact bind_check_false h _

/-- **C54** (matrices): the same for every pair of in-bounds views of equal extents. -/
theorem C54_allmatch_mat {α β : Type} (p : α → β → Bool) (vx vy : MatView) (x : List α) (y : List β)
    (hr : vx.rows < 2 ^ 31) (hc : vx.cols < 2 ^ 31)
    (hx : ∀ r < vx.rows, ∀ c < vx.cols, vx.idx r c < x.length)
    (hy : ∀ r < vy.rows, ∀ c < vy.cols, vy.idx r c < y.length) :
    (vx.rows = vy.rows ∧ vx.cols = vy.cols → ∃ b, allmatchMat p vx x vy y = .ok b ∧
      (b = true ↔ ∀ r < vx.rows, ∀ c < vx.cols, ∀ (u : α) (w : β),
        x[vx.idx r c]? = some u → y[vy.idx r c]? = some w → p u w = true)) ∧
    (¬ (vx.rows = vy.rows ∧ vx.cols = vy.cols) → allmatchMat p vx x vy y = .error .assertion) := by
  classical
  constructor
  · rintro ⟨er, ec⟩
    unfold allmatchMat
    rw [check_decide_ok ⟨er, ec⟩, bind_ok]
    have hq : ∀ r, r < vx.rows → ∀ c, c < vx.cols → (do
        let a ← rd x (vx.idx r c)
        let b ← rd y (vy.idx r c)
        pure (p a b) : Res Bool) = .ok (decide (∀ (u : α) (w : β),
          x[vx.idx r c]? = some u → y[vy.idx r c]? = some w → p u w = true)) := by
      intro r hrr c hcc
      have h1 := hx r hrr c hcc
      have h2 := hy r (er ▸ hrr) c (ec ▸ hcc)
      rw [rd_ok h1, bind_ok, rd_ok h2, bind_ok, pure_eq_ok, List.getElem?_eq_getElem h1,
        List.getElem?_eq_getElem h2]
      congr 1
      rw [Bool.eq_iff_iff, decide_eq_true_iff]
      constructor
      · intro hp u w hu hw
        injection hu with hu; injection hw with hw
        rw [← hu, ← hw]; exact hp
      · intro hp; exact hp _ _ rfl rfl
    rw [forIntWhile_eq hr (fun r => decide (∀ c < vx.cols, decide (∀ (u : α) (w : β),
          x[vx.idx r c]? = some u → y[vy.idx r c]? = some w → p u w = true) = true)) _ (by
      intro r hrr
      rw [forIntWhile_eq hc _ _ (hq r hrr)])]
    refine ⟨_, rfl, ?_⟩
    simp only [decide_eq_true_iff]
  · intro h
    exact bind_check_false h _

/-- **C54**: the single-object form tests every element. -/
theorem C54_allmatch_unary {α : Type} (p : α → Bool) (x : List α) (hl : x.length < 2 ^ 31) :
    ∃ b, allmatchVec1 p x = .ok b ∧ (b = true ↔ ∀ u ∈ x, p u = true) := by
  obtain ⟨b, h1, h2⟩ := (C54_allmatch_vec (fun a _ => p a) x x hl).1 rfl
  refine ⟨b, h1, ?_⟩
  rw [h2]
  constructor
  · intro h u hu
    obtain ⟨i, hi⟩ := List.mem_iff_getElem?.1 hu
    exact h i u u hi hi
  · intro h i u w hu _
    exact h u (List.mem_of_getElem? hu)

/-- **C54**: the single-object form on matrices tests every element of the view. -/
theorem C54_allmatch_unary_mat {α : Type} (p : α → Bool) (v : MatView) (x : List α) (hr : v.rows < 2 ^ 31)
    (hc : v.cols < 2 ^ 31) (hx : ∀ r < v.rows, ∀ c < v.cols, v.idx r c < x.length) :
    ∃ b, allmatchMat1 p v x = .ok b ∧
      (b = true ↔ ∀ r < v.rows, ∀ c < v.cols, ∀ u, x[v.idx r c]? = some u → p u = true) := by
  obtain ⟨b, h1, h2⟩ := (C54_allmatch_mat (fun a _ => p a) v v x x hr hc hx hx).1 ⟨rfl, rfl⟩
  refine ⟨b, h1, ?_⟩
  rw [h2]
  exact ⟨fun h r hr c hc u hu => h r hr c hc u u hu hu, fun h r hr c hc u w hu _ => h r hr c hc u hu⟩

example : ∃ b, allmatchVec (fun a b : ℕ => decide (a < b)) [1, 2] [2, 2] = .ok b ∧ b = false := by
  obtain ⟨b, h, hb⟩ := (C54_allmatch_vec (fun a b : ℕ => decide (a < b)) [1, 2] [2, 2]
    (by decide)).1 rfl
  refine ⟨b, h, ?_⟩
  rw [← Bool.not_eq_true, hb]
  intro hh
  exact absurd (hh 1 2 2 rfl rfl) (by decide)

/-- **C54**: `allclose` is true exactly if every difference is within the tolerance; it is reflexive
for non-negative tolerances and symmetric for every tolerance, for real and complex elements. -/
theorem C54_allclose_vec {α : Type} [NormedAddCommGroup α] (x y : List α) (tol : ℝ)
    (hl : x.length < 2 ^ 31) :
    (x.length = y.length → ∃ b, allcloseVec x y tol = .ok b ∧
      (b = true ↔ ∀ (i : ℕ) (u w : α), x[i]? = some u → y[i]? = some w → ‖u - w‖ ≤ tol)) ∧
    (0 ≤ tol → allcloseVec x x tol = .ok true) ∧
    allcloseVec x y tol = allcloseVec y x tol := by
  have hch : ∀ z w : List α, z.length < 2 ^ 31 → z.length = w.length →
      ∃ b, allcloseVec z w tol = .ok b ∧
      (b = true ↔ ∀ (i : ℕ) (u v : α), z[i]? = some u → w[i]? = some v → ‖u - v‖ ≤ tol) := by
    intro z w hz h
    obtain ⟨b, h1, h2⟩ := (C54_allmatch_vec (closePred tol) z w hz).1 h
    refine ⟨b, h1, ?_⟩
    rw [h2]
    simp only [closePred, decide_eq_true_iff]
  refine ⟨hch x y hl, ?_, ?_⟩
  · intro ht
    obtain ⟨b, h1, h2⟩ := hch x x hl rfl
    rw [h1, h2.2]
    intro i u w hu hw
    rw [hu] at hw
    injection hw with hw
    rw [hw, sub_self, norm_zero]; exact ht
  · by_cases h : x.length = y.length
    · obtain ⟨b, h1, h2⟩ := hch x y hl h
      obtain ⟨b', h1', h2'⟩ := hch y x (h ▸ hl) h.symm
      rw [h1, h1']
      congr 1
      rw [Bool.eq_iff_iff, h2, h2']
      constructor
      · intro hh i u w hu hw; rw [norm_sub_rev]; exact hh i w u hw hu
      · intro hh i u w hu hw; rw [norm_sub_rev]; exact hh i w u hw hu
    · have e1 : allcloseVec x y tol = .error .assertion := bind_check_false h _
      have e2 : allcloseVec y x tol = .error .assertion := bind_check_false (Ne.symm h) _
      rw [e1, e2]

/-- **C54** (matrices): `allclose` on rank-2 views. -/
theorem C54_allclose_mat {α : Type} [NormedAddCommGroup α] (vx vy : MatView) (x y : List α) (tol : ℝ)
    (hr : vx.rows < 2 ^ 31) (hc : vx.cols < 2 ^ 31)
    (er : vx.rows = vy.rows) (ec : vx.cols = vy.cols)
    (hx : ∀ r < vx.rows, ∀ c < vx.cols, vx.idx r c < x.length)
    (hy : ∀ r < vy.rows, ∀ c < vy.cols, vy.idx r c < y.length) :
    (∃ b, allcloseMat vx x vy y tol = .ok b ∧
      (b = true ↔ ∀ r < vx.rows, ∀ c < vx.cols, ∀ u w : α,
        x[vx.idx r c]? = some u → y[vy.idx r c]? = some w → ‖u - w‖ ≤ tol)) ∧
    (0 ≤ tol → allcloseMat vx x vx x tol = .ok true) ∧
    allcloseMat vx x vy y tol = allcloseMat vy y vx x tol := by
  have hpred : ∀ u w : α, closePred tol u w = true ↔ ‖u - w‖ ≤ tol := by
    intro u w; simp only [closePred, decide_eq_true_iff]
  obtain ⟨b, h1, h2⟩ := (C54_allmatch_mat (closePred tol) vx vy x y hr hc hx hy).1 ⟨er, ec⟩
  obtain ⟨b', h1', h2'⟩ := (C54_allmatch_mat (closePred tol) vy vx y x (er ▸ hr) (ec ▸ hc) hy hx).1
    ⟨er.symm, ec.symm⟩
  obtain ⟨b'', h1'', h2''⟩ := (C54_allmatch_mat (closePred tol) vx vx x x hr hc hx hx).1 ⟨rfl, rfl⟩
  simp only [hpred] at h2 h2' h2''
  refine ⟨⟨b, h1, h2⟩, ?_, ?_⟩
  · intro ht
    unfold allcloseMat
    rw [h1'', h2''.2]
    intro r _ c _ u w hu hw
    rw [hu] at hw
    injection hw with hw
    rw [hw, sub_self, norm_zero]; exact ht
  · unfold allcloseMat
    rw [h1, h1']
    congr 1
    rw [Bool.eq_iff_iff, h2, h2', er, ec]
    constructor
    · intro hh r hr c hc u w hu hw; rw [norm_sub_rev]; exact hh r hr c hc w u hw hu
    · intro hh r hr c hc u w hu hw; rw [norm_sub_rev]; exact hh r hr c hc w u hw hu

/-- **C54**: the two-argument form uses the tolerance `10⁻⁵` for `float` and `10⁻⁹` for any other type; both are
positive, so it is reflexive. -/
theorem C54_allclose_default {α : Type} [NormedAddCommGroup α] (single : Bool) (x y : List α)
    (hl : x.length < 2 ^ 31) :
    allcloseDefaultVec single x x = .ok true ∧
    (x.length = y.length → ∃ b, allcloseDefaultVec single x y = .ok b ∧
      (b = true ↔ ∀ (i : ℕ) (u w : α), x[i]? = some u → y[i]? = some w →
        ‖u - w‖ ≤ (10 : ℝ)⁻¹ ^ (if single then 5 else 9))) := by
  have e : (if single then 1e-5 else 1e-9 : ℝ) = (10 : ℝ)⁻¹ ^ (if single then 5 else 9) := by
    cases single <;> norm_num
  unfold allcloseDefaultVec
  rw [e]
  exact ⟨(C54_allclose_vec x x _ hl).2.1 (by positivity), (C54_allclose_vec x y _ hl).1⟩

example : allcloseVec [1, 2] [1, (5 / 2 : ℝ)] (1 / 4) = .ok false := by
  obtain ⟨b, h, hb⟩ := (C54_allclose_vec [1, 2] [1, (5 / 2 : ℝ)] (1 / 4) (by decide)).1 rfl
  rw [h]
  congr 1
  rw [← Bool.not_eq_true, hb]
  intro hh
  have := hh 1 2 (5 / 2) rfl rfl
  norm_num [abs_of_neg] at this

end Neo.Props
