import Verif.Lemmas.StatsRounding
import Verif.Spec.Gamma
import Verif.Props.Rounding
import Verif.Props.Algo

/-! # C91: rounding errors of the statistics and normalisation functions -/

namespace Neo.Props

open Neo Spec

variable {F : Rounding}

/-! ## Helpers -/

private theorem one_sub_pos (F : Rounding) : 0 < 1 - F.u := by linarith [F.u_lt_one]
private theorem one_add_pos (F : Rounding) : 0 < 1 + F.u := by linarith [F.u_nonneg]

private theorem abs_sum_le (l : List (FR F)) : |(l.map FR.val).sum| ≤ (l.map (fun v => |v.val|)).sum := by
  induction l with
  | nil => simp
  | cons y ys ih => simp only [List.map_cons, List.sum_cons]; exact (abs_add_le _ _).trans (by linarith)

private theorem foldl_sum_nonneg {α : Type} (l : List α) (g : α → FR F) (h : ∀ v, 0 ≤ (g v).val) :
    0 ≤ (l.foldl (fun s v => s + g v) 0).val := by
  have h2 := (foldF_within l g (fun v => (g v).val) (lo := 1) (hi := 1) (by norm_num) h (by simp)).1
  have h1 : 0 < 1 - F.u := one_sub_pos F
  have h3 : 0 ≤ (l.map (fun v => (g v).val)).sum := by
    apply List.sum_nonneg; intro a ha; obtain ⟨v, -, rfl⟩ := List.mem_map.1 ha; exact h v
  exact le_trans (by positivity) h2

/-- The mean computed from a list. -/
private theorem mean_core (l : List (FR F)) (hl : 1 ≤ l.length) :
    ∃ m, (l.foldl (fun s v => s + id v) 0).div (FR.ofNat F l.length) = .ok m ∧
      |m.val - Spec.mean (l.map FR.val)|
        ≤ ((1 + F.u) ^ (l.length + 1) / (1 - F.u) - 1) * Spec.mean (l.map (fun v => |v.val|)) := by
  have h := foldF_err l (fun v : FR F => id v)
  simp only [id] at h
  have hG : (1 : ℝ) ≤ (1 + F.u) ^ l.length := one_le_pow₀ (by linarith [F.u_nonneg])
  obtain ⟨m, e, k⟩ := divN_err hl (abs_sum_le l) hG h
  refine ⟨m, e, ?_⟩
  unfold Spec.mean
  rw [List.length_map, List.length_map]
  refine k.trans_eq ?_
  congr 2
  rw [pow_succ]; ring

/-- The mean squared difference computed from a list of pairs. -/
private theorem msd_core {α : Type} (l : List α) (f g : α → FR F) (hl : 1 ≤ l.length) :
    ∃ r, (l.foldl (fun s v => s + (f v - g v) * (f v - g v)) 0).div (FR.ofNat F l.length) = .ok r ∧
      (1 - F.u) ^ (l.length + 4) / (1 + F.u) * Spec.mean (l.map (fun v => ((f v).val - (g v).val) ^ 2)) ≤ r.val ∧
      r.val ≤ (1 + F.u) ^ (l.length + 4) / (1 - F.u) * Spec.mean (l.map (fun v => ((f v).val - (g v).val) ^ 2)) := by
  have h1 := one_sub_pos F
  have h2 := one_add_pos F
  have hw := foldF_within l (fun v => (f v - g v) * (f v - g v)) (fun v => ((f v).val - (g v).val) ^ 2)
    (lo := (1 - F.u) ^ 3) (hi := (1 + F.u) ^ 3) (by positivity) (fun v => by positivity)
    (fun v => sqDiff_within (f v) (g v))
  have hs : 0 ≤ (l.map (fun v => ((f v).val - (g v).val) ^ 2)).sum := sq_sum_nonneg l _
  obtain ⟨r, e, k1, k2⟩ := divN_within hl (le_trans (by positivity) hw.1) (by positivity) hs hw
  refine ⟨r, e, ?_⟩
  unfold Spec.mean
  rw [List.length_map]
  constructor
  · refine le_of_eq_of_le ?_ k1
    congr 2; ring
  · refine k2.trans_eq ?_
    congr 2; ring

private theorem var_core (l : List (FR F)) (hl : 1 ≤ l.length) (m : FR F) :
    ∃ v, (l.foldl (fun s v => s + (v - m) * (v - m)) 0).div (FR.ofNat F l.length) = .ok v ∧
      (1 - F.u) ^ (l.length + 4) / (1 + F.u)
        * (Spec.variance (l.map FR.val) + (m.val - Spec.mean (l.map FR.val)) ^ 2) ≤ v.val ∧
      v.val ≤ (1 + F.u) ^ (l.length + 4) / (1 - F.u)
        * (Spec.variance (l.map FR.val) + (m.val - Spec.mean (l.map FR.val)) ^ 2) := by
  obtain ⟨v, e, k⟩ := msd_core l (fun v => v) (fun _ => m) hl
  refine ⟨v, e, ?_⟩
  rw [← dev_mean (by rw [← List.length_pos_iff, List.length_map]; omega), List.map_map]
  exact k

private theorem sumVecF_eq (f : FR F → FR F) (x : List (FR F)) (h : x.length < 2 ^ 31) :
    sumVecF f x = .ok (x.foldl (fun s v => s + f v) 0) := by
  unfold sumVecF
  rw [forInt_eq h, forN_fold_vec x (fun s v => s + f v) 0 _ le_rfl, List.take_length]

private theorem sumMatF_eq (f : FR F → FR F) (v : MatView) (data : List (FR F))
    (h : ∀ r < v.rows, ∀ c < v.cols, v.idx r c < data.length) (hr : v.rows < 2 ^ 31) (hc : v.cols < 2 ^ 31) :
    sumMatF f v data = .ok ((entries v data).foldl (fun s v => s + f v) 0) := by
  unfold sumMatF
  rw [forInt_eq hr]
  simp only [forInt_eq hc]
  rw [forN_fold_mat v data (fun s v => s + f v) 0 h]

/-! ## Statistics -/

/-- **C91** (vectors): the computed mean differs from the exact one by at most `(1+u)^(n+1)/(1-u) - 1` times the mean
magnitude. -/
theorem C91_mean_vec (F : Rounding) (x : List (FR F)) (h : x.length < 2 ^ 31) :
    (x.length = 0 → meanVecF x = .ok none) ∧
    (1 ≤ x.length → ∃ m, meanVecF x = .ok (some m) ∧ |m.val - Spec.mean (x.map FR.val)|
      ≤ ((1 + F.u) ^ (x.length + 1) / (1 - F.u) - 1) * Spec.mean (x.map (fun v => |v.val|))) := by
  unfold meanVecF
  refine ⟨fun h0 => by rw [if_pos (by omega)], fun h1 => ?_⟩
  obtain ⟨m, e, k⟩ := mean_core x h1
  refine ⟨m, ?_, k⟩
  rw [if_neg (by omega)]
  unfold meanUncheckedVecF
  rw [sumVecF_eq _ _ h, bind_ok, e]; rfl

/-- **C91** (matrices): the mean of the elements of an in-bounds rank-2 view. -/
theorem C91_mean_mat (F : Rounding) (v : MatView) (data : List (FR F))
    (hv : ∀ r < v.rows, ∀ c < v.cols, v.idx r c < data.length) (hr : v.rows < 2 ^ 31) (hc : v.cols < 2 ^ 31) :
    (v.rows * v.cols = 0 → meanMatF v data = .ok none) ∧
    (1 ≤ v.rows * v.cols → ∃ m, meanMatF v data = .ok (some m) ∧ |m.val - Spec.mean ((entries v data).map FR.val)|
      ≤ ((1 + F.u) ^ (v.rows * v.cols + 1) / (1 - F.u) - 1) * Spec.mean ((entries v data).map (fun v => |v.val|))) := by
  unfold meanMatF
  refine ⟨fun h0 => by rw [if_pos (by omega)], fun h1 => ?_⟩
  have hl := entries_length hv
  obtain ⟨m, e, k⟩ := mean_core (entries v data) (by omega)
  rw [hl] at e k
  refine ⟨m, ?_, k⟩
  rw [if_neg (by omega)]
  unfold meanUncheckedMatF
  rw [sumMatF_eq _ _ _ hv hr hc, bind_ok, e]; rfl

/-- **C91** (vectors): the computed variance is, up to a relative error, the exact variance plus the square of the error
of the computed mean; the standard deviation is its rounded root. -/
theorem C91_variance_vec (F : Rounding) (x : List (FR F)) (h : x.length < 2 ^ 31) :
    (x.length < 2 → varianceVecF x = .ok none ∧ standardDeviationVecF x = .ok none) ∧
    (2 ≤ x.length → ∃ m v s, meanVecF x = .ok (some m) ∧ varianceVecF x = .ok (some v) ∧
      standardDeviationVecF x = .ok (some s) ∧
      let D := Spec.variance (x.map FR.val) + (m.val - Spec.mean (x.map FR.val)) ^ 2
      let lo := (1 - F.u) ^ (x.length + 4) / (1 + F.u)
      let hi := (1 + F.u) ^ (x.length + 4) / (1 - F.u)
      (lo * D ≤ v.val ∧ v.val ≤ hi * D) ∧
      (1 - F.u) * Real.sqrt lo * Real.sqrt D ≤ s.val ∧ s.val ≤ (1 + F.u) * Real.sqrt hi * Real.sqrt D) := by
  have p1 := one_sub_pos F
  have p2 := one_add_pos F
  constructor
  · intro h2
    have : varianceVecF x = .ok none := by unfold varianceVecF; rw [if_pos h2]
    refine ⟨this, ?_⟩
    unfold standardDeviationVecF
    rw [this]; rfl
  · intro h2
    obtain ⟨m, e, -⟩ := mean_core x (by omega)
    obtain ⟨v, e', k⟩ := var_core x (by omega) m
    have hm : meanUncheckedVecF x = .ok m := by
      unfold meanUncheckedVecF
      rw [sumVecF_eq _ _ h, bind_ok, e]
    have hv : varianceVecF x = .ok (some v) := by
      unfold varianceVecF
      rw [if_neg (by omega), hm, bind_ok, sumVecF_eq _ _ h, bind_ok, e']; rfl
    refine ⟨m, v, v.sqrt, ?_, hv, ?_, k, sqrt_within (by positivity) (by positivity) k⟩
    · unfold meanVecF
      rw [if_neg (by omega), hm]; rfl
    · unfold standardDeviationVecF
      rw [hv]; rfl

/-- **C91** (matrices): variance and standard deviation of the elements of an in-bounds rank-2 view. -/
theorem C91_variance_mat (F : Rounding) (w : MatView) (data : List (FR F))
    (hw : ∀ r < w.rows, ∀ c < w.cols, w.idx r c < data.length) (hr : w.rows < 2 ^ 31) (hc : w.cols < 2 ^ 31) :
    (w.rows * w.cols < 2 → varianceMatF w data = .ok none ∧ standardDeviationMatF w data = .ok none) ∧
    (2 ≤ w.rows * w.cols → ∃ m v s, meanMatF w data = .ok (some m) ∧ varianceMatF w data = .ok (some v) ∧
      standardDeviationMatF w data = .ok (some s) ∧
      let D := Spec.variance ((entries w data).map FR.val) + (m.val - Spec.mean ((entries w data).map FR.val)) ^ 2
      let lo := (1 - F.u) ^ (w.rows * w.cols + 4) / (1 + F.u)
      let hi := (1 + F.u) ^ (w.rows * w.cols + 4) / (1 - F.u)
      (lo * D ≤ v.val ∧ v.val ≤ hi * D) ∧
      (1 - F.u) * Real.sqrt lo * Real.sqrt D ≤ s.val ∧ s.val ≤ (1 + F.u) * Real.sqrt hi * Real.sqrt D) := by
  have p1 := one_sub_pos F
  have p2 := one_add_pos F
  constructor
  · intro h2
    have : varianceMatF w data = .ok none := by unfold varianceMatF; rw [if_pos h2]
    refine ⟨this, ?_⟩
    unfold standardDeviationMatF
    rw [this]; rfl
  · intro h2
    have hl := entries_length hw
    obtain ⟨m, e, -⟩ := mean_core (entries w data) (by omega)
    obtain ⟨v, e', k⟩ := var_core (entries w data) (by omega) m
    rw [hl] at e e' k
    have hm : meanUncheckedMatF w data = .ok m := by
      unfold meanUncheckedMatF
      rw [sumMatF_eq _ _ _ hw hr hc, bind_ok, e]
    have hv : varianceMatF w data = .ok (some v) := by
      unfold varianceMatF
      rw [if_neg (by omega), hm, bind_ok, sumMatF_eq _ _ _ hw hr hc, bind_ok, e']; rfl
    refine ⟨m, v, v.sqrt, ?_, hv, ?_, k, sqrt_within (by positivity) (by positivity) k⟩
    · unfold meanMatF
      rw [if_neg (by omega), hm]; rfl
    · unfold standardDeviationMatF
      rw [hv]; rfl

private theorem zipWith_eq_map_zip {α : Type} (mag : α → FR F) (x y : List α) :
    List.zipWith (fun a b => ((mag a).val - (mag b).val) ^ 2) x y
      = (x.zip y).map (fun p => ((mag p.1).val - (mag p.2).val) ^ 2) := by
  rw [List.zip, List.map_zipWith]

/-- **C91** (vectors): the mean squared error and its root have small *relative* errors, whatever the inputs (of equal
non-zero length); `mag` is the identity for real inputs, and the computed magnitude for complex ones. -/
theorem C91_mse_vec {α : Type} (F : Rounding) (mag : α → FR F) (x y : List α) (h : x.length = y.length)
    (h1 : 1 ≤ x.length) :
    ∃ r s, mseVecF mag x y = .ok r ∧ rmseVecF mag x y = .ok s ∧
      let E := Spec.mean (List.zipWith (fun a b => ((mag a).val - (mag b).val) ^ 2) x y)
      let lo := (1 - F.u) ^ (x.length + 4) / (1 + F.u)
      let hi := (1 + F.u) ^ (x.length + 4) / (1 - F.u)
      (lo * E ≤ r.val ∧ r.val ≤ hi * E) ∧
      (1 - F.u) * Real.sqrt lo * Real.sqrt E ≤ s.val ∧ s.val ≤ (1 + F.u) * Real.sqrt hi * Real.sqrt E := by
  have p1 := one_sub_pos F
  have p2 := one_add_pos F
  have hl : (x.zip y).length = x.length := by rw [List.length_zip]; omega
  obtain ⟨r, e, k⟩ := msd_core (x.zip y) (fun p => mag p.1) (fun p => mag p.2) (by omega)
  rw [hl] at e k
  have hr : mseVecF mag x y = .ok r := by
    unfold mseVecF
    rw [check_decide_ok h, bind_ok,
      forN_fold_zip x y (fun s a b => s + (mag a - mag b) * (mag a - mag b)) 0 h _ le_rfl, bind_ok,
      List.take_of_length_le (by omega), e]
  refine ⟨r, r.sqrt, hr, by unfold rmseVecF; rw [hr]; rfl, ?_⟩
  rw [zipWith_eq_map_zip]
  exact ⟨k, sqrt_within (by positivity) (by positivity) k⟩

/-- **C91** (matrices): the same for two in-bounds rank-2 views of equal non-empty extents. -/
theorem C91_mse_mat {α : Type} (F : Rounding) (mag : α → FR F) (vx vy : MatView) (x y : List α)
    (hr : vx.rows = vy.rows) (hc : vx.cols = vy.cols)
    (hx : ∀ r < vx.rows, ∀ c < vx.cols, vx.idx r c < x.length)
    (hy : ∀ r < vy.rows, ∀ c < vy.cols, vy.idx r c < y.length) (h1 : 1 ≤ vx.rows * vx.cols) :
    ∃ r s, mseMatF mag vx x vy y = .ok r ∧ rmseMatF mag vx x vy y = .ok s ∧
      let E := Spec.mean (List.zipWith (fun a b => ((mag a).val - (mag b).val) ^ 2) (entries vx x) (entries vy y))
      let lo := (1 - F.u) ^ (vx.rows * vx.cols + 4) / (1 + F.u)
      let hi := (1 + F.u) ^ (vx.rows * vx.cols + 4) / (1 - F.u)
      (lo * E ≤ r.val ∧ r.val ≤ hi * E) ∧
      (1 - F.u) * Real.sqrt lo * Real.sqrt E ≤ s.val ∧ s.val ≤ (1 + F.u) * Real.sqrt hi * Real.sqrt E := by
  have p1 := one_sub_pos F
  have p2 := one_add_pos F
  have hlx := entries_length hx
  have hly := entries_length hy
  have hl : ((entries vx x).zip (entries vy y)).length = vx.rows * vx.cols := by
    rw [List.length_zip, hlx, hly, ← hr, ← hc, Nat.min_self]
  obtain ⟨r, e, k⟩ := msd_core ((entries vx x).zip (entries vy y)) (fun p => mag p.1) (fun p => mag p.2) (by omega)
  rw [hl] at e k
  have hr' : mseMatF mag vx x vy y = .ok r := by
    unfold mseMatF
    rw [check_decide_ok ⟨hr, hc⟩, bind_ok,
      forN_fold_zip_mat vx vy x y (fun s a b => s + (mag a - mag b) * (mag a - mag b)) 0 hr hc hx hy, bind_ok, e]
  refine ⟨r, r.sqrt, hr', by unfold rmseMatF; rw [hr']; rfl, ?_⟩
  rw [zipWith_eq_map_zip]
  exact ⟨k, sqrt_within (by positivity) (by positivity) k⟩

/-! ## Explicit constants -/

private theorem hi_le {u : ℝ} (hu : 0 ≤ u) (hu1 : u < 1) {j k : ℕ} (hk : (((j + k : ℕ)) : ℝ) * u < 1) :
    (1 + u) ^ j / (1 - u) ^ k ≤ 1 + gamma u (j + k) := by
  have p : 0 < 1 - u := by linarith
  have h1 : 1 - ((j + k : ℕ) : ℝ) * u ≤ (1 - u) ^ (j + k) := by
    have := one_add_mul_le_pow (a := -u) (by linarith) (j + k)
    rw [show 1 + -u = 1 - u by ring] at this
    linarith
  have h2 : 1 + gamma u (j + k) = 1 / (1 - ((j + k : ℕ) : ℝ) * u) := by
    unfold gamma
    have : 1 - ((j + k : ℕ) : ℝ) * u ≠ 0 := by linarith
    field_simp; ring
  rw [h2, div_le_div_iff₀ (by positivity) (by linarith), one_mul]
  calc (1 + u) ^ j * (1 - ((j + k : ℕ) : ℝ) * u) ≤ (1 + u) ^ j * (1 - u) ^ (j + k) :=
        mul_le_mul_of_nonneg_left h1 (by positivity)
    _ = ((1 + u) * (1 - u)) ^ j * (1 - u) ^ k := by rw [pow_add, mul_pow]; ring
    _ ≤ 1 * (1 - u) ^ k := by
        apply mul_le_mul_of_nonneg_right _ (by positivity)
        exact pow_le_one₀ (by positivity) (by nlinarith)
    _ = _ := one_mul _

private theorem le_lo {u : ℝ} (hu : 0 ≤ u) (hu1 : u < 1) {j k : ℕ} (hk : (((j + k : ℕ)) : ℝ) * u < 1) :
    1 - gamma u (j + k) ≤ (1 - u) ^ j / (1 + u) ^ k := by
  have p : 0 < 1 - u := by linarith
  have h1 : 1 - ((j + k : ℕ) : ℝ) * u ≤ (1 - u) ^ (j + k) := by
    have := one_add_mul_le_pow (a := -u) (by linarith) (j + k)
    rw [show 1 + -u = 1 - u by ring] at this
    linarith
  have h2 : ((j + k : ℕ) : ℝ) * u ≤ gamma u (j + k) := by
    unfold gamma
    rw [le_div_iff₀ (by linarith)]
    have : 0 ≤ ((j + k : ℕ) : ℝ) * u := by positivity
    nlinarith
  rw [le_div_iff₀ (by positivity)]
  have h3 : 1 - gamma u (j + k) ≤ (1 - u) ^ (j + k) := by linarith
  calc _ ≤ (1 - u) ^ (j + k) * (1 + u) ^ k := mul_le_mul_of_nonneg_right h3 (by positivity)
    _ = (1 - u) ^ j * ((1 - u) * (1 + u)) ^ k := by rw [pow_add, mul_pow]; ring
    _ ≤ (1 - u) ^ j * 1 := by
        apply mul_le_mul_of_nonneg_left _ (by positivity)
        exact pow_le_one₀ (by positivity) (by nlinarith)
    _ = _ := mul_one _

private theorem gamma_nonneg {u : ℝ} (hu : 0 ≤ u) {k : ℕ} (hk : (k : ℝ) * u < 1) : 0 ≤ gamma u k :=
  div_nonneg (by positivity) (by linarith)

/-- A relative error expressed with `gamma`. -/
private theorem rel_gamma {u : ℝ} (hu : 0 ≤ u) (hu1 : u < 1) {n : ℕ} (hn : ((n + 5 : ℕ) : ℝ) * u < 1) {E r : ℝ} (hE : 0 ≤ E)
    (h : (1 - u) ^ (n + 4) / (1 + u) * E ≤ r ∧ r ≤ (1 + u) ^ (n + 4) / (1 - u) * E) :
    |r - E| ≤ gamma u (n + 5) * E := by
  have h1 := hi_le hu hu1 (j := n + 4) (k := 1) hn
  have h2 := le_lo hu hu1 (j := n + 4) (k := 1) hn
  rw [pow_one] at h1 h2
  have k1 := mul_le_mul_of_nonneg_right h1 hE
  have k2 := mul_le_mul_of_nonneg_right h2 hE
  rw [abs_le]
  constructor <;> linarith [h.1, h.2]

private theorem rel_gamma_sqrt {u : ℝ} (hu : 0 ≤ u) (hu1 : u < 1) {n : ℕ} (hn : ((n + 6 : ℕ) : ℝ) * u < 1) {E s : ℝ}
    (h : (1 - u) * Real.sqrt ((1 - u) ^ (n + 4) / (1 + u)) * Real.sqrt E ≤ s ∧
      s ≤ (1 + u) * Real.sqrt ((1 + u) ^ (n + 4) / (1 - u)) * Real.sqrt E) :
    |s - Real.sqrt E| ≤ gamma u (n + 6) * Real.sqrt E := by
  have p : 0 < 1 - u := by linarith
  have hE := Real.sqrt_nonneg E
  have h1 := hi_le hu hu1 (j := n + 5) (k := 1) hn
  have h2 := le_lo hu hu1 (j := n + 5) (k := 1) hn
  rw [pow_one] at h1 h2
  have a1 : Real.sqrt ((1 + u) ^ (n + 4) / (1 - u)) ≤ (1 + u) ^ (n + 4) / (1 - u) := by
    have : (1 : ℝ) ≤ (1 + u) ^ (n + 4) / (1 - u) := by
      rw [le_div_iff₀ p]
      have : (1 : ℝ) ≤ (1 + u) ^ (n + 4) := one_le_pow₀ (by linarith)
      linarith
    rw [Real.sqrt_le_iff]
    exact ⟨by linarith, by nlinarith⟩
  have a2 : (1 - u) ^ (n + 4) / (1 + u) ≤ Real.sqrt ((1 - u) ^ (n + 4) / (1 + u)) := by
    have h0 : (0 : ℝ) ≤ (1 - u) ^ (n + 4) / (1 + u) := by positivity
    have : (1 - u) ^ (n + 4) / (1 + u) ≤ 1 := by
      rw [div_le_iff₀ (by linarith)]
      have : (1 - u) ^ (n + 4) ≤ 1 := pow_le_one₀ p.le (by linarith)
      linarith
    apply Real.le_sqrt_of_sq_le
    nlinarith
  have b1 : (1 + u) * Real.sqrt ((1 + u) ^ (n + 4) / (1 - u)) ≤ 1 + gamma u (n + 6) :=
    (mul_le_mul_of_nonneg_left a1 (by linarith)).trans (le_trans (le_of_eq (by ring)) h1)
  have b2 : 1 - gamma u (n + 6) ≤ (1 - u) * Real.sqrt ((1 - u) ^ (n + 4) / (1 + u)) :=
    h2.trans (le_trans (le_of_eq (by ring)) (mul_le_mul_of_nonneg_left a2 p.le))
  have k1 := mul_le_mul_of_nonneg_right b1 hE
  have k2 := mul_le_mul_of_nonneg_right b2 hE
  rw [abs_le]
  constructor <;> linarith [h.1, h.2]

/-- **C91**, explicit form for vectors with `(n + 6) u < 1`, where `γ k = k u / (1 - k u)`: the mean is within
`γ (n+2)` times the mean magnitude `A`; the variance within `γ (n+5)` (relative) plus `(1 + γ (n+5)) (γ (n+2) A)^2`; the
standard deviation within `γ (n+6)` (relative) plus `(1 + γ (n+6)) γ (n+2) A`. -/
theorem C91_statistics_explicit (F : Rounding) (x : List (FR F)) (h2 : 2 ≤ x.length) (h : x.length < 2 ^ 31)
    (hu : ((x.length + 6 : ℕ) : ℝ) * F.u < 1) :
    ∃ m v s, meanVecF x = .ok (some m) ∧ varianceVecF x = .ok (some v) ∧ standardDeviationVecF x = .ok (some s) ∧
      let A := Spec.mean (x.map (fun v => |v.val|))
      let V := Spec.variance (x.map FR.val)
      let g := gamma F.u
      |m.val - Spec.mean (x.map FR.val)| ≤ g (x.length + 2) * A ∧
      |v.val - V| ≤ g (x.length + 5) * V + (1 + g (x.length + 5)) * (g (x.length + 2) * A) ^ 2 ∧
      |s.val - Real.sqrt V| ≤ g (x.length + 6) * Real.sqrt V + (1 + g (x.length + 6)) * (g (x.length + 2) * A) := by
  have hu0 := F.u_nonneg
  have hu1 := F.u_lt_one
  obtain ⟨m, hm, k1⟩ := (C91_mean_vec F x h).2 (by omega)
  obtain ⟨m', v, s, hm', hv, hs, k2, k3⟩ := (C91_variance_vec F x h).2 h2
  obtain rfl : m = m' := by
    rw [hm] at hm'; injection hm' with hm'; injection hm'
  refine ⟨m, v, s, hm, hv, hs, ?_⟩
  have mono : ∀ k ≤ x.length + 6, ((k : ℕ) : ℝ) * F.u < 1 := fun k hk =>
    lt_of_le_of_lt (mul_le_mul_of_nonneg_right (by exact_mod_cast hk) hu0) hu
  have hA : 0 ≤ Spec.mean (x.map (fun v => |v.val|)) := by
    unfold Spec.mean
    apply div_nonneg _ (Nat.cast_nonneg _)
    apply List.sum_nonneg
    intro a ha
    obtain ⟨v, -, rfl⟩ := List.mem_map.1 ha
    exact abs_nonneg _
  have c1 : |m.val - Spec.mean (x.map FR.val)| ≤ gamma F.u (x.length + 2) * Spec.mean (x.map (fun v => |v.val|)) := by
    have := hi_le hu0 hu1 (j := x.length + 1) (k := 1) (mono _ (by omega))
    rw [pow_one] at this
    exact k1.trans (mul_le_mul_of_nonneg_right (by linarith) hA)
  have hV := variance_nonneg (x.map FR.val)
  set V := Spec.variance (x.map FR.val)
  set A := Spec.mean (x.map (fun v => |v.val|))
  set δ := gamma F.u (x.length + 2) * A
  set d := m.val - Spec.mean (x.map FR.val)
  have hδ : 0 ≤ δ := (abs_nonneg _).trans c1
  have hd2 : d ^ 2 ≤ δ ^ 2 := by rw [← sq_abs d]; exact pow_le_pow_left₀ (abs_nonneg _) c1 2
  refine ⟨c1, ?_, ?_⟩
  · have g0 := gamma_nonneg hu0 (mono (x.length + 5) (by omega))
    have := rel_gamma hu0 hu1 (mono _ (by omega)) (by positivity : 0 ≤ V + d ^ 2) k2
    have t : |v.val - V| ≤ |v.val - (V + d ^ 2)| + d ^ 2 := by
      have := abs_add_le (v.val - (V + d ^ 2)) (d ^ 2)
      rw [show v.val - (V + d ^ 2) + d ^ 2 = v.val - V by ring, abs_of_nonneg (by positivity : 0 ≤ d ^ 2)] at this
      exact this
    calc _ ≤ gamma F.u (x.length + 5) * (V + d ^ 2) + d ^ 2 := by linarith
      _ = gamma F.u (x.length + 5) * V + (1 + gamma F.u (x.length + 5)) * d ^ 2 := by ring
      _ ≤ _ := by gcongr
  · have g0 := gamma_nonneg hu0 (mono (x.length + 6) (by omega))
    have := rel_gamma_sqrt hu0 hu1 (mono _ (by omega)) k3
    have r1 : Real.sqrt (V + d ^ 2) ≤ Real.sqrt V + δ := by
      rw [Real.sqrt_le_iff]
      refine ⟨by positivity, ?_⟩
      have := Real.sq_sqrt hV
      have := Real.sqrt_nonneg V
      nlinarith
    have r2 : Real.sqrt V ≤ Real.sqrt (V + d ^ 2) := Real.sqrt_le_sqrt (by nlinarith [sq_nonneg d])
    have t : |s.val - Real.sqrt V| ≤ |s.val - Real.sqrt (V + d ^ 2)| + (Real.sqrt (V + d ^ 2) - Real.sqrt V) := by
      have := abs_add_le (s.val - Real.sqrt (V + d ^ 2)) (Real.sqrt (V + d ^ 2) - Real.sqrt V)
      rw [abs_of_nonneg (by linarith : 0 ≤ Real.sqrt (V + d ^ 2) - Real.sqrt V)] at this
      refine le_trans (le_of_eq (by ring_nf)) this
    calc _ ≤ gamma F.u (x.length + 6) * Real.sqrt (V + d ^ 2) + (Real.sqrt (V + d ^ 2) - Real.sqrt V) := by linarith
      _ ≤ gamma F.u (x.length + 6) * (Real.sqrt V + δ) + δ := by
          have := mul_le_mul_of_nonneg_left r1 g0
          linarith
      _ = _ := by ring

/-- **C91**, explicit form: with `(n + 6) u < 1` the relative error of the mean squared error is at most `γ (n+5)`, and
that of its root at most `γ (n+6)`. -/
theorem C91_mse_explicit {α : Type} (F : Rounding) (mag : α → FR F) (x y : List α) (h : x.length = y.length)
    (h1 : 1 ≤ x.length) (hu : ((x.length + 6 : ℕ) : ℝ) * F.u < 1) :
    ∃ r s, mseVecF mag x y = .ok r ∧ rmseVecF mag x y = .ok s ∧
      let E := Spec.mean (List.zipWith (fun a b => ((mag a).val - (mag b).val) ^ 2) x y)
      |r.val - E| ≤ gamma F.u (x.length + 5) * E ∧ |s.val - Real.sqrt E| ≤ gamma F.u (x.length + 6) * Real.sqrt E := by
  have hu0 := F.u_nonneg
  have hu1 := F.u_lt_one
  obtain ⟨r, s, hr, hs, k1, k2⟩ := C91_mse_vec F mag x y h h1
  refine ⟨r, s, hr, hs, rel_gamma hu0 hu1 ?_ ?_ k1, rel_gamma_sqrt hu0 hu1 hu k2⟩
  · exact lt_of_le_of_lt (mul_le_mul_of_nonneg_right (by exact_mod_cast (by omega)) hu0) hu
  · rw [zipWith_eq_map_zip]
    unfold Spec.mean
    exact div_nonneg (sq_sum_nonneg _ _) (Nat.cast_nonneg _)

/-! ## Normalisation -/

theorem scaleVecF_eq_map (a : FR F) (x : List (FR F)) : scaleVec a x = .ok (x.map (· * a)) := by
  rw [eq_vec_getD x 0, scaleVec_vec, map_vec]

/-- Scaling a matrix view: its rows are scaled, the rest of the storage is unchanged. -/
theorem scaleMatF_spec (colMajor : Bool) (a : FR F) (v : MatView) (data : List (FR F)) (hv : v.Valid data.length) :
    ∃ d, scaleMat colMajor a v data = .ok d ∧ d.length = data.length ∧
      (∀ r < v.rows, row v d r = (row v data r).map (· * a)) ∧
      entries v d = (entries v data).map (· * a) ∧
      (∀ m, (∀ r < v.rows, ∀ c < v.cols, v.idx r c ≠ m) → d[m]? = data[m]?) ∧
      ((∀ w ∈ entries v data, w * a = w) → d = data) := by
  obtain ⟨d, h1, h2, h3, h4⟩ := C60_matrix_unary colMajor (fun x : FR F => x * a) v data hv
  have hrow : ∀ r < v.rows, row v d r = (row v data r).map (· * a) := by
    intro r hr
    unfold row
    rw [List.map_filterMap]
    apply List.filterMap_congr
    intro c hc
    exact h3 r hr c (List.mem_range.1 hc)
  refine ⟨d, h1, h2, hrow, ?_, h4, ?_⟩
  · rw [entries_eq_rows, entries_eq_rows, List.map_flatMap]
    rw [List.flatMap_def, List.flatMap_def]
    congr 1
    apply List.map_congr_left
    intro r hr
    exact hrow r (List.mem_range.1 hr)
  · intro hw
    apply List.ext_getElem?
    intro m
    by_cases hm : ∀ r < v.rows, ∀ c < v.cols, v.idx r c ≠ m
    · exact h4 m hm
    · push Not at hm
      obtain ⟨r, hr, c, hc, rfl⟩ := hm
      rw [h3 r hr c hc]
      have hb := hv.1 r hr c hc
      rw [List.getElem?_eq_getElem hb]
      simp only [Option.map_some, Option.some.injEq]
      exact hw _ (mem_entries.2 ⟨r, hr, c, hc, List.getElem?_eq_getElem hb⟩)

/-- `y` is `x` multiplied by the real number `a`, each product rounded once. -/
def ScaledBy (F : Rounding) (a : ℝ) (x y : List (FR F)) : Prop :=
  List.Forall₂ (fun p q : FR F => |q.val - p.val * a| ≤ F.u * |p.val * a|) x y

private theorem scaledBy_map (a : FR F) (x : List (FR F)) : ScaledBy F a.val x (x.map (· * a)) := by
  unfold ScaledBy
  rw [List.forall₂_map_right_iff, List.forall₂_same]
  intro v _
  exact F.rnd_err _

/-- Largest magnitude of a list. -/
def IsPeak (x : List (FR F)) (p : ℝ) : Prop := (∀ v ∈ x, |v.val| ≤ p) ∧ ∃ v ∈ x, |v.val| = p

private theorem foldl_maxF (x : List (FR F)) (a : FR F) :
    (x.foldl (fun m v => FR.max m v.abs) a).val = (x.map FR.val).foldl (fun m v => max m |v|) a.val := by
  induction x generalizing a with
  | nil => rfl
  | cons y ys ih => simp only [List.foldl_cons, List.map_cons]; rw [ih]; rfl

private theorem peakF_core (x : List (FR F)) :
    ∃ a, peakFactorOfF (x.foldl (fun m v => FR.max m v.abs) 0) = .ok a ∧
      ((∀ v ∈ x, v.val = 0) → a.val = 1) ∧ ∀ p, IsPeak x p → 0 < p → |a.val - 1 / p| ≤ F.u * (1 / p) := by
  unfold peakFactorOfF
  rw [foldl_maxF]
  obtain ⟨h1, h2, h3⟩ := foldl_max_abs (x.map FR.val) 0 le_rfl
  rw [FR.zero_val]
  have hpk : ∀ p, IsPeak x p → 0 < p → (x.map FR.val).foldl (fun m v => max m |v|) 0 = p := by
    rintro p ⟨q1, w, hw, q2⟩ hp
    apply le_antisymm
    · rcases h3 with h | ⟨v, hv, h⟩
      · rw [h]; exact hp.le
      · obtain ⟨v', hv', rfl⟩ := List.mem_map.1 hv
        rw [← h]; exact q1 v' hv'
    · rw [← q2]; exact h2 _ (List.mem_map.2 ⟨w, hw, rfl⟩)
  by_cases hM : (x.map FR.val).foldl (fun m v => max m |v|) 0 = 0
  · rw [if_pos hM]
    exact ⟨FR.one, rfl, fun _ => rfl, fun p hp hp0 => absurd (hM.symm.trans (hpk p hp hp0)) (by linarith)⟩
  · rw [if_neg hM]
    have hpos := lt_of_le_of_ne h1 (Ne.symm hM)
    have hv : (x.foldl (fun m v => FR.max m v.abs) (0 : FR F)).abs.val = (x.map FR.val).foldl (fun m v => max m |v|) 0 := by
      show |(x.foldl (fun m v => FR.max m v.abs) (0 : FR F)).val| = _
      rw [foldl_maxF, FR.zero_val, abs_of_pos hpos]
    refine ⟨_, FR.div_ok (by rw [hv]; exact hM), ?_, ?_⟩
    · intro h0
      exfalso
      rcases h3 with h | ⟨v, hv', h⟩
      · exact hM h
      · obtain ⟨v', hv2, rfl⟩ := List.mem_map.1 hv'
        rw [h0 v' hv2, abs_zero] at h
        exact hM h.symm
    · intro p hp hp0
      show |F.rnd (1 / _) - 1 / p| ≤ _
      rw [hv, hpk p hp hp0]
      have := F.rnd_err (1 / p)
      rwa [abs_of_pos (by positivity : 0 < 1 / p)] at this

/-- After scaling by a factor within `u` of `1 / p` the largest magnitude is within `(1 ± u)^2` of `1`. -/
private theorem peak_after {x y : List (FR F)} {a p : ℝ} (hs : ScaledBy F a x y) (hp : IsPeak x p) (h0 : 0 < p)
    (ha : |a - 1 / p| ≤ F.u * (1 / p)) :
    (∀ q ∈ y, |q.val| ≤ (1 + F.u) ^ 2) ∧ ∃ q ∈ y, (1 - F.u) ^ 2 ≤ |q.val| := by
  have p1 := one_sub_pos F
  have p2 := one_add_pos F
  have ha' := abs_le.1 ha
  have a1 : (1 - F.u) / p ≤ a := by
    have : (1 - F.u) / p = 1 / p - F.u * (1 / p) := by ring
    linarith [ha'.1]
  have a2 : a ≤ (1 + F.u) / p := by
    have : (1 + F.u) / p = 1 / p + F.u * (1 / p) := by ring
    linarith [ha'.2]
  have apos : 0 < a := lt_of_lt_of_le (by positivity) a1
  have key : ∀ v q : FR F, |q.val - v.val * a| ≤ F.u * |v.val * a| →
      (1 - F.u) * (|v.val| * a) ≤ |q.val| ∧ |q.val| ≤ (1 + F.u) * (|v.val| * a) := by
    intro v q h
    have e : |v.val * a| = |v.val| * a := by rw [abs_mul, abs_of_pos apos]
    have h1 := abs_sub_abs_le_abs_sub q.val (v.val * a)
    have h2 := abs_sub_abs_le_abs_sub (v.val * a) q.val
    rw [abs_sub_comm] at h2
    rw [e] at h h1 h2
    constructor <;> linarith
  constructor
  · intro q hq
    obtain ⟨i, hi, rfl⟩ := List.getElem_of_mem hq
    have hi' : i < x.length := by rw [hs.length_eq]; exact hi
    have hk := (key _ _ (hs.get hi' hi)).2
    have hb : |(x.get ⟨i, hi'⟩).val| ≤ p := hp.1 _ (List.getElem_mem hi')
    refine hk.trans ?_
    calc _ ≤ (1 + F.u) * (p * ((1 + F.u) / p)) := by gcongr
      _ = _ := by field_simp
  · obtain ⟨v, hv, hvp⟩ := hp.2
    obtain ⟨i, hi, rfl⟩ := List.getElem_of_mem hv
    have hi' : i < y.length := by rw [← hs.length_eq]; exact hi
    have hk := (key _ _ (hs.get hi hi')).1
    refine ⟨y.get ⟨i, hi'⟩, List.getElem_mem hi', le_trans ?_ hk⟩
    rw [show |(x.get ⟨i, hi⟩).val| = p from hvp]
    calc _ = (1 - F.u) * (p * ((1 - F.u) / p)) := by field_simp
      _ ≤ _ := by gcongr

private theorem mul_zero_val {w a : FR F} (hw : w.val = 0) : w * a = w := by
  have h : (w * a).val = w.val := by rw [FR.mul_val, hw, zero_mul, rnd_zero]
  cases w; cases hm : (_ * a : FR F)
  rw [hm] at h
  exact congrArg FR.mk h

/-- **C91** (vectors): `normalize_peak` multiplies by a factor within `u` of the reciprocal of the peak, one rounding per
sample: the new peak is between `(1-u)^2` and `(1+u)^2`.  A silent vector is unchanged. -/
theorem C91_peak_vec (F : Rounding) (x : List (FR F)) :
    ∃ y a, normalizePeakVecF x = .ok y ∧ ScaledBy F a x y ∧
      ((∀ v ∈ x, v.val = 0) → y = x) ∧
      ∀ p, IsPeak x p → 0 < p → |a - 1 / p| ≤ F.u * (1 / p) ∧
        (∀ q ∈ y, |q.val| ≤ (1 + F.u) ^ 2) ∧ ∃ q ∈ y, (1 - F.u) ^ 2 ≤ |q.val| := by
  obtain ⟨a, e, -, k⟩ := peakF_core x
  have hf : normalizePeakFactorVecF x = .ok a := by
    unfold normalizePeakFactorVecF
    split
    · rename_i h
      have : x = [] := List.eq_nil_of_length_eq_zero h
      subst this
      rw [← e]; simp [peakFactorOfF, FR.zero_val]
    · rw [forN_fold_vec x (fun m v => FR.max m v.abs) 0 _ le_rfl, List.take_length, bind_ok, e]
  have hs := scaledBy_map a x
  refine ⟨x.map (· * a), a.val, ?_, hs, ?_, fun p hp h0 => ⟨k p hp h0, peak_after hs hp h0 (k p hp h0)⟩⟩
  · unfold normalizePeakVecF
    rw [hf, bind_ok, scaleVecF_eq_map]
  · intro h
    conv_rhs => rw [← List.map_id x]
    exact List.map_congr_left fun v hv => mul_zero_val (h v hv)

/-- **C91** (matrices): the same for the elements of every valid rank-2 view, in either loop order. -/
theorem C91_peak_mat (F : Rounding) (colMajor : Bool) (v : MatView) (data : List (FR F)) (hv : v.Valid data.length) :
    ∃ d a, normalizePeakMatF colMajor v data = .ok d ∧ d.length = data.length ∧
      ScaledBy F a (entries v data) (entries v d) ∧
      (∀ m, (∀ r < v.rows, ∀ c < v.cols, v.idx r c ≠ m) → d[m]? = data[m]?) ∧
      ((∀ w ∈ entries v data, w.val = 0) → d = data) ∧
      ∀ p, IsPeak (entries v data) p → 0 < p → |a - 1 / p| ≤ F.u * (1 / p) ∧
        (∀ q ∈ entries v d, |q.val| ≤ (1 + F.u) ^ 2) ∧ ∃ q ∈ entries v d, (1 - F.u) ^ 2 ≤ |q.val| := by
  obtain ⟨a, e, -, k⟩ := peakF_core (entries v data)
  have hf : normalizePeakFactorMatF v data = .ok a := by
    unfold normalizePeakFactorMatF
    split
    · rename_i h
      have : entries v data = [] := by simp [entries, h.1]
      rw [this] at e
      rw [← e]; simp [peakFactorOfF, FR.zero_val]
    · rw [forN_fold_mat v data (fun m v => FR.max m v.abs) 0 hv.1, bind_ok, e]
  obtain ⟨d, e1, e2, -, e3, e4, e5⟩ := scaleMatF_spec colMajor a v data hv
  have hs : ScaledBy F a.val (entries v data) (entries v d) := by rw [e3]; exact scaledBy_map a _
  refine ⟨d, a.val, ?_, e2, hs, e4, ?_, fun p hp h0 => ⟨k p hp h0, peak_after hs hp h0 (k p hp h0)⟩⟩
  · unfold normalizePeakMatF
    rw [hf, bind_ok, e1]
  · intro h
    exact e5 fun w hw => mul_zero_val (h w hw)

/-! ### Energy -/

/-- Computed energy of a list. -/
private theorem energyF_within (x : List (FR F)) :
    (1 - F.u) ^ (x.length + 1) * energy (x.map FR.val) ≤ (x.foldl (fun e v => e + v * v) 0).val ∧
    (x.foldl (fun e v => e + v * v) 0).val ≤ (1 + F.u) ^ (x.length + 1) * energy (x.map FR.val) := by
  have p1 := one_sub_pos F
  have := foldF_within x (fun v => v * v) (fun v => v.val ^ 2) (lo := 1 - F.u) (hi := 1 + F.u) p1.le
    (fun v => by positivity) sq_within
  unfold energy
  rw [List.map_map, pow_succ, pow_succ]
  exact this

private theorem energyF_core (x : List (FR F)) :
    ∃ a, energyFactorOfF (x.foldl (fun e v => e + v * v) 0) = .ok a ∧ 0 < a.val ∧
      (energy (x.map FR.val) = 0 → a.val = 1) ∧
      (energy (x.map FR.val) ≠ 0 →
        (1 - F.u) ^ 2 / (1 + F.u) ^ (x.length + 3) ≤ energy (x.map FR.val) * a.val ^ 2 ∧
        energy (x.map FR.val) * a.val ^ 2 ≤ (1 + F.u) ^ 2 / (1 - F.u) ^ (x.length + 3)) := by
  have p1 := one_sub_pos F
  have p2 := one_add_pos F
  obtain ⟨h1, h2⟩ := energyF_within x
  have hE := energy_nonneg (x.map FR.val)
  set E := energy (x.map FR.val)
  set e := x.foldl (fun e v => e + v * v) (0 : FR F)
  unfold energyFactorOfF
  by_cases h0 : E = 0
  · rw [h0, mul_zero] at h1 h2
    rw [if_pos (le_antisymm h2 h1)]
    exact ⟨FR.one, rfl, one_pos, fun _ => rfl, fun h => absurd h0 h⟩
  · have hEp := lt_of_le_of_ne hE (Ne.symm h0)
    have hep : 0 < e.val := lt_of_lt_of_le (by positivity) h1
    have hsp : 0 < Real.sqrt e.val := Real.sqrt_pos.2 hep
    have hrp := rnd_pos F hsp
    rw [if_neg hep.ne']
    refine ⟨_, FR.div_ok (show e.sqrt.val ≠ 0 from hrp.ne'), ?_, fun h => absurd h h0, fun _ => ?_⟩
    · exact rnd_pos F (div_pos one_pos hrp)
    show _ ≤ E * F.rnd (1 / F.rnd (Real.sqrt e.val)) ^ 2 ∧ _
    obtain ⟨s1, s2⟩ := rnd_bounds F hsp.le
    set s := F.rnd (Real.sqrt e.val)
    obtain ⟨t1, t2⟩ := rnd_bounds F (show 0 ≤ 1 / s by positivity)
    set t := F.rnd (1 / s)
    have hse := Real.sq_sqrt hep.le
    have s1' : (1 - F.u) ^ 2 * e.val ≤ s ^ 2 := by
      rw [← hse, ← mul_pow]; exact pow_le_pow_left₀ (by positivity) s1 2
    have s2' : s ^ 2 ≤ (1 + F.u) ^ 2 * e.val := by
      rw [← hse, ← mul_pow]; exact pow_le_pow_left₀ hrp.le s2 2
    have t1' : (1 - F.u) ^ 2 / s ^ 2 ≤ t ^ 2 := by
      have : (1 - F.u) ^ 2 / s ^ 2 = ((1 - F.u) * (1 / s)) ^ 2 := by ring
      rw [this]; exact pow_le_pow_left₀ (by positivity) t1 2
    have tp : 0 ≤ t := le_trans (by positivity) t1
    have t2' : t ^ 2 ≤ (1 + F.u) ^ 2 / s ^ 2 := by
      have : (1 + F.u) ^ 2 / s ^ 2 = ((1 + F.u) * (1 / s)) ^ 2 := by ring
      rw [this]; exact pow_le_pow_left₀ tp t2 2
    constructor
    · calc _ = E * ((1 - F.u) ^ 2 / ((1 + F.u) ^ 2 * ((1 + F.u) ^ (x.length + 1) * E))) := by
            rw [show x.length + 3 = 2 + (x.length + 1) by ring, pow_add]; field_simp
        _ ≤ E * ((1 - F.u) ^ 2 / s ^ 2) := by
            gcongr
            exact s2'.trans (by gcongr)
        _ ≤ _ := mul_le_mul_of_nonneg_left t1' hE
    · calc _ ≤ E * ((1 + F.u) ^ 2 / s ^ 2) := mul_le_mul_of_nonneg_left t2' hE
        _ ≤ E * ((1 + F.u) ^ 2 / ((1 - F.u) ^ 2 * ((1 - F.u) ^ (x.length + 1) * E))) := by
            gcongr
            exact le_trans (by gcongr) s1'
        _ = _ := by
            rw [show x.length + 3 = 2 + (x.length + 1) by ring, pow_add (1 - F.u)]; field_simp; ring

/-- Energy after scaling. -/
private theorem energy_after (a : FR F) (x : List (FR F)) :
    (1 - F.u) ^ 2 * (energy (x.map FR.val) * a.val ^ 2) ≤ energy ((x.map (· * a)).map FR.val) ∧
    energy ((x.map (· * a)).map FR.val) ≤ (1 + F.u) ^ 2 * (energy (x.map FR.val) * a.val ^ 2) := by
  have p1 := one_sub_pos F
  unfold energy
  induction x with
  | nil => simp
  | cons y ys ih =>
    simp only [List.map_cons, List.sum_cons]
    obtain ⟨h1, h2⟩ := rnd_abs F (y.val * a.val)
    have k1 := pow_le_pow_left₀ (by positivity) h1 2
    have k2 := pow_le_pow_left₀ (abs_nonneg _) h2 2
    rw [mul_pow, sq_abs, sq_abs, mul_pow] at k1 k2
    have e : (y * a).val = F.rnd (y.val * a.val) := rfl
    rw [e]
    constructor <;> nlinarith [ih.1, ih.2]

private theorem energy_scaled (x : List (FR F)) (a : FR F) (hE : energy (x.map FR.val) ≠ 0)
    (h : energy (x.map FR.val) ≠ 0 → (1 - F.u) ^ 2 / (1 + F.u) ^ (x.length + 3) ≤ energy (x.map FR.val) * a.val ^ 2 ∧
        energy (x.map FR.val) * a.val ^ 2 ≤ (1 + F.u) ^ 2 / (1 - F.u) ^ (x.length + 3)) :
    (1 - F.u) ^ 4 / (1 + F.u) ^ (x.length + 3) ≤ energy ((x.map (· * a)).map FR.val) ∧
    energy ((x.map (· * a)).map FR.val) ≤ (1 + F.u) ^ 4 / (1 - F.u) ^ (x.length + 3) := by
  obtain ⟨h1, h2⟩ := h hE
  obtain ⟨k1, k2⟩ := energy_after a x
  constructor
  · calc _ = (1 - F.u) ^ 2 * ((1 - F.u) ^ 2 / (1 + F.u) ^ (x.length + 3)) := by ring
      _ ≤ _ := mul_le_mul_of_nonneg_left h1 (by positivity)
      _ ≤ _ := k1
  · calc _ ≤ _ := k2
      _ ≤ (1 + F.u) ^ 2 * ((1 + F.u) ^ 2 / (1 - F.u) ^ (x.length + 3)) := mul_le_mul_of_nonneg_left h2 (by positivity)
      _ = _ := by ring

private theorem energy_zero_iff (x : List (FR F)) : energy (x.map FR.val) = 0 ↔ ∀ v ∈ x, v.val = 0 := by
  rw [energy_eq_zero]; simp

private theorem energyFactorVecF_eq (x : List (FR F)) :
    normalizeEnergyFactorVecF x = energyFactorOfF (x.foldl (fun e v => e + v * v) 0) := by
  unfold normalizeEnergyFactorVecF
  rw [forN_fold_vec x (fun e v => e + v * v) 0 _ le_rfl, List.take_length, bind_ok]

/-- **C91** (vectors): `normalize_energy` multiplies by one positive factor, one rounding per sample, and the new energy is
between `(1-u)^4/(1+u)^(n+3)` and `(1+u)^4/(1-u)^(n+3)`.  A silent vector is unchanged. -/
theorem C91_energy_vec (F : Rounding) (x : List (FR F)) :
    ∃ y a, normalizeEnergyVecF x = .ok y ∧ 0 < a ∧ ScaledBy F a x y ∧
      ((∀ v ∈ x, v.val = 0) → y = x) ∧
      ((∃ v ∈ x, v.val ≠ 0) →
        (1 - F.u) ^ 4 / (1 + F.u) ^ (x.length + 3) ≤ energy (y.map FR.val) ∧
        energy (y.map FR.val) ≤ (1 + F.u) ^ 4 / (1 - F.u) ^ (x.length + 3)) := by
  obtain ⟨a, e, h0, -, k⟩ := energyF_core x
  refine ⟨x.map (· * a), a.val, ?_, h0, scaledBy_map a x, ?_, ?_⟩
  · unfold normalizeEnergyVecF
    rw [energyFactorVecF_eq, e, bind_ok, scaleVecF_eq_map]
  · intro h
    conv_rhs => rw [← List.map_id x]
    exact List.map_congr_left fun v hv => mul_zero_val (h v hv)
  · rintro ⟨v, hv, hne⟩
    exact energy_scaled x a (fun h => hne ((energy_zero_iff x).1 h v hv)) k

/-- **C91** (matrices): the same for the elements of every valid rank-2 view. -/
theorem C91_energy_mat (F : Rounding) (colMajor : Bool) (v : MatView) (data : List (FR F)) (hv : v.Valid data.length) :
    ∃ d a, normalizeEnergyMatF colMajor v data = .ok d ∧ 0 < a ∧ d.length = data.length ∧
      ScaledBy F a (entries v data) (entries v d) ∧
      (∀ m, (∀ r < v.rows, ∀ c < v.cols, v.idx r c ≠ m) → d[m]? = data[m]?) ∧
      ((∀ w ∈ entries v data, w.val = 0) → d = data) ∧
      ((∃ w ∈ entries v data, w.val ≠ 0) →
        (1 - F.u) ^ 4 / (1 + F.u) ^ (v.rows * v.cols + 3) ≤ energy ((entries v d).map FR.val) ∧
        energy ((entries v d).map FR.val) ≤ (1 + F.u) ^ 4 / (1 - F.u) ^ (v.rows * v.cols + 3)) := by
  obtain ⟨a, e, h0, -, k⟩ := energyF_core (entries v data)
  obtain ⟨d, e1, e2, -, e3, e4, e5⟩ := scaleMatF_spec colMajor a v data hv
  refine ⟨d, a.val, ?_, h0, e2, by rw [e3]; exact scaledBy_map a _, e4, ?_, ?_⟩
  · unfold normalizeEnergyMatF normalizeEnergyFactorMatF
    rw [forN_fold_mat v data (fun e v => e + v * v) 0 hv.1, bind_ok, e, bind_ok, e1]
  · intro h
    exact e5 fun w hw => mul_zero_val (h w hw)
  · rintro ⟨w, hw, hne⟩
    have := energy_scaled (entries v data) a (fun h => hne ((energy_zero_iff _).1 h w hw)) k
    rw [entries_length hv.1] at this
    rw [e3]; exact this

/-! ### Impulse responses -/

private theorem rowOfF_eq (v : MatView) (data : List (FR F)) (r : ℕ)
    (h : ∀ c < v.cols, v.idx r c < data.length) : rowOf v data r = .ok (row v data r) := by
  unfold rowOf
  rw [forN_fold_row v data r (fun out x => out ++ [x]) [] h]
  congr 1
  have : ∀ (l acc : List (FR F)), l.foldl (fun out x => out ++ [x]) acc = acc ++ l := by
    intro l
    induction l with
    | nil => simp
    | cons y ys ih => intro acc; simp [ih]
  simp [this]

private theorem impulseFactorF_spec (v : MatView) (data : List (FR F))
    (hv : ∀ r < v.rows, ∀ c < v.cols, v.idx r c < data.length) (hr : 1 ≤ v.rows) :
    ∃ f, impulseFactorF v data = .ok f ∧ 0 < f.val ∧
      (∀ r < v.rows, ∃ a, energyFactorOfF ((row v data r).foldl (fun e v => e + v * v) 0) = .ok a ∧ f.val ≤ a.val) ∧
      (∃ r < v.rows, energyFactorOfF ((row v data r).foldl (fun e v => e + v * v) 0) = .ok f) := by
  have hfac : ∀ r, ∃ a, energyFactorOfF ((row v data r).foldl (fun e v => e + v * v) 0) = .ok a ∧ 0 < a.val :=
    fun r => by
      obtain ⟨a, h, h', -⟩ := energyF_core (row v data r)
      exact ⟨a, h, h'⟩
  choose fac hfac hpos using hfac
  unfold impulseFactorF
  rw [rowOfF_eq v data 0 (hv 0 (by omega)), bind_ok, energyFactorVecF_eq, hfac, bind_ok]
  unfold forR
  obtain ⟨f, h1, h2, h3, r, h4, h5⟩ := forN_inv (n := v.rows - 1)
    (body := fun i f => do
      let c ← rowOf v data (1 + i)
      let g ← normalizeEnergyFactorVecF c
      pure (FR.min f g)) (s := fac 0)
    (fun i f => 0 < f.val ∧ (∀ r < i + 1, f.val ≤ (fac r).val) ∧ ∃ r, r < i + 1 ∧ f = fac r)
    ⟨hpos 0, fun r hr => by rw [show r = 0 by omega], 0, by omega, rfl⟩ (by
      rintro i hi f ⟨k1, k2, r, k3, k4⟩
      refine ⟨FR.min f (fac (1 + i)), ?_, lt_min k1 (hpos _), ?_, ?_⟩
      · rw [rowOfF_eq v data (1 + i) (hv _ (by omega)), bind_ok, energyFactorVecF_eq, hfac]
        rfl
      · intro r hr
        rcases Nat.lt_succ_iff_lt_or_eq.1 hr with h | rfl
        · exact (min_le_left _ _).trans (k2 r h)
        · rw [Nat.add_comm i 1]; exact min_le_right _ _
      · rcases le_total f.val (fac (1 + i)).val with h | h
        · exact ⟨r, by omega, by unfold FR.min; rw [min_eq_left h, k4]⟩
        · exact ⟨1 + i, by omega, by unfold FR.min; rw [min_eq_right h]⟩)
  refine ⟨f, h1, h2, fun r hr => ⟨fac r, hfac r, h3 r (by omega)⟩, r, by omega, ?_⟩
  rw [h5]; exact hfac r

/-- **C91** (impulse responses): `normalize_impulse` multiplies all channels by one positive factor, one rounding per
sample; every channel ends with energy at most `(1+u)^4/(1-u)^(n+3)`, where `n` is the number of columns, and unless some
channel is silent one of them ends with energy at least `(1-u)^4/(1+u)^(n+3)`. -/
theorem C91_normalize_impulse (F : Rounding) (colMajor : Bool) (v : MatView) (data : List (FR F))
    (hv : v.Valid data.length) :
    ∃ d a, normalizeImpulseMatF colMajor v data = .ok d ∧ 0 < a ∧ d.length = data.length ∧
      (∀ r < v.rows, ScaledBy F a (row v data r) (row v d r)) ∧
      (∀ m, (∀ r < v.rows, ∀ c < v.cols, v.idx r c ≠ m) → d[m]? = data[m]?) ∧
      ((∀ w ∈ entries v data, w.val = 0) → d = data) ∧
      (∀ r < v.rows, energy ((row v d r).map FR.val) ≤ (1 + F.u) ^ 4 / (1 - F.u) ^ (v.cols + 3)) ∧
      (1 ≤ v.rows → (∀ r < v.rows, ∃ w ∈ row v data r, w.val ≠ 0) →
        ∃ r < v.rows, (1 - F.u) ^ 4 / (1 + F.u) ^ (v.cols + 3) ≤ energy ((row v d r).map FR.val)) := by
  have p1 := one_sub_pos F
  have p2 := one_add_pos F
  unfold normalizeImpulseMatF
  rcases Nat.eq_zero_or_pos v.rows with h0 | h0
  · rw [if_pos (by omega)]
    exact ⟨data, 1, rfl, one_pos, rfl, by intro r hr; omega, fun _ _ => rfl, fun _ => rfl, by intro r hr; omega,
      by intros; omega⟩
  rw [if_neg (by omega)]
  obtain ⟨f, h1, hpos, h2, r0, hr0, h3⟩ := impulseFactorF_spec v data hv.1 h0
  obtain ⟨d, e1, e2, e3, -, e5, e6⟩ := scaleMatF_spec colMajor f v data hv
  have hlen : ∀ r < v.rows, (row v data r).length = v.cols := fun r hr => row_length (hv.1 r hr)
  refine ⟨d, f.val, by rw [h1]; exact e1, hpos, e2, fun r hr => by rw [e3 r hr]; exact scaledBy_map f _, e5,
    fun h => e6 fun w hw => mul_zero_val (h w hw), ?_, ?_⟩
  · intro r hr
    rw [e3 r hr]
    obtain ⟨a, ha, hfa⟩ := h2 r hr
    obtain ⟨a', ha', -, -, k⟩ := energyF_core (row v data r)
    rw [ha] at ha'
    obtain rfl : a = a' := by injection ha'
    have hE := energy_nonneg ((row v data r).map FR.val)
    have hle := (energy_after f (row v data r)).2
    by_cases hz : energy ((row v data r).map FR.val) = 0
    · rw [hz, zero_mul, mul_zero] at hle
      exact hle.trans (by positivity)
    · have k2 := (k hz).2
      rw [hlen r hr] at k2
      refine hle.trans ?_
      have : energy ((row v data r).map FR.val) * f.val ^ 2 ≤ energy ((row v data r).map FR.val) * a.val ^ 2 :=
        mul_le_mul_of_nonneg_left (pow_le_pow_left₀ hpos.le hfa 2) hE
      calc _ ≤ (1 + F.u) ^ 2 * ((1 + F.u) ^ 2 / (1 - F.u) ^ (v.cols + 3)) :=
            mul_le_mul_of_nonneg_left (this.trans k2) (by positivity)
        _ = _ := by ring
  · intro _ hall
    obtain ⟨a', ha', -, -, k⟩ := energyF_core (row v data r0)
    rw [h3] at ha'
    obtain rfl : f = a' := by injection ha'
    obtain ⟨w, hw, hne⟩ := hall r0 hr0
    have := (energy_scaled (row v data r0) f (fun h => hne ((energy_zero_iff _).1 h w hw)) k).1
    rw [hlen r0 hr0] at this
    exact ⟨r0, hr0, by rw [e3 r0 hr0]; exact this⟩

/-- **C91**, explicit form: with `(n + 7) u < 1` the energy after `normalize_energy` differs from `1` by at most
`γ (n+7)`. -/
theorem C91_energy_explicit (F : Rounding) (x : List (FR F)) (hne : ∃ v ∈ x, v.val ≠ 0)
    (hu : ((x.length + 7 : ℕ) : ℝ) * F.u < 1) :
    ∃ y, normalizeEnergyVecF x = .ok y ∧ |energy (y.map FR.val) - 1| ≤ gamma F.u (x.length + 7) := by
  obtain ⟨y, a, e, -, -, -, k⟩ := C91_energy_vec F x
  obtain ⟨k1, k2⟩ := k hne
  have hn : (((4 + (x.length + 3) : ℕ)) : ℝ) * F.u < 1 := by
    rw [show 4 + (x.length + 3) = x.length + 7 by ring]; exact hu
  have h1 := hi_le F.u_nonneg F.u_lt_one hn
  have h2 := le_lo F.u_nonneg F.u_lt_one hn
  rw [show 4 + (x.length + 3) = x.length + 7 by ring] at h1 h2
  refine ⟨y, e, ?_⟩
  rw [abs_le]
  constructor <;> linarith

/-! ### Examples in single precision -/

/-- The mean of a minute of audio at 44.1 kHz: the worst-case error is below 19% of the mean magnitude. -/
example (x : List (FR binary32)) (hx : x.length = 2646000) :
    ∃ m, meanVecF x = .ok (some m) ∧ |m.val - Spec.mean (x.map FR.val)| ≤ 0.19 * Spec.mean (x.map (fun v => |v.val|)) := by
  obtain ⟨m, -, -, e, -, -, k, -⟩ := C91_statistics_explicit binary32 x (by omega) (by omega) (by
    rw [hx]; show ((2646000 + 6 : ℕ) : ℝ) * (2⁻¹ : ℝ) ^ 24 < 1; norm_num)
  refine ⟨m, e, k.trans (mul_le_mul_of_nonneg_right ?_ ?_)⟩
  · rw [hx]; unfold gamma
    show ((2646000 + 2 : ℕ) : ℝ) * (2⁻¹ : ℝ) ^ 24 / (1 - ((2646000 + 2 : ℕ) : ℝ) * (2⁻¹ : ℝ) ^ 24) ≤ 0.19
    norm_num
  · unfold Spec.mean
    apply div_nonneg _ (Nat.cast_nonneg _)
    apply List.sum_nonneg
    intro a ha
    obtain ⟨v, -, rfl⟩ := List.mem_map.1 ha
    exact abs_nonneg _

/-- The energy of an impulse response of 1000 samples after normalisation. -/
example (x : List (FR binary32)) (hx : x.length = 1000) (hne : ∃ v ∈ x, v.val ≠ 0) :
    ∃ y, normalizeEnergyVecF x = .ok y ∧ |energy (y.map FR.val) - 1| ≤ 0.0001 := by
  obtain ⟨y, e, k⟩ := C91_energy_explicit binary32 x hne (by
    rw [hx]; show ((1000 + 7 : ℕ) : ℝ) * (2⁻¹ : ℝ) ^ 24 < 1; norm_num)
  refine ⟨y, e, k.trans ?_⟩
  rw [hx]; unfold gamma
  show ((1000 + 7 : ℕ) : ℝ) * (2⁻¹ : ℝ) ^ 24 / (1 - ((1000 + 7 : ℕ) : ℝ) * (2⁻¹ : ℝ) ^ 24) ≤ 0.0001
  norm_num

/-- The peak of a three-sample vector. -/
example : ∃ y, normalizePeakVecF ([⟨1⟩, ⟨-3⟩, ⟨2⟩] : List (FR binary32)) = .ok y ∧
    ∃ q ∈ y, |q.val| ≤ 1.000001 ∧ 0.999999 ≤ |q.val| := by
  obtain ⟨y, a, e, -, -, k⟩ := C91_peak_vec binary32 [⟨1⟩, ⟨-3⟩, ⟨2⟩]
  have hp : IsPeak ([⟨1⟩, ⟨-3⟩, ⟨2⟩] : List (FR binary32)) 3 := by
    refine ⟨?_, ⟨-3⟩, by simp, by norm_num⟩
    intro v hv
    simp only [List.mem_cons, List.not_mem_nil, or_false] at hv
    rcases hv with rfl | rfl | rfl <;> norm_num
  obtain ⟨-, k1, q, hq, k2⟩ := k 3 hp (by norm_num)
  refine ⟨y, e, q, hq, (k1 q hq).trans ?_, le_trans ?_ k2⟩
  · show (1 + (2⁻¹ : ℝ) ^ 24) ^ 2 ≤ _; norm_num
  · show _ ≤ (1 - (2⁻¹ : ℝ) ^ 24) ^ 2; norm_num

end Neo.Props
