import Verif.Model.Stats
import Verif.Spec.Stats
import Verif.Lemmas.Mat
import Mathlib.Algebra.Order.BigOperators.Group.List
import Mathlib.Tactic.Linarith
import Mathlib.Tactic.Positivity
import Mathlib.Tactic.FieldSimp

/-! # Loops over vectors and matrices as folds; statistics; extrema -/

namespace Neo

open Spec

variable {α σ : Type}

theorem row_length {v : MatView} {data : List α} {r : ℕ}
    (h : ∀ c < v.cols, v.idx r c < data.length) : (row v data r).length = v.cols := by
  unfold row
  have : (List.range v.cols).filterMap (fun c => data[v.idx r c]?)
      = ((List.range v.cols).attach.map (fun c => data[v.idx r c.1]'(h _ (List.mem_range.1 c.2)))) := by
    rw [← List.filterMap_eq_map]
    conv_lhs => rw [← List.attach_map_subtype_val (List.range v.cols), List.filterMap_map]
    apply List.filterMap_congr
    intro c _
    simp [List.getElem?_eq_getElem (h c.1 (List.mem_range.1 c.2))]
  rw [this]; simp

theorem entries_eq_rows (v : MatView) (data : List α) :
    entries v data = (List.range v.rows).flatMap (row v data) := rfl

theorem entries_length {v : MatView} {data : List α}
    (h : ∀ r < v.rows, ∀ c < v.cols, v.idx r c < data.length) :
    (entries v data).length = v.rows * v.cols := by
  rw [entries_eq_rows, List.length_flatMap]
  have : (List.range v.rows).map (fun r => (row v data r).length)
      = (List.range v.rows).map (fun _ => v.cols) := by
    apply List.map_congr_left
    intro r hr
    exact row_length (h r (List.mem_range.1 hr))
  rw [this]; simp

theorem mem_entries {v : MatView} {data : List α} {a : α} :
    a ∈ entries v data ↔ ∃ r < v.rows, ∃ c < v.cols, data[v.idx r c]? = some a := by
  simp [entries]

theorem mem_row {v : MatView} {data : List α} {a : α} {r : ℕ} :
    a ∈ row v data r ↔ ∃ c < v.cols, data[v.idx r c]? = some a := by
  simp [row]

/-- A loop that folds the elements of a vector. -/
theorem forN_fold_vec (x : List α) (g : σ → α → σ) (s : σ) (k : ℕ) (hk : k ≤ x.length) :
    forN k (fun i s => do let v ← rd x i; pure (g s v)) s = .ok ((x.take k).foldl g s) := by
  induction k with
  | zero => simp
  | succ k ih =>
    rw [forN_succ, ih (by omega), bind_ok, rd_ok (by omega), bind_ok, pure_eq_ok,
      List.take_succ_eq_append_getElem (by omega), List.foldl_append]
    rfl

/-- A loop that folds the elements of a row. -/
theorem forN_fold_row (v : MatView) (data : List α) (r : ℕ) (g : σ → α → σ) (s : σ)
    (h : ∀ c < v.cols, v.idx r c < data.length) :
    forN v.cols (fun j s => do let x ← rd data (v.idx r j); pure (g s x)) s
      = .ok ((row v data r).foldl g s) := by
  unfold row
  generalize v.cols = C at h
  induction C with
  | zero => simp
  | succ C ih =>
    rw [forN_succ, ih (fun c hc => h c (by omega)), bind_ok, rd_ok (h C (by omega)), bind_ok,
      pure_eq_ok, List.range_succ, List.filterMap_append, List.foldl_append]
    simp [List.getElem?_eq_getElem (h C (by omega))]

/-- A nested loop whose inner loop folds a row folds the matrix. -/
theorem forN_fold_rows (v : MatView) (data : List α) (g : σ → α → σ) (s : σ) (R : ℕ)
    (body : ℕ → σ → Res σ) (hb : ∀ r < R, ∀ s, body r s = .ok ((row v data r).foldl g s)) :
    forN R body s = .ok (((List.range R).flatMap (row v data)).foldl g s) := by
  induction R with
  | zero => simp
  | succ R ih =>
    rw [forN_succ, ih (fun r hr => hb r (by omega)), bind_ok, hb R (by omega), List.range_succ,
      List.flatMap_append, List.foldl_append]
    simp

theorem forN_fold_mat (v : MatView) (data : List α) (g : σ → α → σ) (s : σ)
    (h : ∀ r < v.rows, ∀ c < v.cols, v.idx r c < data.length) :
    forN v.rows (fun i s => forN v.cols (fun j s => do
      let x ← rd data (v.idx i j); pure (g s x)) s) s = .ok ((entries v data).foldl g s) :=
  forN_fold_rows v data g s _ _ (fun r hr s => forN_fold_row v data r g s (h r hr))

theorem forInt_eq {n : ℕ} (hn : n < 2 ^ 31) (body : ℕ → σ → Res σ) (s : σ) :
    forInt n body s = forN n body s := by
  unfold forInt
  rw [Nat.min_eq_left hn.le]
  simp only [if_pos hn]
  cases forN n body s <;> rfl

theorem foldl_add_eq (f : α → ℝ) (x : List α) (a : ℝ) :
    x.foldl (fun s v => s + f v) a = a + (x.map f).sum := by
  induction x generalizing a with
  | nil => simp
  | cons y ys ih => simp [ih, add_assoc]

theorem sumVec_eq (f : ℝ → ℝ) (x : List ℝ) (h : x.length < 2 ^ 31) :
    sumVec f x = .ok (x.map f).sum := by
  unfold sumVec
  rw [forInt_eq h, forN_fold_vec x (fun s v => s + f v) 0 _ le_rfl, List.take_length,
    foldl_add_eq, zero_add]

theorem sumMat_eq (f : ℝ → ℝ) (v : MatView) (data : List ℝ)
    (h : ∀ r < v.rows, ∀ c < v.cols, v.idx r c < data.length) (hr : v.rows < 2 ^ 31)
    (hc : v.cols < 2 ^ 31) : sumMat f v data = .ok ((entries v data).map f).sum := by
  unfold sumMat
  rw [forInt_eq hr]
  simp only [forInt_eq hc]
  rw [forN_fold_mat v data (fun s v => s + f v) 0 h, foldl_add_eq, zero_add]

theorem fdiv_ok {a b : ℝ} (h : b ≠ 0) : fdiv a b = .ok (a / b) := by
  unfold fdiv; rw [if_neg h]

theorem fdiv_zero (a : ℝ) : fdiv a 0 = .error .divZero := by
  unfold fdiv; rw [if_pos rfl]

/-! ## Statistics -/

theorem sq_sum_nonneg (x : List α) (f : α → ℝ) : 0 ≤ (x.map (fun v => f v ^ 2)).sum := by
  apply List.sum_nonneg
  intro a ha
  obtain ⟨v, -, rfl⟩ := List.mem_map.1 ha
  positivity

theorem sq_sum_eq_zero (x : List α) (f : α → ℝ) :
    (x.map (fun v => f v ^ 2)).sum = 0 ↔ ∀ v ∈ x, f v = 0 := by
  induction x with
  | nil => simp
  | cons y ys ih =>
    have h1 := sq_sum_nonneg ys f
    have h2 : 0 ≤ f y ^ 2 := by positivity
    simp only [List.map_cons, List.sum_cons, List.forall_mem_cons]
    constructor
    · intro h
      have hy : f y ^ 2 = 0 := by linarith
      exact ⟨by simpa using hy, ih.1 (by linarith)⟩
    · rintro ⟨h, hs⟩
      rw [ih.2 hs, h]; simp

theorem variance_unfold (x : List ℝ) : Spec.variance x
    = (x.map (fun v => (v - Spec.mean x) * (v - Spec.mean x))).sum / x.length := by
  rw [Spec.variance]
  conv_lhs => rw [Spec.mean.eq_def (x.map _)]
  rw [List.length_map]
  simp only [pow_two]

theorem variance_nonneg (x : List ℝ) : 0 ≤ Spec.variance x := by
  unfold Spec.variance Spec.mean
  exact div_nonneg (sq_sum_nonneg x _) (Nat.cast_nonneg _)

theorem sum_const_list (x : List ℝ) (c : ℝ) (h : ∀ v ∈ x, v = c) : x.sum = x.length * c := by
  induction x with
  | nil => simp
  | cons y ys ih =>
    rw [List.sum_cons, ih (fun v hv => h v (by simp [hv])), h y (by simp), List.length_cons]
    push_cast; ring

theorem variance_eq_zero {x : List ℝ} (hx : x ≠ []) :
    Spec.variance x = 0 ↔ ∃ c, ∀ v ∈ x, v = c := by
  have hl : (x.length : ℝ) ≠ 0 := by
    rw [Nat.cast_ne_zero]; simpa using hx
  unfold Spec.variance
  rw [Spec.mean, List.length_map, div_eq_zero_iff, or_iff_left hl, sq_sum_eq_zero]
  constructor
  · intro h
    exact ⟨Spec.mean x, fun v hv => sub_eq_zero.1 (h v hv)⟩
  · rintro ⟨c, hc⟩ v hv
    have : Spec.mean x = c := by
      unfold Spec.mean
      rw [sum_const_list x c hc]; field_simp
    rw [this, hc v hv, sub_self]

theorem sum_map_add_const (x : List ℝ) (c : ℝ) :
    (x.map (· + c)).sum = x.sum + x.length * c := by
  induction x with
  | nil => simp
  | cons y ys ih =>
    simp only [List.map_cons, List.sum_cons, ih, List.length_cons]
    push_cast; ring

theorem sum_map_mul_const (x : List α) (f : α → ℝ) (c : ℝ) :
    (x.map (fun v => c * f v)).sum = c * (x.map f).sum := by
  induction x with
  | nil => simp
  | cons y ys ih =>
    simp only [List.map_cons, List.sum_cons, ih]
    ring

theorem mean_shift {x : List ℝ} (hx : x ≠ []) (c : ℝ) :
    Spec.mean (x.map (· + c)) = Spec.mean x + c := by
  have hl : (x.length : ℝ) ≠ 0 := by
    rw [Nat.cast_ne_zero]; simpa using hx
  unfold Spec.mean
  rw [sum_map_add_const, List.length_map]; field_simp

theorem mean_scale (x : List ℝ) (a : ℝ) : Spec.mean (x.map (a * ·)) = a * Spec.mean x := by
  unfold Spec.mean
  rw [sum_map_mul_const x (fun v => v) a, List.length_map, List.map_id', mul_div_assoc]

theorem variance_shift {x : List ℝ} (hx : x ≠ []) (c : ℝ) :
    Spec.variance (x.map (· + c)) = Spec.variance x := by
  unfold Spec.variance
  rw [mean_shift hx, List.map_map]
  congr 1
  apply List.map_congr_left
  intro v _
  simp only [Function.comp_apply]; ring

theorem variance_scale (x : List ℝ) (a : ℝ) :
    Spec.variance (x.map (a * ·)) = a ^ 2 * Spec.variance x := by
  unfold Spec.variance
  rw [mean_scale, List.map_map, ← mean_scale (x.map _), List.map_map]
  congr 1
  apply List.map_congr_left
  intro v _
  simp only [Function.comp_apply]; ring

/-! ## Largest magnitude -/

theorem foldl_max_abs (x : List ℝ) (a : ℝ) (ha : 0 ≤ a) :
    a ≤ x.foldl (fun m v => max m |v|) a ∧ (∀ v ∈ x, |v| ≤ x.foldl (fun m v => max m |v|) a) ∧
    (x.foldl (fun m v => max m |v|) a = a ∨ ∃ v ∈ x, |v| = x.foldl (fun m v => max m |v|) a) := by
  induction x generalizing a with
  | nil => simp
  | cons y ys ih =>
    obtain ⟨h1, h2, h3⟩ := ih (max a |y|) (le_max_of_le_left ha)
    simp only [List.foldl_cons, List.mem_cons]
    refine ⟨(le_max_left _ _).trans h1, ?_, ?_⟩
    · rintro v (rfl | hv)
      · exact (le_max_right _ _).trans h1
      · exact h2 v hv
    · rcases h3 with h | ⟨v, hv, h⟩
      · rcases le_total a |y| with hle | hle
        · right; refine ⟨y, Or.inl rfl, ?_⟩; rw [h, max_eq_right hle]
        · left; rw [h, max_eq_left hle]
      · right; exact ⟨v, Or.inr hv, h⟩

/-- The factor computed from the largest magnitude of a list: `1` if it is silent, and otherwise the
positive factor that gives it peak `1`. -/
theorem peakFactor_spec (x : List ℝ) :
    ∃ a, peakFactorOf (x.foldl (fun m v => max m |v|) 0) = .ok a ∧ 0 < a ∧
      ((∀ v ∈ x, v = 0) → a = 1) ∧
      ((∃ v ∈ x, v ≠ 0) → (∀ v ∈ x, |v * a| ≤ 1) ∧ ∃ v ∈ x, |v * a| = 1) ∧
      ((∀ v ∈ x, |v| ≤ 1) → (∃ v ∈ x, |v| = 1) → a = 1) := by
  obtain ⟨h1, h2, h3⟩ := foldl_max_abs x 0 le_rfl
  set M := x.foldl (fun m v => max m |v|) 0
  unfold peakFactorOf
  by_cases hM : M = 0
  · rw [if_pos hM]
    have h0 : ∀ v ∈ x, v = 0 := fun v hv => by
      have := h2 v hv
      rw [hM] at this
      exact abs_nonpos_iff.1 this
    exact ⟨1, rfl, one_pos, fun _ => rfl, fun ⟨v, hv, h⟩ => absurd (h0 v hv) h, fun _ _ => rfl⟩
  · have hpos : 0 < M := lt_of_le_of_ne h1 (Ne.symm hM)
    rw [if_neg hM, abs_of_pos hpos, fdiv_ok hM]
    obtain ⟨w, hw, hwM⟩ := h3.resolve_left hM
    refine ⟨1 / M, rfl, by positivity, ?_, ?_, ?_⟩
    · intro h
      rw [h w hw, abs_zero] at hwM
      exact absurd hwM.symm hM
    · intro _
      constructor
      · intro v hv
        rw [abs_mul, abs_of_pos (by positivity : 0 < 1 / M), mul_one_div, div_le_one hpos]
        exact h2 v hv
      · refine ⟨w, hw, ?_⟩
        rw [abs_mul, abs_of_pos (by positivity : 0 < 1 / M), hwM]
        field_simp
    · rintro hle ⟨u, hu, hu1⟩
      have : M = 1 := le_antisymm (hwM ▸ hle w hw) (hu1 ▸ h2 u hu)
      rw [this]; simp

/-! ## Energy -/

theorem foldl_energy (x : List ℝ) :
    x.foldl (fun e v => e + v * v) 0 = energy x := by
  rw [foldl_add_eq (fun v => v * v), zero_add, energy]
  congr 1
  apply List.map_congr_left
  intro v _; ring

theorem energy_nonneg (x : List ℝ) : 0 ≤ energy x := sq_sum_nonneg x id

theorem energy_eq_zero (x : List ℝ) : energy x = 0 ↔ ∀ v ∈ x, v = 0 := sq_sum_eq_zero x id

theorem energy_map_mul (x : List ℝ) (a : ℝ) : energy (x.map (· * a)) = energy x * a ^ 2 := by
  unfold energy
  rw [mul_comm, ← sum_map_mul_const, List.map_map]
  congr 1
  apply List.map_congr_left
  intro v _
  simp only [Function.comp_apply]; ring

/-- The factor computed from an energy. -/
theorem energyFactor_spec {e : ℝ} (he : 0 ≤ e) :
    ∃ a, energyFactorOf e = .ok a ∧ 0 < a ∧ (e = 0 → a = 1) ∧ (e ≠ 0 → e * a ^ 2 = 1) := by
  unfold energyFactorOf
  by_cases h : e = 0
  · rw [if_pos h]
    exact ⟨1, rfl, one_pos, fun _ => rfl, fun h' => absurd h h'⟩
  · have hpos : 0 < e := lt_of_le_of_ne he (Ne.symm h)
    have hs : Real.sqrt e ≠ 0 := (Real.sqrt_pos.2 hpos).ne'
    rw [if_neg h, fdiv_ok hs]
    refine ⟨_, rfl, by have := Real.sqrt_pos.2 hpos; positivity, fun h' => absurd h' h, fun _ => ?_⟩
    rw [div_pow, one_pow, Real.sq_sqrt he]; field_simp

/-! ## Early-exit loops -/

theorem forN_while (n : ℕ) (q : ℕ → Bool) (body : ℕ → Res Bool) (hb : ∀ i < n, body i = .ok (q i)) :
    forN n (fun i go => if go = true then body i else .ok false) true
      = .ok (decide (∀ i < n, q i = true)) := by
  apply forN_eq' (fun k => decide (∀ i < k, q i = true))
  · simp
  · rfl
  · intro i hi
    by_cases h : ∀ j < i, q j = true
    · rw [decide_eq_true h, if_pos rfl, hb i hi]
      congr 1
      rw [eq_comm, Bool.eq_iff_iff, decide_eq_true_iff]
      constructor
      · intro h'; exact h' i (by omega)
      · intro h' j hj
        rcases Nat.lt_succ_iff_lt_or_eq.1 hj with h2 | rfl
        · exact h j h2
        · exact h'
    · have h' : ¬ ∀ j < i + 1, q j = true := fun hh => h (fun j hj => hh j (by omega))
      rw [decide_eq_false h, decide_eq_false h']
      simp

theorem forIntWhile_eq {n : ℕ} (hn : n < 2 ^ 31) (q : ℕ → Bool) (body : ℕ → Res Bool)
    (hb : ∀ i < n, body i = .ok (q i)) :
    forIntWhile n body = .ok (decide (∀ i < n, q i = true)) := by
  unfold forIntWhile
  rw [Nat.min_eq_left hn.le, forN_while n q body hb, bind_ok, if_pos hn]
  by_cases h : ∀ i < n, q i = true
  · rw [decide_eq_true h]; rfl
  · rw [decide_eq_false h]; rfl

end Neo
