import Verif.Model.StatsRounding
import Verif.Lemmas.Stats
import Verif.Lemmas.Rounding
import Verif.Lemmas.Algo
import Mathlib.Tactic.Linarith
import Mathlib.Tactic.Positivity
import Mathlib.Tactic.FieldSimp
import Mathlib.Tactic.Ring

/-! # Rounded sums of non-negative numbers; loops over two vectors or matrices -/

namespace Neo

open Spec

variable {F : Rounding} {α σ : Type}

/-! ## Folds over two inputs -/

theorem forN_fold_zip (x y : List α) (g : σ → α → α → σ) (s : σ) (h : x.length = y.length) (k : ℕ) (hk : k ≤ x.length) :
    forN k (fun i s => do let a ← rd x i; let b ← rd y i; pure (g s a b)) s
      = .ok (((x.zip y).take k).foldl (fun s p => g s p.1 p.2) s) := by
  induction k with
  | zero => simp
  | succ k ih =>
    rw [forN_succ, ih (by omega), bind_ok, rd_ok (by omega), bind_ok, rd_ok (by omega), bind_ok, pure_eq_ok,
      List.take_succ_eq_append_getElem (by simp; omega), List.foldl_append]
    simp

theorem forN_fold_zip_row (vx vy : MatView) (x y : List α) (r : ℕ) (g : σ → α → α → σ) (s : σ) (k : ℕ)
    (hx : ∀ c < k, vx.idx r c < x.length) (hy : ∀ c < k, vy.idx r c < y.length) :
    forN k (fun j s => do let a ← rd x (vx.idx r j); let b ← rd y (vy.idx r j); pure (g s a b)) s
      = .ok ((((List.range k).filterMap (fun c => x[vx.idx r c]?)).zip
          ((List.range k).filterMap (fun c => y[vy.idx r c]?))).foldl (fun s p => g s p.1 p.2) s) := by
  have hlen : ∀ (v : MatView) (z : List α) (k : ℕ), (∀ c < k, v.idx r c < z.length) →
      ((List.range k).filterMap (fun c => z[v.idx r c]?)).length = k := by
    intro v z k hz
    exact row_length (v := ⟨0, k, v.off, v.s0, v.s1⟩) hz
  induction k with
  | zero => simp
  | succ k ih =>
    have h1 := hx k (by omega)
    have h2 := hy k (by omega)
    rw [forN_succ, ih (fun c hc => hx c (by omega)) (fun c hc => hy c (by omega)), bind_ok, rd_ok h1, bind_ok, rd_ok h2,
      bind_ok, pure_eq_ok, List.range_succ, List.filterMap_append, List.filterMap_append,
      List.zip_append (by
        rw [hlen _ _ _ (fun c hc' => hx c (by omega)), hlen _ _ _ (fun c hc' => hy c (by omega))]),
      List.foldl_append]
    simp [List.getElem?_eq_getElem h1, List.getElem?_eq_getElem h2]

theorem forN_fold_zip_mat (vx vy : MatView) (x y : List α) (g : σ → α → α → σ) (s : σ) (hr : vx.rows = vy.rows)
    (hc : vx.cols = vy.cols) (hx : ∀ r < vx.rows, ∀ c < vx.cols, vx.idx r c < x.length)
    (hy : ∀ r < vy.rows, ∀ c < vy.cols, vy.idx r c < y.length) :
    forN vx.rows (fun i s => forN vx.cols (fun j s => do
        let a ← rd x (vx.idx i j); let b ← rd y (vy.idx i j); pure (g s a b)) s) s
      = .ok (((entries vx x).zip (entries vy y)).foldl (fun s p => g s p.1 p.2) s) := by
  have hall : ∀ R ≤ vx.rows, forN R (fun i s => forN vx.cols (fun j s => do
      let a ← rd x (vx.idx i j); let b ← rd y (vy.idx i j); pure (g s a b)) s) s
      = .ok ((((List.range R).flatMap (row vx x)).zip ((List.range R).flatMap (row vy y))).foldl
          (fun s p => g s p.1 p.2) s) := by
    intro R hR
    induction R with
    | zero => simp
    | succ R ih =>
      have e1 := entries_length (v := ⟨R, vx.cols, vx.off, vx.s0, vx.s1⟩) (data := x)
        (fun r hr' => hx r (by have : r < R := hr'; omega))
      have e2 := entries_length (v := ⟨R, vy.cols, vy.off, vy.s0, vy.s1⟩) (data := y)
        (fun r hr' => hy r (by have : r < R := hr'; omega))
      have e3 : ((List.range R).flatMap (row vx x)).length = ((List.range R).flatMap (row vy y)).length :=
        e1.trans (by rw [show (⟨R, vx.cols, vx.off, vx.s0, vx.s1⟩ : MatView).cols = vy.cols from hc]; exact e2.symm)
      rw [forN_succ, ih (by omega), bind_ok,
        forN_fold_zip_row vx vy x y R g _ _ (hx R (by omega)) (fun c hc' => hy R (by omega) c (by omega)),
        List.range_succ, List.flatMap_append, List.flatMap_append, List.zip_append e3, List.foldl_append]
      simp only [List.flatMap_cons, List.flatMap_nil, List.append_nil]
      rw [hc]; unfold row; rw [hc]
  rw [hall _ le_rfl, entries_eq_rows, entries_eq_rows, ← hr]

/-! ## Rounding non-negative numbers -/

theorem rnd_bounds (F : Rounding) {x : ℝ} (hx : 0 ≤ x) : (1 - F.u) * x ≤ F.rnd x ∧ F.rnd x ≤ (1 + F.u) * x := by
  have h := abs_le.1 (F.rnd_err x)
  rw [abs_of_nonneg hx] at h
  constructor <;> linarith [h.1, h.2]

theorem rnd_zero (F : Rounding) : F.rnd 0 = 0 := by
  have := rnd_bounds F (le_refl (0 : ℝ))
  linarith [this.1, this.2]

theorem rnd_pos (F : Rounding) {x : ℝ} (hx : 0 < x) : 0 < F.rnd x := by
  have := (rnd_bounds F hx.le).1
  have hu := F.u_lt_one
  have : 0 < (1 - F.u) * x := mul_pos (by linarith) hx
  linarith

theorem rnd_nonneg (F : Rounding) {x : ℝ} (hx : 0 ≤ x) : 0 ≤ F.rnd x := by
  rcases hx.eq_or_lt with rfl | h
  · rw [rnd_zero]
  · exact (rnd_pos F h).le

/-- Rounded magnitude. -/
theorem rnd_abs (F : Rounding) (x : ℝ) : (1 - F.u) * |x| ≤ |F.rnd x| ∧ |F.rnd x| ≤ (1 + F.u) * |x| := by
  have h := F.rnd_err x
  have h1 := abs_sub_abs_le_abs_sub (F.rnd x) x
  have h2 := abs_sub_abs_le_abs_sub x (F.rnd x)
  rw [abs_sub_comm] at h2
  constructor <;> linarith

/-- Rounding of a number known to lie between `lo * x` and `hi * x`. -/
theorem rnd_within (F : Rounding) {lo hi a x : ℝ} (ha : 0 ≤ a) (h : lo * x ≤ a ∧ a ≤ hi * x) :
    (1 - F.u) * lo * x ≤ F.rnd a ∧ F.rnd a ≤ (1 + F.u) * hi * x := by
  have hu := F.u_lt_one
  have hu0 := F.u_nonneg
  obtain ⟨h1, h2⟩ := rnd_bounds F ha
  constructor
  · calc _ = (1 - F.u) * (lo * x) := by ring
      _ ≤ (1 - F.u) * a := mul_le_mul_of_nonneg_left h.1 (by linarith)
      _ ≤ _ := h1
  · calc _ ≤ (1 + F.u) * a := h2
      _ ≤ (1 + F.u) * (hi * x) := mul_le_mul_of_nonneg_left h.2 (by linarith)
      _ = _ := by ring

theorem FR.add_val (a b : FR F) : (a + b).val = F.rnd (a.val + b.val) := rfl
theorem FR.sub_val (a b : FR F) : (a - b).val = F.rnd (a.val - b.val) := rfl
theorem FR.mul_val (a b : FR F) : (a * b).val = F.rnd (a.val * b.val) := rfl
theorem FR.zero_val : (0 : FR F).val = 0 := rfl

/-! ## Running sums -/

/-- The running sum of `n` numbers has absolute error at most `(1 + u) ^ n - 1` times the sum of the magnitudes. -/
theorem foldF_err (l : List α) (g : α → FR F) :
    |(l.foldl (fun s v => s + g v) 0).val - (l.map (fun v => (g v).val)).sum|
      ≤ ((1 + F.u) ^ l.length - 1) * (l.map (fun v => |(g v).val|)).sum := by
  have hu := F.u_nonneg
  induction l using List.reverseRecOn with
  | nil => simp [FR.zero_val]
  | append_singleton l a ih =>
    rw [List.foldl_append, List.map_append, List.map_append, List.sum_append, List.sum_append, List.length_append]
    simp only [List.foldl_cons, List.foldl_nil, List.map_cons, List.map_nil, List.sum_cons, List.sum_nil, add_zero,
      List.length_cons, List.length_nil, zero_add]
    set S := (l.foldl (fun s v => s + g v) 0)
    set T := (l.map (fun v => (g v).val)).sum
    set A := (l.map (fun v => |(g v).val|)).sum
    have hTA : |T| ≤ A := by
      have : ∀ l : List α, |(l.map (fun v => (g v).val)).sum| ≤ (l.map (fun v => |(g v).val|)).sum := by
        intro l
        induction l with
        | nil => simp
        | cons y ys ih => simp only [List.map_cons, List.sum_cons]; exact (abs_add_le _ _).trans (by linarith)
      exact this l
    rw [FR.add_val]
    have h1 := F.rnd_err (S.val + (g a).val)
    have hG : (1 : ℝ) ≤ (1 + F.u) ^ l.length := one_le_pow₀ (by linarith)
    have h2 : |S.val + (g a).val| ≤ (1 + F.u) ^ l.length * A + |(g a).val| := by
      have := abs_add_le (S.val - T) (T + (g a).val)
      have := abs_add_le T (g a).val
      rw [show S.val + (g a).val = (S.val - T) + (T + (g a).val) by ring]
      linarith
    have h3 : |F.rnd (S.val + (g a).val) - (T + (g a).val)|
        ≤ |F.rnd (S.val + (g a).val) - (S.val + (g a).val)| + |S.val - T| := by
      rw [show F.rnd (S.val + (g a).val) - (T + (g a).val)
        = (F.rnd (S.val + (g a).val) - (S.val + (g a).val)) + (S.val - T) by ring]
      exact abs_add_le _ _
    have h4 := mul_le_mul_of_nonneg_left h2 hu
    have h5 : 0 ≤ |(g a).val| := abs_nonneg _
    have h6 : F.u * |(g a).val| ≤ F.u * ((1 + F.u) ^ l.length * |(g a).val|) :=
      mul_le_mul_of_nonneg_left (by nlinarith) hu
    rw [pow_succ]
    nlinarith

/-- The running sum of non-negative numbers, each known up to a factor. -/
theorem foldF_within (l : List α) (g : α → FR F) (t : α → ℝ) {lo hi : ℝ} (hlo : 0 ≤ lo)
    (ht : ∀ v, 0 ≤ t v) (h : ∀ v, lo * t v ≤ (g v).val ∧ (g v).val ≤ hi * t v) :
    (1 - F.u) ^ l.length * lo * (l.map t).sum ≤ (l.foldl (fun s v => s + g v) 0).val ∧
    (l.foldl (fun s v => s + g v) 0).val ≤ (1 + F.u) ^ l.length * hi * (l.map t).sum := by
  have hu := F.u_nonneg
  have hu1 := F.u_lt_one
  by_cases hneg : ∀ v, t v = 0
  · have hz : ∀ l : List α, (l.foldl (fun s v => s + g v) 0).val = 0 := by
      intro l
      induction l using List.reverseRecOn with
      | nil => rfl
      | append_singleton l a ih =>
        rw [List.foldl_append]
        simp only [List.foldl_cons, List.foldl_nil]
        have := h a
        rw [hneg a, mul_zero, mul_zero] at this
        rw [FR.add_val, ih, le_antisymm this.2 this.1, add_zero, rnd_zero]
    have hs : (l.map t).sum = 0 := by
      rw [show l.map t = l.map (fun _ => (0 : ℝ)) from List.map_congr_left fun v _ => hneg v]; simp
    rw [hz, hs]; simp
  push Not at hneg
  obtain ⟨w, hw⟩ := hneg
  have hhi : lo ≤ hi := by
    have h1 := h w
    exact le_of_mul_le_mul_right (h1.1.trans h1.2) (lt_of_le_of_ne (ht w) (Ne.symm hw))
  have hsum : ∀ l : List α, 0 ≤ (l.map t).sum := by
    intro l; apply List.sum_nonneg; intro a ha; obtain ⟨v, -, rfl⟩ := List.mem_map.1 ha; exact ht v
  induction l using List.reverseRecOn with
  | nil => simp [FR.zero_val]
  | append_singleton l a ih =>
    rw [List.foldl_append, List.map_append, List.sum_append, List.length_append]
    simp only [List.foldl_cons, List.foldl_nil, List.map_cons, List.map_nil, List.sum_cons, List.sum_nil, add_zero,
      List.length_cons, List.length_nil, zero_add]
    set S := (l.foldl (fun s v => s + g v) 0)
    have hT := hsum l
    set T := (l.map t).sum
    have hq1 : (1 - F.u) ^ l.length ≤ 1 := pow_le_one₀ (by linarith) (by linarith)
    have hq0 : 0 ≤ (1 - F.u) ^ l.length := pow_nonneg (by linarith) _
    have hp1 : 1 ≤ (1 + F.u) ^ l.length := one_le_pow₀ (by linarith)
    have hta := ht a
    have hSpos : 0 ≤ S.val := le_trans (by positivity) ih.1
    have hgpos : 0 ≤ (g a).val := le_trans (by positivity) (h a).1
    obtain ⟨r1, r2⟩ := rnd_within F (lo := (1 - F.u) ^ l.length * lo) (hi := (1 + F.u) ^ l.length * hi) (a := S.val + (g a).val)
      (x := T + t a) (by linarith) (by
        constructor
        · have : (1 - F.u) ^ l.length * lo * t a ≤ lo * t a := by
            rw [mul_assoc]; exact mul_le_of_le_one_left (by positivity) hq1
          have := (h a).1
          nlinarith [ih.1]
        · have : hi * t a ≤ (1 + F.u) ^ l.length * hi * t a := by
            rw [mul_assoc]; exact le_mul_of_one_le_left (by have := hlo.trans hhi; positivity) hp1
          have := (h a).2
          nlinarith [ih.2])
    rw [FR.add_val, pow_succ, pow_succ]
    constructor
    · linarith
    · linarith

/-- The squared difference. -/
theorem sqDiff_within (a b : FR F) :
    (1 - F.u) ^ 3 * (a.val - b.val) ^ 2 ≤ ((a - b) * (a - b)).val ∧
    ((a - b) * (a - b)).val ≤ (1 + F.u) ^ 3 * (a.val - b.val) ^ 2 := by
  have hu := F.u_nonneg
  have hu1 := F.u_lt_one
  obtain ⟨h1, h2⟩ := rnd_abs F (a.val - b.val)
  rw [FR.mul_val, FR.sub_val]
  set d := a.val - b.val
  have e : F.rnd d * F.rnd d = |F.rnd d| ^ 2 := by rw [sq_abs, pow_two]
  have hd := abs_nonneg d
  have k1 : ((1 - F.u) * |d|) ^ 2 ≤ |F.rnd d| ^ 2 := pow_le_pow_left₀ (mul_nonneg (by linarith) hd) h1 2
  have k2 : |F.rnd d| ^ 2 ≤ ((1 + F.u) * |d|) ^ 2 := pow_le_pow_left₀ (abs_nonneg _) h2 2
  rw [mul_pow, sq_abs d] at k1 k2
  have := rnd_within F (by positivity : 0 ≤ |F.rnd d| ^ 2) ⟨k1, k2⟩
  rw [e, show (1 - F.u) ^ 3 = (1 - F.u) * (1 - F.u) ^ 2 by ring, show (1 + F.u) ^ 3 = (1 + F.u) * (1 + F.u) ^ 2 by ring]
  exact this

theorem sq_within (a : FR F) :
    (1 - F.u) * a.val ^ 2 ≤ (a * a).val ∧ (a * a).val ≤ (1 + F.u) * a.val ^ 2 := by
  rw [FR.mul_val, ← pow_two]
  exact rnd_bounds F (by positivity)

/-! ## Division by a size, square roots -/

theorem ofNat_ne_zero {n : ℕ} (hn : 1 ≤ n) : (FR.ofNat F n).val ≠ 0 :=
  (rnd_pos F (by exact_mod_cast hn)).ne'

theorem FR.div_ok {a b : FR F} (h : b.val ≠ 0) : a.div b = .ok ⟨F.rnd (a.val / b.val)⟩ := by
  unfold FR.div; rw [if_neg h]

/-- The quotient by a size, for a non-negative dividend known up to a factor. -/
theorem divN_within {n : ℕ} (hn : 1 ≤ n) {s : FR F} {lo hi x : ℝ} (hs : 0 ≤ s.val) (hlo : 0 ≤ lo)
    (hx : 0 ≤ x) (h : lo * x ≤ s.val ∧ s.val ≤ hi * x) :
    ∃ r, s.div (FR.ofNat F n) = .ok r ∧ (1 - F.u) * lo / (1 + F.u) * (x / n) ≤ r.val ∧
      r.val ≤ (1 + F.u) * hi / (1 - F.u) * (x / n) := by
  have hu := F.u_nonneg
  have hu1 : 0 < 1 - F.u := by linarith [F.u_lt_one]
  have hu2 : 0 < 1 + F.u := by linarith
  have hn0 : (0 : ℝ) < n := by exact_mod_cast hn
  obtain ⟨b1, b2⟩ := rnd_bounds F hn0.le
  have hb := rnd_pos F hn0
  refine ⟨_, FR.div_ok (ofNat_ne_zero hn), ?_⟩
  show _ ≤ F.rnd (s.val / F.rnd n) ∧ F.rnd (s.val / F.rnd n) ≤ _
  have h1 : lo / (1 + F.u) / n * x ≤ s.val / F.rnd n := by
    rw [le_div_iff₀ hb]
    calc _ ≤ lo / (1 + F.u) / n * x * ((1 + F.u) * n) := mul_le_mul_of_nonneg_left b2 (by positivity)
      _ = lo * x := by field_simp
      _ ≤ _ := h.1
  have h2 : s.val / F.rnd n ≤ hi / (1 - F.u) / n * x := by
    have hhx : 0 ≤ hi * x := hs.trans h.2
    rw [div_le_iff₀ hb]
    calc s.val ≤ hi * x := h.2
      _ = hi * x / (1 - F.u) / n * ((1 - F.u) * n) := by field_simp
      _ ≤ hi * x / (1 - F.u) / n * F.rnd n := mul_le_mul_of_nonneg_left b1 (by positivity)
      _ = _ := by ring
  have := rnd_within F (div_nonneg hs hb.le) ⟨h1, h2⟩
  constructor
  · calc _ = (1 - F.u) * (lo / (1 + F.u) / n) * x := by ring
      _ ≤ _ := this.1
  · calc _ ≤ _ := this.2
      _ = _ := by ring

/-- The mean of numbers of any sign. -/
theorem divN_err {n : ℕ} (hn : 1 ≤ n) {s : FR F} {G T A : ℝ} (hTA : |T| ≤ A) (hG : 1 ≤ G) (h : |s.val - T| ≤ (G - 1) * A) :
    ∃ r, s.div (FR.ofNat F n) = .ok r ∧ |r.val - T / n| ≤ (G * ((1 + F.u) / (1 - F.u)) - 1) * (A / n) := by
  have hu := F.u_nonneg
  have hu1 : 0 < 1 - F.u := by linarith [F.u_lt_one]
  have hn0 : (0 : ℝ) < n := by exact_mod_cast hn
  refine ⟨_, FR.div_ok (ofNat_ne_zero hn), ?_⟩
  show |F.rnd (s.val / F.rnd n) - T / n| ≤ _
  obtain ⟨ρ, e1, h1⟩ := rnd_eq F (n : ℝ)
  obtain ⟨τ, e2, h2⟩ := rnd_eq F (s.val / F.rnd n)
  have h3 := rel_mul h2 (rel_inv F.u_lt_one h1)
  have e3 : F.rnd (s.val / F.rnd n) = s.val / n * (τ * ρ⁻¹) := by
    rw [e2, e1]
    have hρ : ρ ≠ 0 := by
      rintro rfl
      rw [zero_sub, abs_neg, abs_one] at h1
      linarith
    field_simp
  rw [e3]
  set κ := τ * ρ⁻¹
  rw [← div_eq_mul_inv] at h3
  set H := (1 + F.u) / (1 - F.u)
  have hH0 : 0 ≤ H - 1 := (abs_nonneg _).trans h3
  have hA : 0 ≤ A := (abs_nonneg _).trans hTA
  have e4 : s.val / n * κ - T / n = ((s.val - T) * κ + T * (κ - 1)) / n := by ring
  rw [e4, abs_div, abs_of_pos hn0, ← mul_div_assoc]
  apply div_le_div_of_nonneg_right _ hn0.le
  have hκ : |κ| ≤ H := by
    have := abs_add_le (κ - 1) 1
    rw [sub_add_cancel, abs_one] at this
    linarith
  calc _ ≤ |s.val - T| * |κ| + |T| * |κ - 1| := by
        rw [← abs_mul, ← abs_mul]; exact abs_add_le _ _
    _ ≤ (G - 1) * A * H + A * (H - 1) := by
        gcongr
    _ = _ := by ring

theorem sqrt_within {a : FR F} {lo hi x : ℝ} (hlo : 0 ≤ lo) (hhi : 0 ≤ hi) (h : lo * x ≤ a.val ∧ a.val ≤ hi * x) :
    (1 - F.u) * Real.sqrt lo * Real.sqrt x ≤ a.sqrt.val ∧ a.sqrt.val ≤ (1 + F.u) * Real.sqrt hi * Real.sqrt x :=
  rnd_within F (Real.sqrt_nonneg _) ⟨by rw [← Real.sqrt_mul hlo]; exact Real.sqrt_le_sqrt h.1,
    by rw [← Real.sqrt_mul hhi]; exact Real.sqrt_le_sqrt h.2⟩

/-! ## Means of squared deviations -/

theorem dev_mean {x : List ℝ} (hx : x ≠ []) (c : ℝ) :
    Spec.mean (x.map (fun v => (v - c) ^ 2)) = Spec.variance x + (c - Spec.mean x) ^ 2 := by
  have hl : (x.length : ℝ) ≠ 0 := by
    rw [Nat.cast_ne_zero]; simpa using hx
  have key : ∀ (x : List ℝ) (c : ℝ), (x.map (fun v => (v - c) ^ 2)).sum
      = (x.map (fun v => v ^ 2)).sum - 2 * c * x.sum + x.length * c ^ 2 := by
    intro x c
    induction x with
    | nil => simp
    | cons y ys ih =>
      simp only [List.map_cons, List.sum_cons, ih, List.length_cons]
      push_cast; ring
  unfold Spec.variance
  rw [Spec.mean, Spec.mean.eq_def (x.map _), key, List.length_map, List.length_map, key, Spec.mean]
  field_simp
  ring

end Neo
