import Verif.Model.Stockham
import Verif.Lemmas.Radix
import Verif.Lemmas.Algo
import Mathlib.Analysis.SpecialFunctions.Trigonometric.Bounds
import Mathlib.Analysis.SpecialFunctions.Trigonometric.Basic

/-! # The Stockham plans (decimation in frequency) compute the DFT -/

namespace Neo

open Finset

/-- State of the Stockham iteration after `s` stages of a transform of size `R ^ p`. -/
noncomputable def stockPartial (R p s : ℕ) (ω : ℂ) (X : ℕ → ℂ) (i : ℕ) : ℂ :=
  ∑ t ∈ range (R ^ s), X (i / R ^ s + t * R ^ (p - s)) * ω ^ (i % R ^ s * (i / R ^ s + t * R ^ (p - s)))

theorem stockPartial_zero (R p : ℕ) (ω : ℂ) (X : ℕ → ℂ) (i : ℕ) : stockPartial R p 0 ω X i = X i := by
  simp [stockPartial, Nat.mod_one]

theorem stockPartial_last (R p : ℕ) (ω : ℂ) (X : ℕ → ℂ) {i : ℕ} (hi : i < R ^ p) :
    stockPartial R p p ω X i = Spec.dftRoot (R ^ p) ω X i := by
  unfold stockPartial Spec.dftRoot
  apply sum_congr rfl
  intro t _
  rw [Nat.mod_eq_of_lt hi, Nat.div_eq_of_lt hi]
  simp [Nat.mul_comm]

/-- What one stage leaves at index `i`. -/
noncomputable def stockF (R l m : ℕ) (w ζ : ℂ) (Y : ℕ → ℂ) (i : ℕ) : ℂ :=
  (∑ v ∈ range R, Y (i % m + i / (R * m) * m + v * l * m) * ζ ^ (v * (i / m % R)))
    * w ^ ((i / m % R) * (i / (R * m)))

theorem stockF_stockPartial {R p s : ℕ} (hR : 0 < R) (hs : s < p) (dir : Direction) (X : ℕ → ℂ)
    (i : ℕ) :
    stockF R (R ^ (p - s - 1)) (R ^ s) (root (R * R ^ (p - s - 1)) dir) (root R dir)
      (stockPartial R p s (root (R ^ p) dir) X) i = stockPartial R p (s + 1) (root (R ^ p) dir) X i := by
  have hN : R ^ p ≠ 0 := by positivity
  have hm : 0 < R ^ s := by positivity
  have hω := root_pow_self hN dir
  have hw : root (R * R ^ (p - s - 1)) dir = root (R ^ p) dir ^ R ^ s := by
    have h1 : R * R ^ (p - s - 1) = R ^ (p - s) := by rw [← pow_succ']; congr 1; omega
    have h2 := root_pow_sub (R := R) (b := p) (s := p - s) hR (by omega) dir
    rw [h1, h2]; congr 2; omega
  have hζ : root R dir = root (R ^ p) dir ^ R ^ (p - 1) := by
    have := root_pow_sub (b := p) (s := 1) hR (by omega) dir
    rwa [pow_one] at this
  have hM : R ^ (p - 1) = R ^ s * R ^ (p - s - 1) := by rw [← pow_add]; congr 1; omega
  have hl : R ^ (p - s) = R * R ^ (p - s - 1) := by rw [← pow_succ']; congr 1; omega
  have hn : R ^ p = R ^ s * (R * R ^ (p - s - 1)) := by rw [← hl, ← pow_add]; congr 1; omega
  unfold stockF stockPartial
  rw [hw, hζ, hM]
  generalize root (R ^ p) dir = ω at *
  have hl' : p - (s + 1) = p - s - 1 := by omega
  rw [hl', hl, pow_succ R s, sum_range_mul', sum_comm, sum_mul]
  have hk : i % (R ^ s * R) = i % R ^ s + R ^ s * (i / R ^ s % R) := Nat.mod_mul
  rw [hk, Nat.mul_comm R (R ^ s)]
  set m := R ^ s with hmdef
  set l := R ^ (p - s - 1) with hldef
  set j := i / (m * R) with hjdef
  set u := i / m % R with hudef
  set k := i % m with hkdef
  have hkm : k < m := Nat.mod_lt _ hm
  apply sum_congr rfl
  intro v _
  have e1 : (k + j * m + v * l * m) / m = j + v * l := by
    rw [show k + j * m + v * l * m = m * (j + v * l) + k by ring, Nat.mul_add_div hm,
      Nat.div_eq_of_lt hkm, add_zero]
  have e2 : (k + j * m + v * l * m) % m = k := by
    rw [show k + j * m + v * l * m = m * (j + v * l) + k by ring, Nat.mul_add_mod,
      Nat.mod_eq_of_lt hkm]
  rw [e1, e2, sum_mul, sum_mul]
  apply sum_congr rfl
  intro t _
  have e3 : j + v * l + t * (R * l) = j + (t * R + v) * l := by ring
  rw [e3, mul_assoc, mul_assoc, ← pow_mul, ← pow_mul, ← pow_add, ← pow_add]
  congr 1
  have e4 : (k + m * u) * (j + (t * R + v) * l)
      = k * (j + (t * R + v) * l) + (m * l * (v * u) + m * (u * j)) + m * (R * l) * (u * t) := by ring
  rw [e4, pow_add _ _ (m * (R * l) * (u * t)), pow_mul ω (m * (R * l)), ← hn, hω, one_pow, mul_one,
    pow_add]

/-! ## The loops -/

/-- The innermost block at `(j, k)` writes its `R` elements as the stage should. -/
def IsStockButterfly (R : ℕ) (dir : Direction)
    (body : (l m j k : ℕ) → (y x : List ℂ) → Res (List ℂ)) : Prop :=
  ∀ l m j k, j < l → k < m → R * l * m < 2 ^ 32 → ∀ Y g : ℕ → ℂ,
    body l m j k (vec (R * l * m) Y) (vec (R * l * m) g) = .ok (vec (R * l * m) (fun i =>
      if i / (R * m) = j ∧ i % m = k then
        (∑ v ∈ range R, Y (k + j * m + v * l * m) * root R dir ^ (v * (i / m % R)))
          * root (R * l) dir ^ ((i / m % R) * j) else g i))

theorem forUInt_eq {σ : Type} {n : ℕ} (h : n < 2 ^ 32) (body : ℕ → σ → Res σ) (s : σ) :
    forUInt n body s = forN n body s := by
  unfold forUInt
  rw [if_pos h]

theorem stockStage_vec {R l m : ℕ} (hR : 0 < R) (hm : 0 < m) (hn : R * l * m < 2 ^ 32) (dir : Direction)
    {body : (l m j k : ℕ) → (y x : List ℂ) → Res (List ℂ)} (hbody : IsStockButterfly R dir body)
    (Y g : ℕ → ℂ) :
    forUInt l (fun j x => forN m (fun k x => body l m j k (vec (R * l * m) Y) x) x) (vec (R * l * m) g)
      = .ok (vec (R * l * m) (stockF R l m (root (R * l) dir) (root R dir) Y)) := by
  have hl : l < 2 ^ 32 := by
    have : l * 1 ≤ l * (R * m) := Nat.mul_le_mul_left _ (Nat.mul_pos hR hm)
    have e : R * l * m = l * (R * m) := by ring
    omega
  rw [forUInt_eq hl]
  have hRm : 0 < R * m := Nat.mul_pos hR hm
  apply keyedLoop (k1 := fun i => i / (R * m)) (k2 := fun i => i % m)
    (F := fun _ => stockF R l m (root (R * l) dir) (root R dir) Y) g
  · intro i hi
    rw [Nat.div_lt_iff_lt_mul hRm]
    calc i < R * l * m := hi
      _ = l * (R * m) := by ring
  · intro i _
    exact Nat.mod_lt _ hm
  · intros; rfl
  · intro j hj k hk f
    rw [hbody l m j k hj hk hn]
    congr 1
    apply vec_ext
    intro i _
    by_cases h : i / (R * m) = j ∧ i % m = k
    · rw [if_pos h, if_pos h]
      unfold stockF
      rw [h.1, h.2]
    · rw [if_neg h, if_neg h]

/-- The plans with a correct butterfly compute the DFT; `_work` may hold anything. -/
theorem stockhamLoop_vec {R p : ℕ} (hR : 2 ≤ R) (hn : R ^ p < 2 ^ 32) (dir : Direction)
    {body : (l m j k : ℕ) → (y x : List ℂ) → Res (List ℂ)} (hbody : IsStockButterfly R dir body)
    (X W : ℕ → ℂ) :
    ∃ W', stockhamLoop R p body (vec (R ^ p) X) (vec (R ^ p) W)
      = .ok (vec (R ^ p) (specDft dir (R ^ p) X), vec (R ^ p) W') := by
  unfold stockhamLoop
  dsimp only
  rw [ipow_eq]
  have hp32 : p < 2 ^ 32 := by
    have : p < R ^ p := Nat.lt_pow_self (by omega)
    omega
  rw [forUInt_eq hp32]
  have key := forN_inv (n := p) (body := fun _ (s : (List ℂ × List ℂ) × Nat × Nat) => do
    let y ← copyVec s.1.1 s.1.2
    let x ← forUInt s.2.1 (fun j x => forN s.2.2 (fun k x => body s.2.1 s.2.2 j k y x) x) s.1.1
    pure ((x, y), s.2.1 / R, u32 (s.2.2 * R)))
    (s := ((vec (R ^ p) X, vec (R ^ p) W), R ^ p / R, 1))
    (fun s σ => ∃ W', σ = ((vec (R ^ p) (stockPartial R p s (root (R ^ p) dir) X), vec (R ^ p) W'),
      R ^ p / R ^ (s + 1), u32 (R ^ s))) ?_ ?_
  · obtain ⟨s', e, W', rfl⟩ := key
    refine ⟨W', ?_⟩
    rw [e, bind_ok, pure_eq_ok, vec_ext (fun i (hi : i < R ^ p) =>
      (stockPartial_last R p (root (R ^ p) dir) X hi).trans (dftRoot_dir (R ^ p) dir X i))]
  · refine ⟨W, ?_⟩
    rw [vec_ext (fun i _ => stockPartial_zero R p (root (R ^ p) dir) X i), zero_add, pow_one]
    rfl
  · rintro s hs σ ⟨W', rfl⟩
    have hm : R ^ s < 2 ^ 32 := lt_of_le_of_lt (Nat.pow_le_pow_right (by omega) hs.le) hn
    have hu : u32 (R ^ s) = R ^ s := Nat.mod_eq_of_lt hm
    have hl : R ^ p / R ^ (s + 1) = R ^ (p - s - 1) := by
      rw [Nat.pow_div (by omega) (by omega)]; congr 1
    have hN : R * R ^ (p - s - 1) * R ^ s = R ^ p := by
      rw [← pow_succ', ← pow_add]; congr 1; omega
    refine ⟨_, ?_, stockPartial R p s (root (R ^ p) dir) X, rfl⟩
    dsimp only
    rw [copyVec_eq (by simp), bind_ok]
    have hst := stockStage_vec (R := R) (l := R ^ (p - s - 1)) (m := R ^ s) (by omega) (by positivity)
      (by rw [hN]; exact hn) dir hbody (stockPartial R p s (root (R ^ p) dir) X)
      (stockPartial R p s (root (R ^ p) dir) X)
    rw [hN] at hst
    rw [hl, hu, hst, bind_ok, pure_eq_ok, ← hl, Nat.div_div_eq_div_mul, ← pow_succ, ← pow_succ]
    congr 3
    rw [hl]
    exact vec_ext (fun i _ => stockF_stockPartial (by omega) hs dir X i)

/-! ## Twiddle constants -/

theorem signedI_sq (dir : Direction) : signedI dir ^ 2 = -1 := by
  unfold signedI
  cases dir <;> (rw [sq]; apply Complex.ext <;> simp)

theorem root_pow_cos_sin (N k : ℕ) (dir : Direction) : root N dir ^ k
    = (Real.cos (2 * Real.pi * k / N) : ℂ) + (Real.sin (2 * Real.pi * k / N) : ℂ) * signedI dir := by
  rw [← twiddle_eq]
  unfold twiddle polar signedI
  generalize ht : 2 * Real.pi * (k : ℝ) / (N : ℝ) = θ
  cases dir
  · have e : (-1 : ℝ) * (Real.pi * 2) * k / N = -θ := by rw [← ht]; ring
    simp only [if_true]
    rw [e, Real.cos_neg, Real.sin_neg]
    apply Complex.ext <;> simp [← Complex.ofReal_cos, ← Complex.ofReal_sin, -Complex.ofReal_cos,
      -Complex.ofReal_sin]
  · have e : (1 : ℝ) * (Real.pi * 2) * k / N = θ := by rw [← ht]; ring
    simp only [reduceCtorEq, if_false]
    rw [e]
    apply Complex.ext <;> simp [← Complex.ofReal_cos, ← Complex.ofReal_sin, -Complex.ofReal_cos,
      -Complex.ofReal_sin]

theorem root3_eq (dir : Direction) :
    root 3 dir = -(1 / 2) + (Real.sin (Real.pi / 3) : ℂ) * signedI dir ∧
    root 3 dir ^ 2 = -(1 / 2) - (Real.sin (Real.pi / 3) : ℂ) * signedI dir := by
  have h1 := root_pow_cos_sin 3 1 dir
  have h2 := root_pow_cos_sin 3 2 dir
  have a1 : 2 * Real.pi * ((1 : ℕ) : ℝ) / ((3 : ℕ) : ℝ) = Real.pi - Real.pi / 3 := by push_cast; ring
  have a2 : 2 * Real.pi * ((2 : ℕ) : ℝ) / ((3 : ℕ) : ℝ) = Real.pi / 3 + Real.pi := by push_cast; ring
  rw [a1, Real.cos_pi_sub, Real.sin_pi_sub, pow_one, Real.cos_pi_div_three] at h1
  rw [a2, Real.cos_add_pi, Real.sin_add_pi, Real.cos_pi_div_three] at h2
  rw [h2, h1]
  push_cast
  exact ⟨rfl, by ring⟩

theorem root4_eq (dir : Direction) : root 4 dir = signedI dir := by
  have h1 := root_pow_cos_sin 4 1 dir
  have a1 : 2 * Real.pi * ((1 : ℕ) : ℝ) / ((4 : ℕ) : ℝ) = Real.pi / 2 := by push_cast; ring
  rw [a1, Real.cos_pi_div_two, Real.sin_pi_div_two, pow_one] at h1
  rw [h1]; simp

theorem root8_eq (dir : Direction) :
    root 8 dir = ((Real.sqrt 2 / 2 : ℝ) : ℂ) * (1 + signedI dir) := by
  have h1 := root_pow_cos_sin 8 1 dir
  have a1 : 2 * Real.pi * ((1 : ℕ) : ℝ) / ((8 : ℕ) : ℝ) = Real.pi / 4 := by push_cast; ring
  rw [a1, Real.cos_pi_div_four, Real.sin_pi_div_four, pow_one] at h1
  rw [h1]; ring

theorem sqrt2_sq : ((Real.sqrt 2 / 2 : ℝ) : ℂ) ^ 2 = 1 / 2 := by
  have h : (Real.sqrt 2 / 2) ^ 2 = 1 / 2 := by
    rw [div_pow, Real.sq_sqrt (by norm_num)]; norm_num
  rw [← Complex.ofReal_pow, h]; push_cast; rfl

theorem sin_two_pi_div_five_ne : (Real.sin (2 * Real.pi / 5) : ℂ) ≠ 0 := by
  have : 0 < Real.sin (2 * Real.pi / 5) :=
    Real.sin_pos_of_pos_of_lt_pi (by positivity) (by have := Real.pi_pos; linarith)
  exact_mod_cast this.ne'

theorem cos_two_pi_div_five : Real.cos (2 * Real.pi / 5) = (Real.sqrt 5 - 1) / 4 := by
  have h : 2 * Real.pi / 5 = 2 * (Real.pi / 5) := by ring
  rw [h, Real.cos_two_mul, Real.cos_pi_div_five]
  have h5 : Real.sqrt 5 ^ 2 = 5 := Real.sq_sqrt (by norm_num)
  linear_combination (1 / 8) * h5

theorem root5_eq (dir : Direction) :
    root 5 dir = (((Real.sqrt 5 - 1) / 4 : ℝ) : ℂ) + (Real.sin (2 * Real.pi / 5) : ℂ) * signedI dir ∧
    root 5 dir ^ 2 = -(((1 + Real.sqrt 5) / 4 : ℝ) : ℂ) + (Real.sin (Real.pi / 5) : ℂ) * signedI dir ∧
    root 5 dir ^ 3 = -(((1 + Real.sqrt 5) / 4 : ℝ) : ℂ) - (Real.sin (Real.pi / 5) : ℂ) * signedI dir ∧
    root 5 dir ^ 4 = (((Real.sqrt 5 - 1) / 4 : ℝ) : ℂ) - (Real.sin (2 * Real.pi / 5) : ℂ) * signedI dir := by
  have h1 := root_pow_cos_sin 5 1 dir
  have h2 := root_pow_cos_sin 5 2 dir
  have h3 := root_pow_cos_sin 5 3 dir
  have h4 := root_pow_cos_sin 5 4 dir
  have a1 : 2 * Real.pi * ((1 : ℕ) : ℝ) / ((5 : ℕ) : ℝ) = 2 * Real.pi / 5 := by push_cast; ring
  have a2 : 2 * Real.pi * ((2 : ℕ) : ℝ) / ((5 : ℕ) : ℝ) = Real.pi - Real.pi / 5 := by push_cast; ring
  have a3 : 2 * Real.pi * ((3 : ℕ) : ℝ) / ((5 : ℕ) : ℝ) = Real.pi / 5 + Real.pi := by push_cast; ring
  have a4 : 2 * Real.pi * ((4 : ℕ) : ℝ) / ((5 : ℕ) : ℝ) = 2 * Real.pi - 2 * Real.pi / 5 := by push_cast; ring
  rw [a1, cos_two_pi_div_five, pow_one] at h1
  rw [a2, Real.cos_pi_sub, Real.sin_pi_sub, Real.cos_pi_div_five] at h2
  rw [a3, Real.cos_add_pi, Real.sin_add_pi, Real.cos_pi_div_five] at h3
  rw [a4, Real.cos_two_pi_sub, Real.sin_two_pi_sub, cos_two_pi_div_five] at h4
  rw [h2, h3, h4, h1]
  push_cast
  exact ⟨rfl, rfl, by ring, by ring⟩

/-! ## The butterflies -/

theorem stock_write_bound {R l m j k u : ℕ} (hj : j < l) (hk : k < m) (hu : u < R) :
    j * (R * m) + k + u * m < R * l * m := by
  have h := block_bound (n := R * l * m) (R := R) (L := m) (q := j) hk (by
    calc (j + 1) * (R * m) ≤ l * (R * m) := Nat.mul_le_mul_right _ hj
      _ = R * l * m := by ring) hu
  exact h

theorem stock_read_bound {R l m j k v : ℕ} (hj : j < l) (hk : k < m) (hv : v < R) :
    k + j * m + v * l * m < R * l * m := by
  have h1 : (j + 1) * m ≤ l * m := Nat.mul_le_mul_right _ hj
  have h2 : (v + 1) * (l * m) ≤ R * (l * m) := Nat.mul_le_mul_right _ hv
  have e1 : (j + 1) * m = j * m + m := by ring
  have e2 : (v + 1) * (l * m) = v * l * m + l * m := by ring
  have e3 : R * (l * m) = R * l * m := by ring
  omega

theorem stock_writes {α : Type} {R m n j k : ℕ} (hk : k < m) (hR : 0 < R) (g val : ℕ → α) :
    vec n (updN g (fun u => j * (R * m) + k + u * m) val R)
      = vec n (fun i => if i / (R * m) = j ∧ i % m = k then val (i / m % R) else g i) := by
  rw [butterfly_writes hk hR]
  exact vec_ext (fun i _ => by simp only [and_comm])

theorem stockham3_butterfly (dir : Direction) : IsStockButterfly 3 dir (stockham3Body dir) := by
  intro l m j k hj hk hn Y g
  have hjl : 3 * j ≤ 3 * l := Nat.mul_le_mul_left _ hj.le
  have hlm : 3 * l ≤ 3 * l * m := Nat.le_mul_of_pos_right _ (by omega)
  obtain ⟨P, hP⟩ : ∃ P : ℕ → ℕ, P = fun u => j * (3 * m) + k + u * m := ⟨_, rfl⟩
  obtain ⟨Q, hQ⟩ : ∃ Q : ℕ → ℕ, Q = fun v => k + j * m + v * l * m := ⟨_, rfl⟩
  have hPb : ∀ u < 3, P u < 3 * l * m := by
    intro u hu
    rw [hP]
    have := stock_write_bound (R := 3) hj hk hu
    dsimp only
    exact this
  have hQb : ∀ v < 3, Q v < 3 * l * m := by
    intro v hv
    rw [hQ]
    exact stock_read_bound hj hk hv
  have hq0 := stock_read_bound (R := 3) (v := 0) hj hk (by norm_num)
  rw [zero_mul, zero_mul, add_zero] at hq0
  have p0 : u32 (k + 3 * j * m + 0 * m) = P 0 := by
    have e : k + 3 * j * m + 0 * m = P 0 := by rw [hP]; ring
    rw [e]
    exact Nat.mod_eq_of_lt (lt_trans (hPb 0 (by norm_num)) hn)
  have p1 : u32 (k + 3 * j * m + 1 * m) = P 1 := by
    have e : k + 3 * j * m + 1 * m = P 1 := by rw [hP]; ring
    rw [e]
    exact Nat.mod_eq_of_lt (lt_trans (hPb 1 (by norm_num)) hn)
  have p2 : u32 (k + 3 * j * m + 2 * m) = P 2 := by
    have e : k + 3 * j * m + 2 * m = P 2 := by rw [hP]; ring
    rw [e]
    exact Nat.mod_eq_of_lt (lt_trans (hPb 2 (by norm_num)) hn)
  have q0 : u32 (k + j * m) + 0 * l * m = Q 0 := by
    have e : u32 (k + j * m) = k + j * m := Nat.mod_eq_of_lt (lt_trans hq0 hn)
    rw [e, hQ]
  have q1 : u32 (k + j * m) + 1 * l * m = Q 1 := by
    have e : u32 (k + j * m) = k + j * m := Nat.mod_eq_of_lt (lt_trans hq0 hn)
    rw [e, hQ]
  have q2 : u32 (k + j * m) + 2 * l * m = Q 2 := by
    have e : u32 (k + j * m) = k + j * m := Nat.mod_eq_of_lt (lt_trans hq0 hn)
    rw [e, hQ]
  have t1 : u32 (1 * j) = 1 * j := Nat.mod_eq_of_lt (by omega)
  have t2 : u32 (2 * j) = 2 * j := Nat.mod_eq_of_lt (by omega)
  obtain ⟨V, hV⟩ : ∃ V : ℕ → ℂ, V = fun u => (∑ v ∈ range 3, Y (Q v) * root 3 dir ^ (v * u)) * root (3 * l) dir ^ (u * j) :=
    ⟨_, rfl⟩
  unfold stockham3Body stockham3BodyG exactStock
  dsimp only
  rw [q0, q1, q2, rd_vec_ok (hQb 0 (by norm_num)), rd_vec_ok (hQb 1 (by norm_num)), rd_vec_ok (hQb 2 (by norm_num))]
  simp only [bind_ok, twiddle_eq, t1, t2, p0, p1, p2, Nat.mul_comm l 3]
  have hw := stock_writes (R := 3) (n := 3 * l * m) hk (by norm_num) (j := j) g V
  rw [← hP] at hw
  have goal_eq : vec (3 * l * m) (fun i => if i / (3 * m) = j ∧ i % m = k then
      (∑ v ∈ range 3, Y (k + j * m + v * l * m) * root 3 dir ^ (v * (i / m % 3)))
        * root (3 * l) dir ^ ((i / m % 3) * j) else g i) = vec (3 * l * m) (updN g P V 3) := by
    rw [hw, hV, hQ]
  rw [goal_eq]
  obtain ⟨z1, z2⟩ := root3_eq dir
  have hz := root_pow_self (N := 3) (by norm_num) dir
  have z4 : root 3 dir ^ 4 = root 3 dir := by rw [pow_succ, hz, one_mul]
  rw [wr_updN_first g P V rfl _ (hPb 0 (by norm_num)), bind_ok, wr_updN g P V rfl _ (hPb 1 (by norm_num)), bind_ok, wr_updN g P V rfl _ (hPb 2 (by norm_num))]
  all_goals simp only [hV, sum_range_succ, sum_range_zero, Nat.reduceMul, mul_zero, zero_mul, mul_one, one_mul,
      pow_zero, pow_one, zero_add, z4, z2]
  all_goals try simp only [z1]
  all_goals (push_cast; ring)

theorem stockham4_butterfly (dir : Direction) : IsStockButterfly 4 dir (stockham4Body dir) := by
  intro l m j k hj hk hn Y g
  have hjl : 4 * j ≤ 4 * l := Nat.mul_le_mul_left _ hj.le
  have hlm : 4 * l ≤ 4 * l * m := Nat.le_mul_of_pos_right _ (by omega)
  obtain ⟨P, hP⟩ : ∃ P : ℕ → ℕ, P = fun u => j * (4 * m) + k + u * m := ⟨_, rfl⟩
  obtain ⟨Q, hQ⟩ : ∃ Q : ℕ → ℕ, Q = fun v => k + j * m + v * l * m := ⟨_, rfl⟩
  have hPb : ∀ u < 4, P u < 4 * l * m := by
    intro u hu
    rw [hP]
    have := stock_write_bound (R := 4) hj hk hu
    dsimp only
    exact this
  have hQb : ∀ v < 4, Q v < 4 * l * m := by
    intro v hv
    rw [hQ]
    exact stock_read_bound hj hk hv
  have hq0 := stock_read_bound (R := 4) (v := 0) hj hk (by norm_num)
  rw [zero_mul, zero_mul, add_zero] at hq0
  have p0 : u32 (k + 4 * j * m + 0 * m) = P 0 := by
    have e : k + 4 * j * m + 0 * m = P 0 := by rw [hP]; ring
    rw [e]
    exact Nat.mod_eq_of_lt (lt_trans (hPb 0 (by norm_num)) hn)
  have p1 : u32 (k + 4 * j * m + 1 * m) = P 1 := by
    have e : k + 4 * j * m + 1 * m = P 1 := by rw [hP]; ring
    rw [e]
    exact Nat.mod_eq_of_lt (lt_trans (hPb 1 (by norm_num)) hn)
  have p2 : u32 (k + 4 * j * m + 2 * m) = P 2 := by
    have e : k + 4 * j * m + 2 * m = P 2 := by rw [hP]; ring
    rw [e]
    exact Nat.mod_eq_of_lt (lt_trans (hPb 2 (by norm_num)) hn)
  have p3 : u32 (k + 4 * j * m + 3 * m) = P 3 := by
    have e : k + 4 * j * m + 3 * m = P 3 := by rw [hP]; ring
    rw [e]
    exact Nat.mod_eq_of_lt (lt_trans (hPb 3 (by norm_num)) hn)
  have q0 : u32 (k + j * m) + 0 * l * m = Q 0 := by
    have e : u32 (k + j * m) = k + j * m := Nat.mod_eq_of_lt (lt_trans hq0 hn)
    rw [e, hQ]
  have q1 : u32 (k + j * m) + 1 * l * m = Q 1 := by
    have e : u32 (k + j * m) = k + j * m := Nat.mod_eq_of_lt (lt_trans hq0 hn)
    rw [e, hQ]
  have q2 : u32 (k + j * m) + 2 * l * m = Q 2 := by
    have e : u32 (k + j * m) = k + j * m := Nat.mod_eq_of_lt (lt_trans hq0 hn)
    rw [e, hQ]
  have q3 : u32 (k + j * m) + 3 * l * m = Q 3 := by
    have e : u32 (k + j * m) = k + j * m := Nat.mod_eq_of_lt (lt_trans hq0 hn)
    rw [e, hQ]
  have t1 : u32 (1 * j) = 1 * j := Nat.mod_eq_of_lt (by omega)
  have t2 : u32 (2 * j) = 2 * j := Nat.mod_eq_of_lt (by omega)
  have t3 : u32 (3 * j) = 3 * j := Nat.mod_eq_of_lt (by omega)
  obtain ⟨V, hV⟩ : ∃ V : ℕ → ℂ, V = fun u => (∑ v ∈ range 4, Y (Q v) * root 4 dir ^ (v * u)) * root (4 * l) dir ^ (u * j) :=
    ⟨_, rfl⟩
  unfold stockham4Body stockham4BodyG exactStock
  dsimp only
  rw [q0, q1, q2, q3, rd_vec_ok (hQb 0 (by norm_num)), rd_vec_ok (hQb 1 (by norm_num)), rd_vec_ok (hQb 2 (by norm_num)), rd_vec_ok (hQb 3 (by norm_num))]
  simp only [bind_ok, twiddle_eq, t1, t2, t3, p0, p1, p2, p3, Nat.mul_comm l 4]
  have hw := stock_writes (R := 4) (n := 4 * l * m) hk (by norm_num) (j := j) g V
  rw [← hP] at hw
  have goal_eq : vec (4 * l * m) (fun i => if i / (4 * m) = j ∧ i % m = k then
      (∑ v ∈ range 4, Y (k + j * m + v * l * m) * root 4 dir ^ (v * (i / m % 4)))
        * root (4 * l) dir ^ ((i / m % 4) * j) else g i) = vec (4 * l * m) (updN g P V 4) := by
    rw [hw, hV, hQ]
  rw [goal_eq]
  have z1 := root4_eq dir
  have hI := signedI_sq dir
  have hm : ∀ k, root 4 dir ^ k = root 4 dir ^ (k % 4) := fun k => pow_eq_pow_mod k (root_pow_self (by norm_num) dir)
  have z2 : root 4 dir ^ 2 = -1 := by rw [z1, hI]
  have z3 : root 4 dir ^ 3 = - signedI dir := by rw [pow_succ, z2, z1]; ring
  have z4 : root 4 dir ^ 4 = 1 := root_pow_self (by norm_num) dir
  have z6 : root 4 dir ^ 6 = -1 := (hm 6).trans z2
  have z9 : root 4 dir ^ 9 = signedI dir := ((hm 9).trans (pow_one _)).trans z1
  rw [wr_updN_first g P V rfl _ (hPb 0 (by norm_num)), bind_ok, wr_updN g P V rfl _ (hPb 1 (by norm_num)), bind_ok, wr_updN g P V rfl _ (hPb 2 (by norm_num)), bind_ok, wr_updN g P V rfl _ (hPb 3 (by norm_num))]
  all_goals simp only [hV, sum_range_succ, sum_range_zero, Nat.reduceMul, mul_zero, zero_mul, mul_one, one_mul,
      pow_zero, pow_one, zero_add, z9, z6, z4, z3, z2]
  all_goals try simp only [z1]
  all_goals (ring)

theorem stockham5_butterfly (dir : Direction) : IsStockButterfly 5 dir (stockham5Body dir) := by
  intro l m j k hj hk hn Y g
  have hjl : 5 * j ≤ 5 * l := Nat.mul_le_mul_left _ hj.le
  have hlm : 5 * l ≤ 5 * l * m := Nat.le_mul_of_pos_right _ (by omega)
  obtain ⟨P, hP⟩ : ∃ P : ℕ → ℕ, P = fun u => j * (5 * m) + k + u * m := ⟨_, rfl⟩
  obtain ⟨Q, hQ⟩ : ∃ Q : ℕ → ℕ, Q = fun v => k + j * m + v * l * m := ⟨_, rfl⟩
  have hPb : ∀ u < 5, P u < 5 * l * m := by
    intro u hu
    rw [hP]
    have := stock_write_bound (R := 5) hj hk hu
    dsimp only
    exact this
  have hQb : ∀ v < 5, Q v < 5 * l * m := by
    intro v hv
    rw [hQ]
    exact stock_read_bound hj hk hv
  have hq0 := stock_read_bound (R := 5) (v := 0) hj hk (by norm_num)
  rw [zero_mul, zero_mul, add_zero] at hq0
  have p0 : u32 (k + 5 * j * m + 0 * m) = P 0 := by
    have e : k + 5 * j * m + 0 * m = P 0 := by rw [hP]; ring
    rw [e]
    exact Nat.mod_eq_of_lt (lt_trans (hPb 0 (by norm_num)) hn)
  have p1 : u32 (k + 5 * j * m + 1 * m) = P 1 := by
    have e : k + 5 * j * m + 1 * m = P 1 := by rw [hP]; ring
    rw [e]
    exact Nat.mod_eq_of_lt (lt_trans (hPb 1 (by norm_num)) hn)
  have p2 : u32 (k + 5 * j * m + 2 * m) = P 2 := by
    have e : k + 5 * j * m + 2 * m = P 2 := by rw [hP]; ring
    rw [e]
    exact Nat.mod_eq_of_lt (lt_trans (hPb 2 (by norm_num)) hn)
  have p3 : u32 (k + 5 * j * m + 3 * m) = P 3 := by
    have e : k + 5 * j * m + 3 * m = P 3 := by rw [hP]; ring
    rw [e]
    exact Nat.mod_eq_of_lt (lt_trans (hPb 3 (by norm_num)) hn)
  have p4 : u32 (k + 5 * j * m + 4 * m) = P 4 := by
    have e : k + 5 * j * m + 4 * m = P 4 := by rw [hP]; ring
    rw [e]
    exact Nat.mod_eq_of_lt (lt_trans (hPb 4 (by norm_num)) hn)
  have q0 : u32 (k + j * m) + 0 * l * m = Q 0 := by
    have e : u32 (k + j * m) = k + j * m := Nat.mod_eq_of_lt (lt_trans hq0 hn)
    rw [e, hQ]
  have q1 : u32 (k + j * m) + 1 * l * m = Q 1 := by
    have e : u32 (k + j * m) = k + j * m := Nat.mod_eq_of_lt (lt_trans hq0 hn)
    rw [e, hQ]
  have q2 : u32 (k + j * m) + 2 * l * m = Q 2 := by
    have e : u32 (k + j * m) = k + j * m := Nat.mod_eq_of_lt (lt_trans hq0 hn)
    rw [e, hQ]
  have q3 : u32 (k + j * m) + 3 * l * m = Q 3 := by
    have e : u32 (k + j * m) = k + j * m := Nat.mod_eq_of_lt (lt_trans hq0 hn)
    rw [e, hQ]
  have q4 : u32 (k + j * m) + 4 * l * m = Q 4 := by
    have e : u32 (k + j * m) = k + j * m := Nat.mod_eq_of_lt (lt_trans hq0 hn)
    rw [e, hQ]
  have t1 : u32 (1 * j) = 1 * j := Nat.mod_eq_of_lt (by omega)
  have t2 : u32 (2 * j) = 2 * j := Nat.mod_eq_of_lt (by omega)
  have t3 : u32 (3 * j) = 3 * j := Nat.mod_eq_of_lt (by omega)
  have t4 : u32 (4 * j) = 4 * j := Nat.mod_eq_of_lt (by omega)
  obtain ⟨V, hV⟩ : ∃ V : ℕ → ℂ, V = fun u => (∑ v ∈ range 5, Y (Q v) * root 5 dir ^ (v * u)) * root (5 * l) dir ^ (u * j) :=
    ⟨_, rfl⟩
  unfold stockham5Body stockham5BodyG exactStock
  dsimp only
  rw [q0, q1, q2, q3, q4, rd_vec_ok (hQb 0 (by norm_num)), rd_vec_ok (hQb 1 (by norm_num)), rd_vec_ok (hQb 2 (by norm_num)), rd_vec_ok (hQb 3 (by norm_num)), rd_vec_ok (hQb 4 (by norm_num))]
  simp only [bind_ok, twiddle_eq, t1, t2, t3, t4, p0, p1, p2, p3, p4, Nat.mul_comm l 5]
  have hw := stock_writes (R := 5) (n := 5 * l * m) hk (by norm_num) (j := j) g V
  rw [← hP] at hw
  have goal_eq : vec (5 * l * m) (fun i => if i / (5 * m) = j ∧ i % m = k then
      (∑ v ∈ range 5, Y (k + j * m + v * l * m) * root 5 dir ^ (v * (i / m % 5)))
        * root (5 * l) dir ^ ((i / m % 5) * j) else g i) = vec (5 * l * m) (updN g P V 5) := by
    rw [hw, hV, hQ]
  rw [goal_eq]
  obtain ⟨z1, z2, z3, z4⟩ := root5_eq dir
  have hs := sin_two_pi_div_five_ne
  have h4 : ((4 : ℝ) : ℂ) = 4 := by push_cast; rfl
  have h025 : ((0.25 : ℝ) : ℂ) = 1 / 4 := by norm_num
  have hm : ∀ k, root 5 dir ^ k = root 5 dir ^ (k % 5) := fun k => pow_eq_pow_mod k (root_pow_self (by norm_num) dir)
  have z6 := ((hm 6).trans (pow_one _)).trans z1
  have z8 := (hm 8).trans z3
  have z9 := (hm 9).trans z4
  have z12 := (hm 12).trans z2
  have z16 := ((hm 16).trans (pow_one _)).trans z1
  rw [wr_updN_first g P V rfl _ (hPb 0 (by norm_num)), bind_ok, wr_updN g P V rfl _ (hPb 1 (by norm_num)), bind_ok, wr_updN g P V rfl _ (hPb 2 (by norm_num)), bind_ok, wr_updN g P V rfl _ (hPb 3 (by norm_num)), bind_ok, wr_updN g P V rfl _ (hPb 4 (by norm_num))]
  all_goals simp only [hV, sum_range_succ, sum_range_zero, Nat.reduceMul, mul_zero, zero_mul, mul_one, one_mul,
      pow_zero, pow_one, zero_add, z16, z12, z9, z8, z6, z4, z3, z2]
  all_goals try simp only [z1]
  all_goals try simp only [Complex.ofReal_div, Complex.ofReal_sub, Complex.ofReal_add, Complex.ofReal_one, h4,
      h025]
  all_goals generalize (Real.sin (2 * Real.pi / 5) : ℂ) = s2 at hs ⊢
  all_goals generalize (Real.sin (Real.pi / 5) : ℂ) = s1
  all_goals generalize (Real.sqrt 5 : ℂ) = r5
  all_goals first
    | (field_simp; ring1)
    | ring1

theorem stockham8_butterfly (dir : Direction) : IsStockButterfly 8 dir (stockham8Body dir) := by
  intro l m j k hj hk hn Y g
  have hjl : 8 * j ≤ 8 * l := Nat.mul_le_mul_left _ hj.le
  have hlm : 8 * l ≤ 8 * l * m := Nat.le_mul_of_pos_right _ (by omega)
  obtain ⟨P, hP⟩ : ∃ P : ℕ → ℕ, P = fun u => j * (8 * m) + k + u * m := ⟨_, rfl⟩
  obtain ⟨Q, hQ⟩ : ∃ Q : ℕ → ℕ, Q = fun v => k + j * m + v * l * m := ⟨_, rfl⟩
  have hPb : ∀ u < 8, P u < 8 * l * m := by
    intro u hu
    rw [hP]
    have := stock_write_bound (R := 8) hj hk hu
    dsimp only
    exact this
  have hQb : ∀ v < 8, Q v < 8 * l * m := by
    intro v hv
    rw [hQ]
    exact stock_read_bound hj hk hv
  have hq0 := stock_read_bound (R := 8) (v := 0) hj hk (by norm_num)
  rw [zero_mul, zero_mul, add_zero] at hq0
  have p0 : u32 (k + 8 * j * m + m * 0) = P 0 := by
    have e : k + 8 * j * m + m * 0 = P 0 := by rw [hP]; ring
    rw [e]
    exact Nat.mod_eq_of_lt (lt_trans (hPb 0 (by norm_num)) hn)
  have p1 : u32 (k + 8 * j * m + m * 1) = P 1 := by
    have e : k + 8 * j * m + m * 1 = P 1 := by rw [hP]; ring
    rw [e]
    exact Nat.mod_eq_of_lt (lt_trans (hPb 1 (by norm_num)) hn)
  have p2 : u32 (k + 8 * j * m + m * 2) = P 2 := by
    have e : k + 8 * j * m + m * 2 = P 2 := by rw [hP]; ring
    rw [e]
    exact Nat.mod_eq_of_lt (lt_trans (hPb 2 (by norm_num)) hn)
  have p3 : u32 (k + 8 * j * m + m * 3) = P 3 := by
    have e : k + 8 * j * m + m * 3 = P 3 := by rw [hP]; ring
    rw [e]
    exact Nat.mod_eq_of_lt (lt_trans (hPb 3 (by norm_num)) hn)
  have p4 : u32 (k + 8 * j * m + m * 4) = P 4 := by
    have e : k + 8 * j * m + m * 4 = P 4 := by rw [hP]; ring
    rw [e]
    exact Nat.mod_eq_of_lt (lt_trans (hPb 4 (by norm_num)) hn)
  have p5 : u32 (k + 8 * j * m + m * 5) = P 5 := by
    have e : k + 8 * j * m + m * 5 = P 5 := by rw [hP]; ring
    rw [e]
    exact Nat.mod_eq_of_lt (lt_trans (hPb 5 (by norm_num)) hn)
  have p6 : u32 (k + 8 * j * m + m * 6) = P 6 := by
    have e : k + 8 * j * m + m * 6 = P 6 := by rw [hP]; ring
    rw [e]
    exact Nat.mod_eq_of_lt (lt_trans (hPb 6 (by norm_num)) hn)
  have p7 : u32 (k + 8 * j * m + m * 7) = P 7 := by
    have e : k + 8 * j * m + m * 7 = P 7 := by rw [hP]; ring
    rw [e]
    exact Nat.mod_eq_of_lt (lt_trans (hPb 7 (by norm_num)) hn)
  have q0 : u32 (k + j * m) + 0 * l * m = Q 0 := by
    have e : u32 (k + j * m) = k + j * m := Nat.mod_eq_of_lt (lt_trans hq0 hn)
    rw [e, hQ]
  have q1 : u32 (k + j * m) + 1 * l * m = Q 1 := by
    have e : u32 (k + j * m) = k + j * m := Nat.mod_eq_of_lt (lt_trans hq0 hn)
    rw [e, hQ]
  have q2 : u32 (k + j * m) + 2 * l * m = Q 2 := by
    have e : u32 (k + j * m) = k + j * m := Nat.mod_eq_of_lt (lt_trans hq0 hn)
    rw [e, hQ]
  have q3 : u32 (k + j * m) + 3 * l * m = Q 3 := by
    have e : u32 (k + j * m) = k + j * m := Nat.mod_eq_of_lt (lt_trans hq0 hn)
    rw [e, hQ]
  have q4 : u32 (k + j * m) + 4 * l * m = Q 4 := by
    have e : u32 (k + j * m) = k + j * m := Nat.mod_eq_of_lt (lt_trans hq0 hn)
    rw [e, hQ]
  have q5 : u32 (k + j * m) + 5 * l * m = Q 5 := by
    have e : u32 (k + j * m) = k + j * m := Nat.mod_eq_of_lt (lt_trans hq0 hn)
    rw [e, hQ]
  have q6 : u32 (k + j * m) + 6 * l * m = Q 6 := by
    have e : u32 (k + j * m) = k + j * m := Nat.mod_eq_of_lt (lt_trans hq0 hn)
    rw [e, hQ]
  have q7 : u32 (k + j * m) + 7 * l * m = Q 7 := by
    have e : u32 (k + j * m) = k + j * m := Nat.mod_eq_of_lt (lt_trans hq0 hn)
    rw [e, hQ]
  have t1 : u32 (1 * j) = 1 * j := Nat.mod_eq_of_lt (by omega)
  have t2 : u32 (2 * j) = 2 * j := Nat.mod_eq_of_lt (by omega)
  have t3 : u32 (3 * j) = 3 * j := Nat.mod_eq_of_lt (by omega)
  have t4 : u32 (4 * j) = 4 * j := Nat.mod_eq_of_lt (by omega)
  have t5 : u32 (5 * j) = 5 * j := Nat.mod_eq_of_lt (by omega)
  have t6 : u32 (6 * j) = 6 * j := Nat.mod_eq_of_lt (by omega)
  have t7 : u32 (7 * j) = 7 * j := Nat.mod_eq_of_lt (by omega)
  obtain ⟨V, hV⟩ : ∃ V : ℕ → ℂ, V = fun u => (∑ v ∈ range 8, Y (Q v) * root 8 dir ^ (v * u)) * root (8 * l) dir ^ (u * j) :=
    ⟨_, rfl⟩
  unfold stockham8Body stockham8BodyG exactStock
  dsimp only
  rw [q0, q1, q2, q3, q4, q5, q6, q7, rd_vec_ok (hQb 0 (by norm_num)), rd_vec_ok (hQb 1 (by norm_num)), rd_vec_ok (hQb 2 (by norm_num)), rd_vec_ok (hQb 3 (by norm_num)), rd_vec_ok (hQb 4 (by norm_num)), rd_vec_ok (hQb 5 (by norm_num)), rd_vec_ok (hQb 6 (by norm_num)), rd_vec_ok (hQb 7 (by norm_num))]
  simp only [bind_ok, twiddle_eq, t1, t2, t3, t4, t5, t6, t7, p0, p1, p2, p3, p4, p5, p6, p7, Nat.mul_comm l 8]
  have hw := stock_writes (R := 8) (n := 8 * l * m) hk (by norm_num) (j := j) g V
  rw [← hP] at hw
  have goal_eq : vec (8 * l * m) (fun i => if i / (8 * m) = j ∧ i % m = k then
      (∑ v ∈ range 8, Y (k + j * m + v * l * m) * root 8 dir ^ (v * (i / m % 8)))
        * root (8 * l) dir ^ ((i / m % 8) * j) else g i) = vec (8 * l * m) (updN g P V 8) := by
    rw [hw, hV, hQ]
  rw [goal_eq]
  have z1 := root8_eq dir
  have hI := signedI_sq dir
  have hr := sqrt2_sq
  have hm : ∀ k, root 8 dir ^ k = root 8 dir ^ (k % 8) := fun k => pow_eq_pow_mod k (root_pow_self (by norm_num) dir)
  have z0 : root 8 dir ^ 0 = 1 := pow_zero _
  have z1' : root 8 dir ^ 1 = ((Real.sqrt 2 / 2 : ℝ) : ℂ) * (1 + signedI dir) := by rw [pow_one, z1]
  have z2 : root 8 dir ^ 2 = signedI dir := by
    rw [z1]
    linear_combination (1 + signedI dir) ^ 2 * hr + (1 / 2 : ℂ) * hI
  have z3 : root 8 dir ^ 3 = ((Real.sqrt 2 / 2 : ℝ) : ℂ) * (signedI dir - 1) := by
    rw [pow_succ, z2, z1]
    linear_combination ((Real.sqrt 2 / 2 : ℝ) : ℂ) * hI
  have z4 : root 8 dir ^ 4 = -1 := by rw [show 4 = 2 * 2 from rfl, pow_mul, z2, hI]
  have z5 : root 8 dir ^ 5 = -(((Real.sqrt 2 / 2 : ℝ) : ℂ) * (1 + signedI dir)) := by rw [pow_succ, z4, z1]; ring
  have z6 : root 8 dir ^ 6 = -signedI dir := by rw [show 6 = 4 + 2 from rfl, pow_add, z4, z2]; ring
  have z7 : root 8 dir ^ 7 = -(((Real.sqrt 2 / 2 : ℝ) : ℂ) * (signedI dir - 1)) := by rw [show 7 = 4 + 3 from rfl, pow_add, z4, z3]; ring
  have z8 := (hm 8).trans z0
  have z9 := (hm 9).trans z1'
  have z10 := (hm 10).trans z2
  have z12 := (hm 12).trans z4
  have z14 := (hm 14).trans z6
  have z15 := (hm 15).trans z7
  have z16 := (hm 16).trans z0
  have z18 := (hm 18).trans z2
  have z20 := (hm 20).trans z4
  have z21 := (hm 21).trans z5
  have z24 := (hm 24).trans z0
  have z25 := (hm 25).trans z1'
  have z28 := (hm 28).trans z4
  have z30 := (hm 30).trans z6
  have z35 := (hm 35).trans z3
  have z36 := (hm 36).trans z4
  have z42 := (hm 42).trans z2
  have z49 := (hm 49).trans z1'
  rw [wr_updN_first g P V rfl _ (hPb 0 (by norm_num)), bind_ok, wr_updN g P V rfl _ (hPb 1 (by norm_num)), bind_ok, wr_updN g P V rfl _ (hPb 2 (by norm_num)), bind_ok, wr_updN g P V rfl _ (hPb 3 (by norm_num)), bind_ok, wr_updN g P V rfl _ (hPb 4 (by norm_num)), bind_ok, wr_updN g P V rfl _ (hPb 5 (by norm_num)), bind_ok, wr_updN g P V rfl _ (hPb 6 (by norm_num)), bind_ok, wr_updN g P V rfl _ (hPb 7 (by norm_num))]
  all_goals simp only [hV, sum_range_succ, sum_range_zero, Nat.reduceMul, mul_zero, zero_mul, mul_one, one_mul,
      pow_zero, pow_one, zero_add, z49, z42, z36, z35, z30, z28, z25, z24, z21, z20, z18, z16, z15, z14, z12, z10, z9, z8, z7, z6, z5, z4, z3, z2]
  all_goals try simp only [z1]
  all_goals (ring)

end Neo
