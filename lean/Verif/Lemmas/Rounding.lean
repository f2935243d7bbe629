import Verif.Lemmas.Dit2
import Verif.Lemmas.Root
import Verif.Model.Rounding
import Verif.Spec.Norm
import Mathlib.Analysis.InnerProductSpace.PiL2
import Mathlib.Analysis.SpecialFunctions.Trigonometric.Bounds

/-! # Rounding errors of the radix-2 kernels -/

namespace Neo

open Finset

/-! ## The kernels as a sequence of stages, without any algebraic law -/

section run
variable {R : Type} [Add R] [Sub R] [Mul R]

/-- State after `s` stages of the radix-2 kernels with twiddle table `w`. -/
def ditRun (b : ℕ) (w f : ℕ → R) : ℕ → ℕ → R
  | 0 => f
  | s + 1 =>
    if s = 0 then pairStage 1 (fun _ a b => a + b) (fun _ a b => a - b) f
    else pairStage (2 ^ s) (fun p x y => x + w (p * 2 ^ (b - s - 1)) * y)
      (fun p x y => x - w (p * 2 ^ (b - s - 1)) * y) (ditRun b w f s)

theorem dit2Stage0_run {b : ℕ} (hb : 1 ≤ b) (w f : ℕ → R) :
    dit2Stage0 (vec (2 ^ b) f) = .ok (vec (2 ^ b) (ditRun b w f 1)) := by
  unfold dit2Stage0
  rw [length_vec]
  have hn : 2 ^ b = 2 ^ (b - 1) * (2 * 1) := two_pow_split (s := 0) (by omega)
  have key := pair_loop (α := R) (n := 2 ^ b) (L := 1) hn (by norm_num) (fun _ a b => a + b)
    (fun _ a b => a - b) (fun k _ x => butterfly0 x k (k + 1)) ?_ f
  · have e : ∀ k (x : List R), forN 1 (fun _ x => butterfly0 x k (k + 1)) x
        = butterfly0 x k (k + 1) := fun k x => rfl
    simp only [e] at key
    exact key
  · intro k p f hp hlt
    have : p = 0 := by omega
    subst this
    have h1 : k < 2 ^ b := by omega
    unfold butterfly0
    simp only [rd_vec_ok h1, rd_vec_ok (show k + 1 < 2 ^ b by omega), bind_ok,
      wr_vec_ok h1, wr_vec_ok (show k + 1 < 2 ^ b by omega), add_zero]
    congr 1
    apply vec_ext
    intro m hm
    by_cases h3 : m = k
    · subst h3; simp
    · by_cases h4 : m = k + 1
      · subst h4; simp
      · simp [h3, h4]

theorem ditRun_succ {b s : ℕ} (hs : 1 ≤ s) (w f : ℕ → R) : ditRun b w f (s + 1)
    = pairStage (2 ^ s) (fun p x y => x + w (p * 2 ^ (b - s - 1)) * y)
      (fun p x y => x - w (p * 2 ^ (b - s - 1)) * y) (ditRun b w f s) := by
  conv_lhs => unfold ditRun
  rw [if_neg (by omega)]

theorem dit2_tw_run {b s : ℕ} (h1 : 1 ≤ s) (hs : s < b) (w f : ℕ → R) :
    forStep (2 ^ b) (2 * 2 ^ s) (fun k x => forN (2 ^ s) (fun p x => do
        let tw ← rd (vec (2 ^ (b - 1)) w) (p * 2 ^ (b - s - 1))
        butterflyTw x tw (k + p) (k + p + 2 ^ s)) x) (vec (2 ^ b) (ditRun b w f s))
      = .ok (vec (2 ^ b) (ditRun b w f (s + 1))) := by
  have hn := two_pow_split hs
  rw [ditRun_succ h1]
  apply pair_loop hn (by positivity)
  intro k p g hp hlt
  rw [rd_vec_ok (tw_index_lt hs hp), bind_ok, butterflyTw_vec (by omega) hlt]

theorem dit2Stage_run {b s : ℕ} (h1 : 1 ≤ s) (hs : s < b) (w f : ℕ → R) :
    dit2Stage (vec (2 ^ (b - 1)) w) (2 ^ b) b s (vec (2 ^ b) (ditRun b w f s))
      = .ok (vec (2 ^ b) (ditRun b w f (s + 1))) := by
  unfold dit2Stage
  simp only [ipow_eq]
  rw [show 2 ^ (s + 1) = 2 * 2 ^ s by rw [pow_succ]; ring]
  exact dit2_tw_run h1 hs w f

theorem dit2V3_run {b : ℕ} (hb : 1 ≤ b) (w f : ℕ → R) :
    dit2V3 (vec (2 ^ b) f) (vec (2 ^ (b - 1)) w) = .ok (vec (2 ^ b) (ditRun b w f b)) := by
  unfold dit2V3
  simp only [length_vec, bitLog2_two_pow, dit2Stage0_run hb w, bind_ok]
  apply forR_eq' (fun s => vec (2 ^ b) (ditRun b w f s)) hb rfl rfl
  intro s h1 h2
  exact dit2Stage_run h1 h2 w f

theorem dit2V1_run {b : ℕ} (hb : 1 ≤ b) (w f : ℕ → R) :
    dit2V1 (vec (2 ^ b) f) (vec (2 ^ (b - 1)) w) = .ok (vec (2 ^ b) (ditRun b w f b)) := by
  unfold dit2V1
  simp only [length_vec, bitLog2_two_pow, dit2Stage0_run hb w, bind_ok]
  rw [forR_eq' (s := (vec (2 ^ b) (ditRun b w f 1), 2, 4))
    (s' := (vec (2 ^ b) (ditRun b w f b), 2 ^ b, 2 * 2 ^ b))
    (fun s => (vec (2 ^ b) (ditRun b w f s), 2 ^ s, 2 * 2 ^ s)) hb rfl rfl]
  · simp only [bind_ok, pure_eq_ok]
  · intro s h1 h2
    simp only [ipow_eq]
    rw [dit2_tw_run h1 h2 w f]
    simp only [bind_ok, pure_eq_ok]
    rw [pow_succ]
    congr 3
    ring

theorem dit2V2Loop_run (hc : ∀ x y : R, x * y = y * x) {b : ℕ} (w f : ℕ → R)
    (fuel s : ℕ) (hs1 : 1 ≤ s) (hs : s ≤ b) (hf : b - s < fuel) :
    dit2V2Loop (vec (2 ^ (b - 1)) w) (2 ^ b) fuel (2 * 2 ^ s) (vec (2 ^ b) (ditRun b w f s))
      = .ok (vec (2 ^ b) (ditRun b w f b)) := by
  induction fuel generalizing s with
  | zero => omega
  | succ fuel ih =>
    unfold dit2V2Loop
    by_cases h : s = b
    · subst h
      have : 0 < 2 ^ s := by positivity
      rw [if_neg (by omega)]; rfl
    · have hlt : s < b := by omega
      have hle : 2 * 2 ^ s ≤ 2 ^ b := by
        rw [← pow_succ']; exact Nat.pow_le_pow_right (by norm_num) hlt
      rw [if_pos hle]
      have hh : 2 * 2 ^ s / 2 = 2 ^ s := by omega
      have hk : 2 ^ b / (2 * 2 ^ s) = 2 ^ (b - s - 1) := by
        rw [two_pow_split hlt, Nat.mul_div_cancel _ (by positivity)]
      simp only [hh, hk]
      have hn := two_pow_split hlt
      have key := pair_loop (α := R) hn (by positivity) (fun p x y => x + w (p * 2 ^ (b - s - 1)) * y)
        (fun p x y => x - w (p * 2 ^ (b - s - 1)) * y)
        (fun k p x => do
          let tw ← rd (vec (2 ^ (b - 1)) w) ((k + p - k) * 2 ^ (b - s - 1))
          let even ← rd x (k + p)
          let odd ← rd x (k + p + 2 ^ s)
          let x ← wr x (k + p) (even + odd * tw)
          wr x (k + p + 2 ^ s) (even - odd * tw)) ?_ (ditRun b w f s)
      · have e : ∀ k, k + 2 ^ s - k = 2 ^ s := fun k => by omega
        simp only [forR, e]
        rw [key, bind_ok, ← ditRun_succ hs1, show 2 * 2 ^ s * 2 = 2 * 2 ^ (s + 1) by rw [pow_succ]; ring]
        exact ih (s + 1) (by omega) (by omega) (by omega)
      · intro k p f hp hl
        have h1 : k + p < 2 ^ b := by omega
        simp only [Nat.add_sub_cancel_left]
        rw [rd_vec_ok (tw_index_lt hlt hp)]
        simp only [bind_ok, rd_vec_ok h1, rd_vec_ok hl, wr_vec_ok h1, wr_vec_ok hl]
        congr 1
        apply vec_ext
        intro m hm
        by_cases h3 : m = k + p
        · subst h3
          have : k + p ≠ k + p + 2 ^ s := by have : 0 < 2 ^ s := by positivity
                                             omega
          rw [Function.update_of_ne this, Function.update_self, if_pos rfl, hc]
        · by_cases h4 : m = k + p + 2 ^ s
          · subst h4; simp [hc]
          · simp [h3, h4]

theorem dit2V2_run (hc : ∀ x y : R, x * y = y * x) {b : ℕ} (hb : 1 ≤ b) (w f : ℕ → R) :
    dit2V2 (vec (2 ^ b) f) (vec (2 ^ (b - 1)) w) = .ok (vec (2 ^ b) (ditRun b w f b)) := by
  unfold dit2V2
  have hf : b < 2 ^ b := Nat.lt_two_pow_self
  simp only [length_vec, dit2Stage0_run hb w, bind_ok]
  have := dit2V2Loop_run hc w f (2 ^ b + 1) 1 le_rfl hb (by omega)
  rw [show (4 : ℕ) = 2 * 2 ^ 1 by norm_num, this]

theorem dit2V4_run {b : ℕ} (hb : 2 ≤ b) (w f : ℕ → R) :
    dit2V4 (vec (2 ^ b) f) (vec (2 ^ (b - 1)) w) = .ok (vec (2 ^ b) (ditRun b w f b)) := by
  unfold dit2V4
  simp only [length_vec, bitLog2_two_pow, dit2Stage0_run (by omega : 1 ≤ b) w, bind_ok]
  rw [if_neg (by omega), forR_eq' (s' := vec (2 ^ b) (ditRun b w f (b - 1)))
    (fun s => vec (2 ^ b) (ditRun b w f s)) (by omega) rfl rfl]
  · rw [bind_ok]
    have hlast := dit2_tw_run (b := b) (s := b - 1) (by omega) (by omega) w f
    have h1 : b - (b - 1) - 1 = 0 := by omega
    have h2 : 2 ^ b = 2 * 2 ^ (b - 1) := by rw [← pow_succ']; congr 1; omega
    have h3 : 2 ^ b / 2 = 2 ^ (b - 1) := by omega
    have h4 : b - 1 + 1 = b := by omega
    rw [h1, h4] at hlast
    have hstep : ∀ (body : ℕ → List R → Res (List R)) (x : List R),
        forStep (2 ^ b) (2 * 2 ^ (b - 1)) body x = body 0 x := by
      intro body x
      rw [← h2]
      have := forStep_mul 1 (2 ^ b) (by positivity) body x
      rw [one_mul] at this
      rw [this, forN_succ, forN_zero, bind_ok, zero_mul]
    rw [hstep] at hlast
    simp only [pow_zero, mul_one, zero_add] at hlast
    rw [h3, hlast]
  · intro s h1 h2
    exact dit2Stage_run h1 (by omega) w f

end run

/-! ## Euclidean norm -/

theorem l2_eq_norm (N : ℕ) (f : ℕ → ℂ) :
    Spec.l2 N f = ‖(WithLp.toLp 2 (fun i : Fin N => f i) : EuclideanSpace ℂ (Fin N))‖ := by
  rw [EuclideanSpace.norm_eq]
  unfold Spec.l2
  rw [← Fin.sum_univ_eq_sum_range (fun i => ‖f i‖ ^ 2)]

theorem l2_nonneg (N : ℕ) (f : ℕ → ℂ) : 0 ≤ Spec.l2 N f := Real.sqrt_nonneg _

theorem l2_sq (N : ℕ) (f : ℕ → ℂ) : Spec.l2 N f ^ 2 = ∑ n ∈ range N, ‖f n‖ ^ 2 :=
  Real.sq_sqrt (sum_nonneg (fun _ _ => by positivity))

theorem l2_add_le (N : ℕ) (f g : ℕ → ℂ) : Spec.l2 N (fun i => f i + g i) ≤ Spec.l2 N f + Spec.l2 N g := by
  rw [l2_eq_norm, l2_eq_norm, l2_eq_norm]
  have h := norm_add_le (WithLp.toLp 2 (fun i : Fin N => f i) : EuclideanSpace ℂ (Fin N))
    (WithLp.toLp 2 (fun i : Fin N => g i))
  rw [← WithLp.toLp_add] at h
  exact h

theorem l2_congr {N : ℕ} {f g : ℕ → ℂ} (h : ∀ i < N, f i = g i) : Spec.l2 N f = Spec.l2 N g := by
  unfold Spec.l2
  congr 1
  exact sum_congr rfl (fun i hi => by rw [h i (mem_range.1 hi)])

theorem l2_le_of_sq {N : ℕ} {f : ℕ → ℂ} {c : ℝ} (hc : 0 ≤ c) (h : ∑ n ∈ range N, ‖f n‖ ^ 2 ≤ c ^ 2) :
    Spec.l2 N f ≤ c := by
  unfold Spec.l2
  exact Real.sqrt_le_iff.2 ⟨hc, h⟩

/-- Triangle inequality in the form used below. -/
theorem l2_sub_le (N : ℕ) (f g h : ℕ → ℂ) :
    Spec.l2 N (fun i => f i - h i) ≤ Spec.l2 N (fun i => f i - g i) + Spec.l2 N (fun i => g i - h i) := by
  rw [l2_congr (g := fun i => (f i - g i) + (g i - h i)) (fun i _ => by ring)]
  exact l2_add_le _ _ _

/-! ## Sums over the pairs of a stage -/

theorem sum_pairs {M : Type} [AddCommMonoid M] {n L m : ℕ} (hn : n = m * (2 * L)) (φ : ℕ → M) :
    ∑ i ∈ range n, φ i = ∑ q ∈ range m, ∑ p ∈ range L, (φ (q * (2 * L) + p) + φ (q * (2 * L) + p + L)) := by
  rw [hn, sum_range_mul']
  apply sum_congr rfl
  intro q _
  rw [two_mul, sum_range_add, sum_add_distrib]
  congr 1
  apply sum_congr rfl
  intro p _
  congr 1
  omega

theorem pairStage_lo {α : Type} {L q p : ℕ} (hp : p < L) (g h : ℕ → α → α → α) (f : ℕ → α) :
    pairStage L g h f (q * (2 * L) + p) = g p (f (q * (2 * L) + p)) (f (q * (2 * L) + p + L)) := by
  obtain ⟨-, h2, h3⟩ := (index_decomp (i := q * (2 * L) + p) (q := q) hp (by norm_num : 0 < 2)).1 (by omega)
  unfold pairStage
  rw [if_pos h3, h2]

theorem pairStage_hi {α : Type} {L q p : ℕ} (hp : p < L) (g h : ℕ → α → α → α) (f : ℕ → α) :
    pairStage L g h f (q * (2 * L) + p + L) = h p (f (q * (2 * L) + p)) (f (q * (2 * L) + p + L)) := by
  obtain ⟨-, h2, h3⟩ := (index_decomp (i := q * (2 * L) + p + L) (q := q) hp (by norm_num : 1 < 2)).1 (by omega)
  unfold pairStage
  rw [if_neg (by omega), h2, Nat.add_sub_cancel]

/-! ## Errors of the rounded complex operations -/

theorem norm_le_of_parts {z w : ℂ} {c : ℝ} (hc : 0 ≤ c) (h1 : |z.re| ≤ c * |w.re|) (h2 : |z.im| ≤ c * |w.im|) :
    ‖z‖ ≤ c * ‖w‖ := by
  apply (sq_le_sq₀ (norm_nonneg _) (by positivity)).1
  rw [mul_pow, Complex.sq_norm, Complex.sq_norm, Complex.normSq_apply, Complex.normSq_apply]
  have a := mul_self_le_mul_self (abs_nonneg _) h1
  have b := mul_self_le_mul_self (abs_nonneg _) h2
  rw [abs_mul_abs_self] at a b
  have a' : c * |w.re| * (c * |w.re|) = c ^ 2 * (w.re * w.re) := by rw [← abs_mul_abs_self w.re]; ring
  have b' : c * |w.im| * (c * |w.im|) = c ^ 2 * (w.im * w.im) := by rw [← abs_mul_abs_self w.im]; ring
  linarith

namespace FC
variable {F : Rounding}

theorem add_err (a b : FC F) : ‖(a + b).val - (a.val + b.val)‖ ≤ F.u * ‖a.val + b.val‖ :=
  norm_le_of_parts F.u_nonneg (F.rnd_err (a.re + b.re)) (F.rnd_err (a.im + b.im))

theorem sub_err (a b : FC F) : ‖(a - b).val - (a.val - b.val)‖ ≤ F.u * ‖a.val - b.val‖ :=
  norm_le_of_parts F.u_nonneg (F.rnd_err (a.re - b.re)) (F.rnd_err (a.im - b.im))

theorem mul_comm' (a b : FC F) : a * b = b * a := by
  show FC.mk _ _ = FC.mk _ _
  rw [mul_comm a.re b.re, mul_comm a.im b.im, mul_comm a.re b.im, mul_comm a.im b.re, add_comm]

/-- Error of `rnd (rnd p ± rnd q)`. -/
theorem two_prod_err (p q : ℝ) :
    |F.rnd (F.rnd p - F.rnd q) - (p - q)| ≤ (2 * F.u + F.u ^ 2) * (|p| + |q|) := by
  have h0 := F.u_nonneg
  have h1 := F.rnd_err p
  have h2 := F.rnd_err q
  have h3 := F.rnd_err (F.rnd p - F.rnd q)
  have h4 : |F.rnd p - F.rnd q| ≤ (1 + F.u) * (|p| + |q|) := by
    calc |F.rnd p - F.rnd q| = |(F.rnd p - p) + (p - q) + (q - F.rnd q)| := by congr 1; ring
      _ ≤ |F.rnd p - p| + |p - q| + |q - F.rnd q| := abs_add_three _ _ _
      _ ≤ F.u * |p| + (|p| + |q|) + F.u * |q| := by
        rw [abs_sub_comm q]
        have := abs_sub p q
        linarith
      _ = _ := by ring
  calc |F.rnd (F.rnd p - F.rnd q) - (p - q)|
      = |(F.rnd (F.rnd p - F.rnd q) - (F.rnd p - F.rnd q)) + (F.rnd p - p) + (q - F.rnd q)| := by
        congr 1; ring
    _ ≤ _ := abs_add_three _ _ _
    _ ≤ F.u * ((1 + F.u) * (|p| + |q|)) + F.u * |p| + F.u * |q| := by
      rw [abs_sub_comm q]
      have := mul_le_mul_of_nonneg_left h4 h0
      linarith
    _ = _ := by ring

theorem two_prod_err' (p q : ℝ) :
    |F.rnd (F.rnd p + F.rnd q) - (p + q)| ≤ (2 * F.u + F.u ^ 2) * (|p| + |q|) := by
  have h0 := F.u_nonneg
  have h1 := F.rnd_err p
  have h2 := F.rnd_err q
  have h3 := F.rnd_err (F.rnd p + F.rnd q)
  have h4 : |F.rnd p + F.rnd q| ≤ (1 + F.u) * (|p| + |q|) := by
    calc |F.rnd p + F.rnd q| = |(F.rnd p - p) + (p + q) + (F.rnd q - q)| := by congr 1; ring
      _ ≤ |F.rnd p - p| + |p + q| + |F.rnd q - q| := abs_add_three _ _ _
      _ ≤ F.u * |p| + (|p| + |q|) + F.u * |q| := by
        have := abs_add_le p q
        linarith
      _ = _ := by ring
  calc |F.rnd (F.rnd p + F.rnd q) - (p + q)|
      = |(F.rnd (F.rnd p + F.rnd q) - (F.rnd p + F.rnd q)) + (F.rnd p - p) + (F.rnd q - q)| := by
        congr 1; ring
    _ ≤ _ := abs_add_three _ _ _
    _ ≤ F.u * ((1 + F.u) * (|p| + |q|)) + F.u * |p| + F.u * |q| := by
      have := mul_le_mul_of_nonneg_left h4 h0
      linarith
    _ = _ := by ring

/-- A rounded complex product has relative error at most `√2 (2u + u²)`. -/
theorem mul_err (a b : FC F) :
    ‖(a * b).val - a.val * b.val‖ ≤ Real.sqrt 2 * (2 * F.u + F.u ^ 2) * (‖a.val‖ * ‖b.val‖) := by
  have h0 := F.u_nonneg
  set e := 2 * F.u + F.u ^ 2 with he
  have he0 : 0 ≤ e := by positivity
  apply (sq_le_sq₀ (norm_nonneg _) (by positivity)).1
  have h1 : |((a * b).val - a.val * b.val).re| ≤ e * (|a.re * b.re| + |a.im * b.im|) :=
    two_prod_err (a.re * b.re) (a.im * b.im)
  have h2 : |((a * b).val - a.val * b.val).im| ≤ e * (|a.re * b.im| + |a.im * b.re|) :=
    two_prod_err' (a.re * b.im) (a.im * b.re)
  generalize (a * b).val - a.val * b.val = z at h1 h2
  rw [mul_pow, mul_pow, mul_pow, Complex.sq_norm, Complex.sq_norm, Complex.sq_norm, Complex.normSq_apply,
    Complex.normSq_apply, Complex.normSq_apply, Real.sq_sqrt (by norm_num)]
  have a1 := mul_self_le_mul_self (abs_nonneg _) h1
  have a2 := mul_self_le_mul_self (abs_nonneg _) h2
  rw [abs_mul_abs_self] at a1 a2
  rw [abs_mul, abs_mul] at a1 a2
  show _ ≤ 2 * e ^ 2 * ((a.re * a.re + a.im * a.im) * (b.re * b.re + b.im * b.im))
  rw [← abs_mul_abs_self a.re, ← abs_mul_abs_self a.im, ← abs_mul_abs_self b.re, ← abs_mul_abs_self b.im]
  generalize |a.re| = p at *
  generalize |a.im| = q at *
  generalize |b.re| = r at *
  generalize |b.im| = s at *
  have k : (p * r + q * s) * (p * r + q * s) + (p * s + q * r) * (p * s + q * r)
      ≤ 2 * ((p * p + q * q) * (r * r + s * s)) := by
    nlinarith [sq_nonneg (p * r - q * s), sq_nonneg (p * s - q * r)]
  have := mul_le_mul_of_nonneg_left k (sq_nonneg e)
  nlinarith

end FC

/-! ## Error of one stage -/

theorem two_errs {e1 e2 u v A1 A2 a B : ℝ} (he1 : 0 ≤ e1) (he2 : 0 ≤ e2) (hA1 : 0 ≤ A1) (hA2 : 0 ≤ A2)
    (hB : 0 ≤ B) (hu : 0 ≤ u) (hv : 0 ≤ v) (hpar : A1 ^ 2 + A2 ^ 2 = 2 * (a ^ 2 + B ^ 2))
    (h1 : e1 ≤ u * A1 + v * B) (h2 : e2 ≤ u * A2 + v * B) :
    e1 ^ 2 + e2 ^ 2 ≤ 2 * (u + v) ^ 2 * (a ^ 2 + B ^ 2) := by
  have k1 := pow_le_pow_left₀ he1 h1 2
  have k2 := pow_le_pow_left₀ he2 h2 2
  have k3 : B * (A1 + A2) ≤ 2 * (a ^ 2 + B ^ 2) := by
    nlinarith [sq_nonneg (B - A1), sq_nonneg (B - A2), sq_nonneg a]
  have k4 := mul_le_mul_of_nonneg_left k3 (mul_nonneg hu hv)
  have k5 : v ^ 2 * B ^ 2 ≤ v ^ 2 * (a ^ 2 + B ^ 2) := by
    have := mul_nonneg (sq_nonneg v) (sq_nonneg a)
    linarith
  have k6 : (u * A1 + v * B) ^ 2 + (u * A2 + v * B) ^ 2
      = u ^ 2 * (A1 ^ 2 + A2 ^ 2) + 2 * (u * v * (B * (A1 + A2))) + 2 * (v ^ 2 * B ^ 2) := by ring
  rw [hpar] at k6
  calc e1 ^ 2 + e2 ^ 2 ≤ u ^ 2 * (2 * (a ^ 2 + B ^ 2)) + 2 * (u * v * (2 * (a ^ 2 + B ^ 2)))
        + 2 * (v ^ 2 * (a ^ 2 + B ^ 2)) := by linarith
    _ = _ := by ring

/-- Error of a rounded two-point operation with twiddle error: both results together. -/
theorem butterfly_err {F : Rounding} (a b w : FC F) (ω : ℂ) {τ : ℝ} (hω : ‖ω‖ = 1) (hτ : ‖w.val - ω‖ ≤ τ) :
    ‖(a + w * b).val - (a.val + ω * b.val)‖ ^ 2 + ‖(a - w * b).val - (a.val - ω * b.val)‖ ^ 2
      ≤ 2 * (F.u + (1 + F.u) * (Real.sqrt 2 * (2 * F.u + F.u ^ 2) * (1 + τ) + τ)) ^ 2
        * (‖a.val‖ ^ 2 + ‖b.val‖ ^ 2) := by
  have h0 := F.u_nonneg
  have hτ0 : 0 ≤ τ := (norm_nonneg _).trans hτ
  set μ := Real.sqrt 2 * (2 * F.u + F.u ^ 2) with hμ
  have hμ0 : 0 ≤ μ := by positivity
  set ν := μ * (1 + τ) + τ with hν
  have hν0 : 0 ≤ ν := by positivity
  have hw : ‖w.val‖ ≤ 1 + τ := by
    calc ‖w.val‖ = ‖ω + (w.val - ω)‖ := by congr 1; ring
      _ ≤ ‖ω‖ + ‖w.val - ω‖ := norm_add_le _ _
      _ ≤ _ := by rw [hω]; linarith
  have hm : ‖(w * b).val - ω * b.val‖ ≤ ν * ‖b.val‖ := by
    calc ‖(w * b).val - ω * b.val‖ = ‖((w * b).val - w.val * b.val) + (w.val - ω) * b.val‖ := by
          congr 1; ring
      _ ≤ ‖(w * b).val - w.val * b.val‖ + ‖(w.val - ω) * b.val‖ := norm_add_le _ _
      _ ≤ μ * (‖w.val‖ * ‖b.val‖) + τ * ‖b.val‖ := by
        rw [norm_mul]
        exact add_le_add (FC.mul_err w b) (mul_le_mul_of_nonneg_right hτ (norm_nonneg _))
      _ ≤ μ * ((1 + τ) * ‖b.val‖) + τ * ‖b.val‖ := by gcongr
      _ = _ := by rw [hν]; ring
  have hp : ‖(a + w * b).val - (a.val + ω * b.val)‖
      ≤ F.u * ‖a.val + ω * b.val‖ + (1 + F.u) * ν * ‖b.val‖ := by
    have h1 := FC.add_err a (w * b)
    have h2 : ‖a.val + (w * b).val‖ ≤ ‖a.val + ω * b.val‖ + ν * ‖b.val‖ := by
      calc ‖a.val + (w * b).val‖ = ‖(a.val + ω * b.val) + ((w * b).val - ω * b.val)‖ := by congr 1; ring
        _ ≤ _ := (norm_add_le _ _).trans (by linarith)
    calc ‖(a + w * b).val - (a.val + ω * b.val)‖
        = ‖((a + w * b).val - (a.val + (w * b).val)) + ((w * b).val - ω * b.val)‖ := by congr 1; ring
      _ ≤ F.u * ‖a.val + (w * b).val‖ + ν * ‖b.val‖ := (norm_add_le _ _).trans (add_le_add h1 hm)
      _ ≤ F.u * (‖a.val + ω * b.val‖ + ν * ‖b.val‖) + ν * ‖b.val‖ := by gcongr
      _ = _ := by ring
  have hs : ‖(a - w * b).val - (a.val - ω * b.val)‖
      ≤ F.u * ‖a.val - ω * b.val‖ + (1 + F.u) * ν * ‖b.val‖ := by
    have h1 := FC.sub_err a (w * b)
    have h2 : ‖a.val - (w * b).val‖ ≤ ‖a.val - ω * b.val‖ + ν * ‖b.val‖ := by
      calc ‖a.val - (w * b).val‖ = ‖(a.val - ω * b.val) - ((w * b).val - ω * b.val)‖ := by congr 1; ring
        _ ≤ _ := (norm_sub_le _ _).trans (by linarith)
    calc ‖(a - w * b).val - (a.val - ω * b.val)‖
        = ‖((a - w * b).val - (a.val - (w * b).val)) - ((w * b).val - ω * b.val)‖ := by congr 1; ring
      _ ≤ F.u * ‖a.val - (w * b).val‖ + ν * ‖b.val‖ := (norm_sub_le _ _).trans (add_le_add h1 hm)
      _ ≤ F.u * (‖a.val - ω * b.val‖ + ν * ‖b.val‖) + ν * ‖b.val‖ := by gcongr
      _ = _ := by ring
  have hpar : ‖a.val + ω * b.val‖ ^ 2 + ‖a.val - ω * b.val‖ ^ 2 = 2 * (‖a.val‖ ^ 2 + ‖b.val‖ ^ 2) := by
    have := parallelogram_law_with_norm ℂ a.val (ω * b.val)
    rw [norm_mul, hω, one_mul] at this
    nlinarith
  exact two_errs (norm_nonneg _) (norm_nonneg _) (norm_nonneg _) (norm_nonneg _) (norm_nonneg _) h0
    (by positivity) hpar hp hs

theorem stageGain_nonneg {u τ : ℝ} (hu : 0 ≤ u) (hτ : 0 ≤ τ) : 0 ≤ Spec.stageGain u τ := by
  unfold Spec.stageGain
  positivity

theorem le_stageGain {u τ : ℝ} (hu : 0 ≤ u) (hτ : 0 ≤ τ) : u ≤ Spec.stageGain u τ := by
  unfold Spec.stageGain
  have : 0 ≤ (1 + u) * (Real.sqrt 2 * (2 * u + u ^ 2) * (1 + τ) + τ) := by positivity
  linarith

/-- Exact stage. -/
noncomputable def exactStage (L : ℕ) (ω : ℕ → ℂ) : (ℕ → ℂ) → ℕ → ℂ :=
  pairStage L (fun p x y => x + ω p * y) (fun p x y => x - ω p * y)

theorem l2_exactStage {n L m : ℕ} (hn : n = m * (2 * L)) {ω : ℕ → ℂ} (hω : ∀ p < L, ‖ω p‖ = 1) (f : ℕ → ℂ) :
    Spec.l2 n (exactStage L ω f) = Real.sqrt 2 * Spec.l2 n f := by
  unfold Spec.l2
  rw [← Real.sqrt_mul (by norm_num)]
  congr 1
  rw [sum_pairs hn, sum_pairs hn, mul_sum]
  apply sum_congr rfl
  intro q _
  rw [mul_sum]
  apply sum_congr rfl
  intro p hp
  have hp := mem_range.1 hp
  unfold exactStage
  rw [pairStage_lo hp, pairStage_hi hp]
  set a := f (q * (2 * L) + p)
  set b := f (q * (2 * L) + p + L)
  have := parallelogram_law_with_norm ℂ a (ω p * b)
  rw [norm_mul, hω p hp, one_mul] at this
  nlinarith

theorem exactStage_sub {n L m : ℕ} (hn : n = m * (2 * L)) (hL : 0 < L) (ω : ℕ → ℂ) (f g : ℕ → ℂ) (i : ℕ) :
    exactStage L ω f i - exactStage L ω g i = exactStage L ω (fun i => f i - g i) i := by
  unfold exactStage pairStage
  split <;> ring

/-- Error of a rounded stage. -/
theorem l2_stage_err {F : Rounding} {n L m : ℕ} (hn : n = m * (2 * L)) {ω : ℕ → ℂ} {w : ℕ → FC F} {τ : ℝ}
    (hτ0 : 0 ≤ τ) (hω : ∀ p < L, ‖ω p‖ = 1) (hw : ∀ p < L, ‖(w p).val - ω p‖ ≤ τ) (f : ℕ → FC F) :
    Spec.l2 n (fun i => (pairStage L (fun p x y => x + w p * y) (fun p x y => x - w p * y) f i).val
        - exactStage L ω (fun i => (f i).val) i)
      ≤ Real.sqrt 2 * Spec.stageGain F.u τ * Spec.l2 n (fun i => (f i).val) := by
  have hg := stageGain_nonneg F.u_nonneg hτ0
  apply l2_le_of_sq (mul_nonneg (mul_nonneg (Real.sqrt_nonneg _) hg) (l2_nonneg _ _))
  rw [mul_pow, mul_pow, Real.sq_sqrt (by norm_num), l2_sq, sum_pairs hn, sum_pairs hn, mul_sum]
  apply sum_le_sum
  intro q _
  rw [mul_sum]
  apply sum_le_sum
  intro p hp
  have hp := mem_range.1 hp
  unfold exactStage
  rw [pairStage_lo hp, pairStage_hi hp, pairStage_lo hp, pairStage_hi hp]
  exact butterfly_err _ _ _ _ (hω p hp) (hw p hp)

/-- Error of the first stage, which has no multiplication. -/
theorem l2_stage0_err {F : Rounding} {n L m : ℕ} (hn : n = m * (2 * L)) (f : ℕ → FC F) :
    Spec.l2 n (fun i => (pairStage L (fun _ x y => x + y) (fun _ x y => x - y) f i).val
        - exactStage L (fun _ => 1) (fun i => (f i).val) i)
      ≤ Real.sqrt 2 * F.u * Spec.l2 n (fun i => (f i).val) := by
  apply l2_le_of_sq (mul_nonneg (mul_nonneg (Real.sqrt_nonneg _) F.u_nonneg) (l2_nonneg _ _))
  rw [mul_pow, mul_pow, Real.sq_sqrt (by norm_num), l2_sq, sum_pairs hn, sum_pairs hn, mul_sum]
  apply sum_le_sum
  intro q _
  rw [mul_sum]
  apply sum_le_sum
  intro p hp
  have hp := mem_range.1 hp
  unfold exactStage
  rw [pairStage_lo hp, pairStage_hi hp, pairStage_lo hp, pairStage_hi hp]
  set a := f (q * (2 * L) + p)
  set b := f (q * (2 * L) + p + L)
  rw [one_mul]
  have h1 := pow_le_pow_left₀ (norm_nonneg _) (FC.add_err a b) 2
  have h2 := pow_le_pow_left₀ (norm_nonneg _) (FC.sub_err a b) 2
  have := parallelogram_law_with_norm ℂ a.val b.val
  rw [mul_pow] at h1 h2
  calc _ ≤ F.u ^ 2 * ‖a.val + b.val‖ ^ 2 + F.u ^ 2 * ‖a.val - b.val‖ ^ 2 := add_le_add h1 h2
    _ = F.u ^ 2 * (‖a.val + b.val‖ ^ 2 + ‖a.val - b.val‖ ^ 2) := by ring
    _ = 2 * F.u ^ 2 * (‖a.val‖ ^ 2 + ‖b.val‖ ^ 2) := by rw [this]; ring

/-! ## All stages -/

/-- The exact run of the stages is the DFT. -/
theorem ditRun_exact {b : ℕ} (hb : 1 ≤ b) {ω : ℂ} (hω : ω ^ 2 ^ (b - 1) = -1) (X : ℕ → ℂ) {i : ℕ}
    (hi : i < 2 ^ b) :
    ditRun b (fun i => ω ^ i) (fun i => X (digitRev 2 b i)) b i = Spec.dftRoot (2 ^ b) ω X i := by
  have h1 := dit2V3_run hb (fun i => ω ^ i) (fun i => X (digitRev 2 b i))
  have h2 := dit2V3_vec hb hω X
  unfold twVec at h2
  rw [h1] at h2
  injection h2 with h3
  exact vec_inj.1 h3 i hi

/-- Twiddle of the exact stage `s`. -/
noncomputable def stageTw (b : ℕ) (ω : ℂ) (s p : ℕ) : ℂ := if s = 0 then 1 else ω ^ (p * 2 ^ (b - s - 1))

theorem norm_stageTw {b : ℕ} {ω : ℂ} (hn : ‖ω‖ = 1) (s p : ℕ) : ‖stageTw b ω s p‖ = 1 := by
  unfold stageTw
  split
  · simp
  · rw [norm_pow, hn, one_pow]

theorem ditRun_exactStage (b : ℕ) (ω : ℂ) (f : ℕ → ℂ) (s : ℕ) :
    ditRun b (fun i => ω ^ i) f (s + 1) = exactStage (2 ^ s) (stageTw b ω s) (ditRun b (fun i => ω ^ i) f s) := by
  rcases Nat.eq_zero_or_pos s with rfl | h
  · funext i
    unfold ditRun exactStage pairStage stageTw
    simp [ditRun]
  · rw [ditRun_succ h]
    unfold exactStage stageTw
    simp only [if_neg (show s ≠ 0 by omega)]

/-- The exact stages multiply the norm by `√2` each. -/
theorem l2_ditRun {b : ℕ} {ω : ℂ} (hn : ‖ω‖ = 1) (f : ℕ → ℂ) (s : ℕ) (hs : s ≤ b) :
    Spec.l2 (2 ^ b) (ditRun b (fun i => ω ^ i) f s) = Real.sqrt 2 ^ s * Spec.l2 (2 ^ b) f := by
  induction s with
  | zero => rw [pow_zero, one_mul]; rfl
  | succ s ih =>
    rw [ditRun_exactStage, l2_exactStage (two_pow_split (show s < b by omega)) (fun p _ => norm_stageTw hn s p),
      ih (by omega), pow_succ]
    ring

/-- Errors accumulate as a product: after `s` stages the relative error is at most `(1 + g)^s - 1`. -/
theorem ditRun_err {F : Rounding} {b : ℕ} (hb : 1 ≤ b) {ω : ℂ} (hn : ‖ω‖ = 1) {w : ℕ → FC F} {τ : ℝ}
    (hτ0 : 0 ≤ τ) (hw : ∀ i < 2 ^ (b - 1), ‖(w i).val - ω ^ i‖ ≤ τ) (f : ℕ → FC F) (s : ℕ) (hs : s ≤ b) :
    Spec.l2 (2 ^ b) (fun i => (ditRun b w f s i).val - ditRun b (fun i => ω ^ i) (fun i => (f i).val) s i)
      ≤ ((1 + Spec.stageGain F.u τ) ^ s - 1) * (Real.sqrt 2 ^ s * Spec.l2 (2 ^ b) (fun i => (f i).val)) := by
  set g := Spec.stageGain F.u τ with hg
  have hg0 : 0 ≤ g := stageGain_nonneg F.u_nonneg hτ0
  set x := Spec.l2 (2 ^ b) (fun i => (f i).val) with hx
  have hx0 : 0 ≤ x := l2_nonneg _ _
  have hr := Real.sqrt_nonneg 2
  induction s with
  | zero =>
    have : Spec.l2 (2 ^ b) (fun i => (ditRun b w f 0 i).val
        - ditRun b (fun i => ω ^ i) (fun i => (f i).val) 0 i) = 0 := by
      unfold ditRun Spec.l2
      simp
    rw [this]; simp
  | succ s ih =>
    have i2 := ih (by omega)
    have i1 := l2_ditRun hn (fun i => (f i).val) s (show s ≤ b by omega)
    have hsp := two_pow_split (show s < b by omega)
    set ws := stageTw b ω s with hws
    have hws1 : ∀ p < 2 ^ s, ‖ws p‖ = 1 := fun p _ => norm_stageTw hn s p
    have hE1 := ditRun_exactStage b ω (fun i => (f i).val) s
    set E := ditRun b (fun i => ω ^ i) (fun i => (f i).val) with hE
    have hstage : Spec.l2 (2 ^ b) (fun i => (ditRun b w f (s + 1) i).val
        - exactStage (2 ^ s) ws (fun i => (ditRun b w f s i).val) i)
        ≤ Real.sqrt 2 * g * Spec.l2 (2 ^ b) (fun i => (ditRun b w f s i).val) := by
      rcases Nat.eq_zero_or_pos s with rfl | h
      · have hwe : ws = fun _ => 1 := by funext p; simp [hws, stageTw]
        rw [hwe]
        refine (l2_stage0_err (L := 1) hsp f).trans ?_
        have := le_stageGain F.u_nonneg hτ0
        have h2 : 0 ≤ Spec.l2 (2 ^ b) (fun i => (f i).val) := l2_nonneg _ _
        show _ ≤ Real.sqrt 2 * g * Spec.l2 (2 ^ b) (fun i => (f i).val)
        gcongr
      · rw [ditRun_succ h]
        refine l2_stage_err hsp hτ0 hws1 ?_ _
        intro p hp
        simp only [hws, stageTw, if_neg (show s ≠ 0 by omega)]
        exact hw _ (tw_index_lt (by omega) hp)
    have hnorm : Spec.l2 (2 ^ b) (fun i => (ditRun b w f s i).val)
        ≤ (1 + g) ^ s * (Real.sqrt 2 ^ s * x) := by
      rw [l2_congr (g := fun i => ((ditRun b w f s i).val - E s i) + E s i) (fun i _ => by ring)]
      refine (l2_add_le _ _ _).trans ?_
      rw [i1]
      linarith
    · refine (l2_sub_le _ _ (exactStage (2 ^ s) ws (fun i => (ditRun b w f s i).val)) _).trans ?_
      rw [hE1]
      have e2 : Spec.l2 (2 ^ b) (fun i => exactStage (2 ^ s) ws (fun i => (ditRun b w f s i).val) i
          - exactStage (2 ^ s) ws (E s) i) = Real.sqrt 2
          * Spec.l2 (2 ^ b) (fun i => (ditRun b w f s i).val - E s i) := by
        rw [← l2_exactStage hsp hws1]
        exact l2_congr (fun i _ => exactStage_sub hsp (by positivity) _ _ _ i)
      rw [e2]
      have k1 := mul_le_mul_of_nonneg_left hnorm (mul_nonneg hr hg0)
      have k2 := mul_le_mul_of_nonneg_left i2 hr
      calc _ ≤ Real.sqrt 2 * g * ((1 + g) ^ s * (Real.sqrt 2 ^ s * x))
            + Real.sqrt 2 * (((1 + g) ^ s - 1) * (Real.sqrt 2 ^ s * x)) := add_le_add (hstage.trans k1) k2
        _ = _ := by rw [pow_succ, pow_succ]; ring

/-! ## Twiddle tables -/

theorem rnd_eq (F : Rounding) (x : ℝ) : ∃ ρ, F.rnd x = x * ρ ∧ |ρ - 1| ≤ (1 + F.u) - 1 := by
  have h := F.rnd_err x
  by_cases hx : x = 0
  · subst hx
    refine ⟨1, ?_, by simpa using F.u_nonneg⟩
    simp at h
    simp [h]
  · refine ⟨F.rnd x / x, by field_simp, ?_⟩
    have : F.rnd x / x - 1 = (F.rnd x - x) / x := by field_simp
    rw [this, abs_div, div_le_iff₀ (abs_pos.2 hx)]
    linarith

theorem rel_mul {ρ σ A B : ℝ} (h1 : |ρ - 1| ≤ A - 1) (h2 : |σ - 1| ≤ B - 1) : |ρ * σ - 1| ≤ A * B - 1 := by
  have e : ρ * σ - 1 = (ρ - 1) * (σ - 1) + (ρ - 1) + (σ - 1) := by ring
  have h3 : |(ρ - 1) * (σ - 1)| ≤ (A - 1) * (B - 1) := by
    rw [abs_mul]
    exact mul_le_mul h1 h2 (abs_nonneg _) ((abs_nonneg _).trans h1)
  rw [e]
  refine (abs_add_three _ _ _).trans ?_
  linarith

theorem rel_inv {ρ u : ℝ} (hu : u < 1) (h : |ρ - 1| ≤ (1 + u) - 1) : |ρ⁻¹ - 1| ≤ (1 - u)⁻¹ - 1 := by
  have h1 := abs_le.1 h
  have hρ : 1 - u ≤ ρ := by linarith
  have hp : 0 < 1 - u := by linarith
  have hρ0 : 0 < ρ := by linarith
  have e : ρ⁻¹ - 1 = (1 - ρ) / ρ := by field_simp
  have e2 : (1 - u)⁻¹ - 1 = u / (1 - u) := by field_simp; ring
  rw [e, e2, abs_div, abs_of_pos hρ0, abs_sub_comm]
  have : |ρ - 1| ≤ u := by linarith
  exact div_le_div₀ ((abs_nonneg _).trans this) this hp hρ

theorem twiddleErr_nonneg (F : Rounding) : 0 ≤ Spec.twiddleErr F.u F.ε := by
  have h0 := F.u_nonneg
  have h1 := F.u_lt_one
  have hε : 0 ≤ F.ε := (abs_nonneg _).trans (F.cos_err 0)
  have h2 : 1 ≤ (1 + F.u) ^ 5 := one_le_pow₀ (by linarith)
  have h3 : 1 ≤ (1 - F.u)⁻¹ := (one_le_inv₀ (by linarith)).2 (by linarith)
  have h4 : 1 ≤ (1 + F.u) ^ 5 * (1 - F.u)⁻¹ := one_le_mul_of_one_le_of_one_le h2 h3
  have := Real.pi_pos
  unfold Spec.twiddleErr
  have h5 : 0 ≤ (1 + F.u) ^ 5 * (1 - F.u)⁻¹ - 1 := by linarith
  positivity

theorem twiddleF_err (F : Rounding) {size index : ℕ} (h : 2 * index ≤ size) (hs : 0 < size) (dir : Direction) :
    ‖(twiddleF F size index dir).val - root size dir ^ index‖ ≤ Spec.twiddleErr F.u F.ε := by
  rw [← twiddle_eq]
  unfold twiddleF twiddle
  dsimp only
  set sign : ℝ := if dir = .forward then -1 else 1 with hsign
  have hsg : |sign| = 1 := by rw [hsign]; split <;> simp
  obtain ⟨ρ1, e1, r1⟩ := rnd_eq F (sign * F.twoPi)
  obtain ⟨ρ2, e2, r2⟩ := rnd_eq F index
  obtain ⟨ρ3, e3, r3⟩ := rnd_eq F (F.rnd (sign * F.twoPi) * F.rnd index)
  obtain ⟨ρ4, e4, r4⟩ := rnd_eq F size
  obtain ⟨ρ5, e5, r5⟩ := rnd_eq F (F.rnd (F.rnd (sign * F.twoPi) * F.rnd index) / F.rnd size)
  set ang := F.rnd (F.rnd (F.rnd (sign * F.twoPi) * F.rnd index) / F.rnd size) with hang
  have hpi := Real.pi_pos
  have r0 : |F.twoPi / (2 * Real.pi) - 1| ≤ (1 + F.u) - 1 := by
    have : F.twoPi / (2 * Real.pi) - 1 = (F.twoPi - 2 * Real.pi) / (2 * Real.pi) := by field_simp
    rw [this, abs_div, abs_of_pos (by positivity : 0 < 2 * Real.pi), div_le_iff₀ (by positivity)]
    have := F.twoPi_err
    linarith
  set ρ0 := F.twoPi / (2 * Real.pi) with hρ0
  have e0 : F.twoPi = 2 * Real.pi * ρ0 := by rw [hρ0]; field_simp
  set θ := sign * (Real.pi * 2) * (index : ℝ) / (size : ℝ) with hθ
  have hsz : (size : ℝ) ≠ 0 := by exact_mod_cast hs.ne'
  have hfac : ang = θ * (ρ0 * ρ1 * ρ2 * ρ3 * ρ5 * ρ4⁻¹) := by
    rw [e5, e3, e1, e2, e4, e0, hθ, div_eq_mul_inv, div_eq_mul_inv, mul_inv]
    ring
  have hrel : |ρ0 * ρ1 * ρ2 * ρ3 * ρ5 * ρ4⁻¹ - 1| ≤ (1 + F.u) ^ 5 * (1 - F.u)⁻¹ - 1 := by
    have := rel_mul (rel_mul (rel_mul (rel_mul (rel_mul r0 r1) r2) r3) r5) (rel_inv F.u_lt_one r4)
    refine this.trans (le_of_eq ?_)
    ring
  have hθle : |θ| ≤ Real.pi := by
    rw [hθ, abs_div, abs_mul, abs_mul, hsg, one_mul, abs_of_pos (by positivity : 0 < Real.pi * 2),
      Nat.abs_cast, Nat.abs_cast, div_le_iff₀ (by exact_mod_cast hs)]
    have : (2 * index : ℝ) ≤ size := by exact_mod_cast h
    nlinarith
  have hΔ : |ang - θ| ≤ Real.pi * ((1 + F.u) ^ 5 * (1 - F.u)⁻¹ - 1) := by
    have : ang - θ = θ * (ρ0 * ρ1 * ρ2 * ρ3 * ρ5 * ρ4⁻¹ - 1) := by rw [hfac]; ring
    rw [this, abs_mul]
    exact mul_le_mul hθle hrel (abs_nonneg _) hpi.le
  have hpart : ∀ c C : ℝ, |c - C| ≤ F.ε → |C| ≤ 1 → |F.rnd (1 * c) - C| ≤ F.ε + F.u * (1 + F.ε) := by
    intro c C h1 h2
    rw [one_mul]
    have h3 := F.rnd_err c
    have h4 : |c| ≤ 1 + F.ε := by
      calc |c| = |C + (c - C)| := by congr 1; ring
        _ ≤ |C| + |c - C| := abs_add_le _ _
        _ ≤ _ := by linarith
    have h5 := mul_le_mul_of_nonneg_left h4 F.u_nonneg
    calc |F.rnd c - C| = |(F.rnd c - c) + (c - C)| := by congr 1; ring
      _ ≤ |F.rnd c - c| + |c - C| := abs_add_le _ _
      _ ≤ _ := by linarith
  have hε : 0 ≤ F.ε := (abs_nonneg _).trans (F.cos_err 0)
  have hu := F.u_nonneg
  have hA : ‖(FC.mk (F.rnd (1 * F.cos ang)) (F.rnd (1 * F.sin ang)) : FC F).val - polar 1 ang‖
      ≤ Real.sqrt 2 * (F.ε + F.u * (1 + F.ε)) := by
    have hc := hpart _ _ (F.cos_err ang) (Real.abs_cos_le_one _)
    have hs := hpart _ _ (F.sin_err ang) (Real.abs_sin_le_one _)
    set e := F.ε + F.u * (1 + F.ε) with he
    have he0 : 0 ≤ e := by positivity
    apply (sq_le_sq₀ (norm_nonneg _) (by positivity)).1
    rw [mul_pow, Real.sq_sqrt (by norm_num), Complex.sq_norm, Complex.normSq_apply]
    have k1 := mul_self_le_mul_self (abs_nonneg _) hc
    have k2 := mul_self_le_mul_self (abs_nonneg _) hs
    rw [abs_mul_abs_self] at k1 k2
    simp only [FC.val, polar, Complex.sub_re, Complex.sub_im, one_mul] at k1 k2 ⊢
    nlinarith
  have hB : ‖polar 1 ang - polar 1 θ‖ ≤ |ang - θ| := by
    rw [polar_eq_exp, polar_eq_exp]
    have : Complex.exp (ang * Complex.I) - Complex.exp (θ * Complex.I)
        = Complex.exp (θ * Complex.I) * (Complex.exp (Complex.I * ((ang - θ : ℝ) : ℂ)) - 1) := by
      rw [mul_sub, ← Complex.exp_add, mul_one]
      congr 2
      push_cast
      ring
    rw [this, norm_mul, Complex.norm_exp_ofReal_mul_I, one_mul]
    exact Real.norm_exp_I_mul_ofReal_sub_one_le
  unfold Spec.twiddleErr
  calc _ ≤ _ := norm_sub_le_norm_sub_add_norm_sub _ (polar 1 ang) _
    _ ≤ _ := by linarith

/-! ## The rounded plan -/

/-- The rounded plan built for order `b`. -/
noncomputable def dit2PlanFOf (F : Rounding) (b : ℕ) : Dit2Plan (FC F) where
  order := b
  size := 2 ^ b
  reorder := vec (2 ^ b) (digitRev 2 b)
  wf := makeTwiddleLutRadix2F F (2 ^ b) .forward
  wb := makeTwiddleLutRadix2F F (2 ^ b) .backward

theorem dit2Plan_makeF_eq (F : Rounding) {b : ℕ} (hb : b ≤ 27) : Dit2Plan.makeF F b = .ok (dit2PlanFOf F b) := by
  unfold Dit2Plan.makeF dit2CheckOrder dit2MaxOrder
  rw [if_neg (by omega)]
  simp only [bind_ok, Nat.one_shiftLeft, bitrevMake_eq, pure_eq_ok, fftSize_eq]
  rfl

theorem makeTwiddleLutRadix2F_eq (F : Rounding) {b : ℕ} (hb : 1 ≤ b) (dir : Direction) :
    makeTwiddleLutRadix2F F (2 ^ b) dir = vec (2 ^ (b - 1)) (fun i => twiddleF F (2 ^ b) i dir) := by
  unfold makeTwiddleLutRadix2F vec
  have h1 : 2 ^ b / 2 = 2 ^ (b - 1) := by
    have : 2 ^ b = 2 * 2 ^ (b - 1) := by rw [← pow_succ']; congr 1; omega
    omega
  have h2 : 2 ^ (b - 1) * 2 = 2 ^ b := by rw [← pow_succ]; congr 1; omega
  rw [h1, h2]

/-- A kernel that performs the stages `ditRun`. -/
def KernelRuns (F : Rounding) (b : ℕ) (kernel : List (FC F) → List (FC F) → Res (List (FC F))) : Prop :=
  ∀ w f : ℕ → FC F, kernel (vec (2 ^ b) f) (vec (2 ^ (b - 1)) w) = .ok (vec (2 ^ b) (ditRun b w f b))

theorem one_le_fftGain (F : Rounding) (b : ℕ) : 1 ≤ Spec.fftGain F.u F.ε b :=
  one_le_pow₀ (by linarith [stageGain_nonneg F.u_nonneg (twiddleErr_nonneg F)])

theorem norm_root (N : ℕ) (dir : Direction) : ‖root N dir‖ = 1 := by
  have h := twiddle_eq N 1 dir
  rw [pow_one] at h
  rw [← h]
  unfold twiddle
  dsimp only
  rw [polar_eq_exp, Complex.norm_exp_ofReal_mul_I]

theorem l2_digitRev {b : ℕ} (f : ℕ → ℂ) :
    Spec.l2 (2 ^ b) (fun i => f (digitRev 2 b i)) = Spec.l2 (2 ^ b) f := by
  unfold Spec.l2
  congr 1
  apply sum_bij (fun i _ => digitRev 2 b i)
  · intro i hi
    exact mem_range.2 (digitRev_lt (by norm_num) b i)
  · intro i hi j hj e
    rw [← digitRev_invol (R := 2) (by norm_num) (mem_range.1 hi), e,
      digitRev_invol (by norm_num) (mem_range.1 hj)]
  · intro j hj
    exact ⟨digitRev 2 b j, mem_range.2 (digitRev_lt (by norm_num) b j),
      digitRev_invol (by norm_num) (mem_range.1 hj)⟩
  · intro i hi
    rfl

/-- Norm of the transform. -/
theorem l2_specDft {b : ℕ} (hb : 1 ≤ b) (dir : Direction) (x : ℕ → ℂ) :
    Spec.l2 (2 ^ b) (specDft dir (2 ^ b) x) = Real.sqrt 2 ^ b * Spec.l2 (2 ^ b) x := by
  have hω := root_two_pow hb dir
  have e : Spec.l2 (2 ^ b) (specDft dir (2 ^ b) x)
      = Spec.l2 (2 ^ b) (ditRun b (fun i => root (2 ^ b) dir ^ i) (fun i => x (digitRev 2 b i)) b) :=
    l2_congr (fun i hi => by rw [ditRun_exact hb hω x hi, dftRoot_dir])
  rw [e, ← l2_digitRev x, l2_ditRun (norm_root _ _) _ b le_rfl]

theorem fftF_call {F : Rounding} {b : ℕ} (hb : 1 ≤ b) {kernel : List (FC F) → List (FC F) → Res (List (FC F))}
    (hk : KernelRuns F b kernel) (x : ℕ → FC F) (dir : Direction) :
    ∃ y : ℕ → FC F, (dit2PlanFOf F b).callWith kernel (vec (2 ^ b) x) dir = .ok (vec (2 ^ b) y) ∧
      Spec.l2 (2 ^ b) (fun k => (y k).val - specDft dir (2 ^ b) (fun n => (x n).val) k)
        ≤ (Spec.fftGain F.u F.ε b - 1) * (Real.sqrt 2 ^ b * Spec.l2 (2 ^ b) (fun n => (x n).val)) := by
  refine ⟨ditRun b (fun i => twiddleF F (2 ^ b) i dir) (fun i => x (digitRev 2 b i)) b, ?_, ?_⟩
  · unfold Dit2Plan.callWith dit2PlanFOf
    simp only [length_vec, decide_true, check_true, bind_ok, bitrevApply_digitRev,
      makeTwiddleLutRadix2F_eq F hb]
    cases dir
    · rw [if_pos rfl]; exact hk _ _
    · rw [if_neg (by decide)]; exact hk _ _
  · have h := (ditRun_err (F := F) hb (norm_root (2 ^ b) dir) (w := fun i => twiddleF F (2 ^ b) i dir)
      (twiddleErr_nonneg F) (fun i hi => twiddleF_err F (by
        have : 2 ^ b = 2 * 2 ^ (b - 1) := by rw [← pow_succ']; congr 1; omega
        omega) (by positivity) dir) (fun i => x (digitRev 2 b i)) b le_rfl)
    rw [l2_digitRev (fun n => (x n).val)] at h
    refine le_trans (le_of_eq ?_) h
    apply l2_congr
    intro k hk'
    rw [← dftRoot_dir, ← ditRun_exact hb (root_two_pow hb dir) (fun n => (x n).val) hk']

end Neo
