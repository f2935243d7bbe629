import Verif.Model.RoundingReal
import Verif.Model.Conv
import Verif.Lemmas.Rounding
import Verif.Lemmas.Direct
import Verif.Lemmas.Out
import Verif.Lemmas.Accum

/-! # `direct_convolve` without algebraic laws, and its rounding error -/

namespace Neo

open Finset

section fold
variable {R : Type} [Mul R] [Add R] [Zero R]

theorem directInner_fold {n l M k lo hi : ℕ} (a b f : ℕ → R) (h1 : lo ≤ hi) (h2 : hi ≤ n)
    (hk : k < M) (hm : ∀ m, lo ≤ m → m < hi → m ≤ k ∧ k - m < l) :
    directInner (vec n a) (vec l b) k lo hi (vec M f)
      = .ok (vec M (Function.update f k (accum (fun m => a m * b (k - m)) (f k) lo (hi - lo)))) := by
  unfold directInner
  apply forR_eq' (fun i => vec M (Function.update f k (accum (fun m => a m * b (k - m)) (f k) lo (i - lo)))) h1
  · simp [accum]
  · rfl
  · intro i hi1 hi2
    obtain ⟨c1, c2⟩ := hm i hi1 hi2
    rw [rd_vec_ok hk, bind_ok, rd_vec_ok (by omega), bind_ok]
    simp only [subIdx, if_pos c1, bind_ok]
    rw [rd_vec_ok c2, bind_ok, wr_vec_ok hk]
    congr 1
    rw [Function.update_self, Function.update_idem, show i + 1 - lo = (i - lo) + 1 by omega]
    simp only [accum]
    rw [show lo + (i - lo) = i by omega]

/-- First index of the longer input used for output `k`. -/
def dLo (l k : ℕ) : ℕ := k + 1 - l

/-- Number of products summed for output `k`. -/
def dCnt (n l k : ℕ) : ℕ := min (k + 1) n - dLo l k

theorem dCnt_le {n l k : ℕ} : dCnt n l k ≤ l := by unfold dCnt dLo; omega

theorem directLoops_fold {n l : ℕ} (a b o : ℕ → R) (hl : 1 ≤ l) (hln : l ≤ n) :
    directLoops (vec n a) (vec l b) n l (n + l - 1) (vec (n + l - 1) o)
      = .ok (vec (n + l - 1) (fun k => accum (fun m => a m * b (k - m)) 0 (dLo l k) (dCnt n l k))) := by
  set c : ℕ → R := (fun k => accum (fun m => a m * b (k - m)) 0 (dLo l k) (dCnt n l k)) with hc
  unfold directLoops
  rw [forN_eq' (s' := vec (n + l - 1) (fun k => if k < l then c k else o k))
    (fun i => vec (n + l - 1) (fun k => if k < i then c k else o k)), bind_ok]
  · rw [forR_eq' (s' := (vec (n + l - 1) c, n - 1))
      (fun i => (vec (n + l - 1) (fun k => if k < i then c k else o k), i - l)) (by omega),
      bind_ok, pure_eq_ok]
    · simp
    · rw [Prod.mk.injEq]
      exact ⟨vec_ext (fun k hk => by rw [if_pos hk]), by omega⟩
    · intro k hk1 hk2
      simp only []
      rw [wr_vec_ok hk2, bind_ok, directInner_fold _ _ _ (by omega) (by omega) hk2
        (fun m _ _ => by omega), bind_ok, pure_eq_ok]
      congr 2
      · apply vec_ext
        intro m _
        by_cases h : m = k
        · subst h
          rw [Function.update_self, Function.update_self, if_pos (by omega), hc]
          unfold dLo dCnt
          rw [show m - l + 1 = m + 1 - l by omega,
            show min (l + (m + 1 - l)) n - (m + 1 - l) = min (m + 1) n - dLo l m by unfold dLo; omega]
        · rw [Function.update_of_ne h, Function.update_of_ne h]
          have : m < k + 1 ↔ m < k := by omega
          simp only [this]
      · omega
  · exact vec_ext (fun k _ => by simp)
  · rfl
  · intro k hk
    rw [wr_vec_ok (by omega), bind_ok, directInner_fold _ _ _ (by omega) (by omega) (by omega)
      (fun m _ _ => by omega)]
    congr 1
    apply vec_ext
    intro m _
    by_cases h : m = k
    · subst h
      rw [Function.update_self, Function.update_self, if_pos (by omega), hc]
      unfold dLo dCnt
      beta_reduce
      rw [show m + 1 - l = 0 by omega, show min (m + 1) n - dLo l m = m + 1 - 0 by unfold dLo; omega]
    · rw [Function.update_of_ne h, Function.update_of_ne h]
      have : m < k + 1 ↔ m < k := by omega
      simp only [this]

theorem directConvolve_fold {n l : ℕ} (a b : ℕ → R) (hn : 1 ≤ n) (hl : 1 ≤ l) :
    directConvolve (vec n a) (vec l b)
      = .ok (vec (n + l - 1) (fun k =>
          if l ≤ n then accum (fun m => a m * b (k - m)) 0 (dLo l k) (dCnt n l k)
          else accum (fun m => b m * a (k - m)) 0 (dLo n k) (dCnt l n k))) := by
  unfold directConvolve directConvolveInto outputSizeFull
  simp only [length_vec, decide_true, check_true, bind_ok]
  rw [if_neg (by omega)]
  by_cases h : l ≤ n
  · rw [if_pos h]
    simp only [if_pos h]
    exact directLoops_fold a b _ hl h
  · rw [if_neg h]
    simp only [if_neg h]
    have := directLoops_fold b a (fun _ => 0) hn (by omega : n ≤ l)
    rw [show l + n - 1 = n + l - 1 by omega] at this
    exact this

end fold

/-- Number types whose operations are those of `ℂ` up to relative errors `u` (sum) and `v` (product). -/
structure Approx (R : Type) [Mul R] [Add R] [Zero R] (u v : ℝ) (val : R → ℂ) : Prop where
  u0 : 0 ≤ u
  v0 : 0 ≤ v
  zero : val 0 = 0
  add : ∀ a b, ‖val (a + b) - (val a + val b)‖ ≤ u * ‖val a + val b‖
  mul : ∀ a b, ‖val (a * b) - val a * val b‖ ≤ v * (‖val a‖ * ‖val b‖)

theorem accum_err {R : Type} [Mul R] [Add R] [Zero R] {u v : ℝ} {val : R → ℂ} (h : Approx R u v val)
    (a b : ℕ → R) (lo : ℕ) (n : ℕ) :
    ‖val (accum (fun m => a m * b m) 0 lo n) - ∑ m ∈ Ico lo (lo + n), val (a m) * val (b m)‖
      ≤ ((1 + u) ^ n * (1 + v) - 1) * ∑ m ∈ Ico lo (lo + n), ‖val (a m)‖ * ‖val (b m)‖ := by
  have hu := h.u0
  have hv := h.v0
  induction n with
  | zero => simp [accum, h.zero]
  | succ n ih =>
    rw [← add_assoc, sum_Ico_succ_top (by omega), sum_Ico_succ_top (by omega)]
    simp only [accum]
    set A := accum (fun m => a m * b m) 0 lo n
    set S := ∑ m ∈ Ico lo (lo + n), val (a m) * val (b m)
    set T := ∑ m ∈ Ico lo (lo + n), ‖val (a m)‖ * ‖val (b m)‖ with hT
    set p := a (lo + n) with hp
    set q := b (lo + n) with hq
    have hST : ‖S‖ ≤ T := by
      refine (norm_sum_le _ _).trans (le_of_eq (sum_congr rfl fun m _ => norm_mul _ _))
    have hT0 : 0 ≤ T := sum_nonneg fun m _ => by positivity
    have h1 := h.add A (p * q)
    have h2 := h.mul p q
    set w := ‖val p‖ * ‖val q‖ with hw
    have hw0 : 0 ≤ w := by positivity
    have hx : ‖val p * val q‖ = w := norm_mul _ _
    set G := (1 + u) ^ n * (1 + v) with hG
    have hpow : 1 ≤ (1 + u) ^ n := one_le_pow₀ (by linarith)
    have hG1 : 1 + v ≤ G := by nlinarith
    -- error of the exact sum of the rounded terms
    have h3 : ‖(val A + val (p * q)) - (S + val p * val q)‖ ≤ (G - 1) * (T + w) := by
      have e : (val A + val (p * q)) - (S + val p * val q) = (val A - S) + (val (p * q) - val p * val q) := by
        ring
      rw [e]
      refine (norm_add_le _ _).trans ?_
      nlinarith
    have h4 : ‖val A + val (p * q)‖ ≤ G * (T + w) := by
      have e : val A + val (p * q) = ((val A + val (p * q)) - (S + val p * val q)) + (S + val p * val q) := by
        ring
      rw [e]
      refine (norm_add_le _ _).trans ?_
      have := norm_add_le S (val p * val q)
      rw [hx] at this
      nlinarith
    have e : val (A + p * q) - (S + val p * val q)
        = (val (A + p * q) - (val A + val (p * q))) + ((val A + val (p * q)) - (S + val p * val q)) := by ring
    rw [e]
    refine (norm_add_le _ _).trans ?_
    have h5 : u * ‖val A + val (p * q)‖ ≤ u * (G * (T + w)) := mul_le_mul_of_nonneg_left h4 hu
    rw [pow_succ]
    calc _ ≤ u * (G * (T + w)) + (G - 1) * (T + w) := add_le_add (h1.trans h5) h3
      _ = _ := by rw [hG]; ring

theorem conv_window {A : Type} [CommRing A] {n l k : ℕ} (hl : 1 ≤ l) (hln : l ≤ n) (hk : k < n + l - 1) (a b : ℕ → A)
    (ha : ∀ i, n ≤ i → a i = 0) (hb : ∀ i, l ≤ i → b i = 0) :
    ∑ m ∈ Ico (dLo l k) (dLo l k + dCnt n l k), a m * b (k - m) = Spec.conv a b k := by
  unfold Spec.conv
  rw [← Nat.Ico_zero_eq_range]
  apply sum_subset_zero_on_sdiff
  · intro j hj
    rw [mem_Ico] at hj ⊢
    unfold dCnt dLo at hj
    omega
  · intro j hj
    rw [mem_sdiff, mem_Ico, mem_Ico] at hj
    unfold dCnt dLo at hj
    by_cases c1 : j < n
    · rw [hb (k - j) (by omega), mul_zero]
    · rw [ha j (by omega), zero_mul]
  · intros; rfl

/-- One output of `direct_convolve`, the longer input first. -/
theorem window_err {R : Type} [Mul R] [Add R] [Zero R] {u v : ℝ} {val : R → ℂ} (h : Approx R u v val)
    {n l k : ℕ} (hl : 1 ≤ l) (hln : l ≤ n) (hk : k < n + l - 1) (a b : ℕ → R)
    (ha : ∀ i, n ≤ i → a i = 0) (hb : ∀ i, l ≤ i → b i = 0) :
    ‖val (accum (fun m => a m * b (k - m)) 0 (dLo l k) (dCnt n l k))
        - Spec.conv (fun i => val (a i)) (fun i => val (b i)) k‖
      ≤ ((1 + u) ^ l * (1 + v) - 1) * Spec.conv (fun i => ‖val (a i)‖) (fun i => ‖val (b i)‖) k := by
  have key := accum_err h a (fun m => b (k - m)) (dLo l k) (dCnt n l k)
  have za : ∀ i, n ≤ i → val (a i) = 0 := fun i hi => by rw [ha i hi, h.zero]
  have zb : ∀ i, l ≤ i → val (b i) = 0 := fun i hi => by rw [hb i hi, h.zero]
  rw [conv_window hl hln hk (fun i => val (a i)) (fun i => val (b i)) za zb,
    conv_window hl hln hk (fun i => ‖val (a i)‖) (fun i => ‖val (b i)‖)
      (fun i hi => by rw [za i hi, norm_zero]) (fun i hi => by rw [zb i hi, norm_zero])] at key
  refine key.trans (mul_le_mul_of_nonneg_right ?_ (sum_nonneg fun m _ => by positivity))
  have hu := h.u0
  have hv := h.v0
  have := pow_le_pow_right₀ (by linarith : 1 ≤ 1 + u) (dCnt_le (n := n) (l := l) (k := k))
  nlinarith

theorem directConvolve_err {R : Type} [Mul R] [Add R] [Zero R] {u v : ℝ} {val : R → ℂ} (h : Approx R u v val)
    (x y : List R) (hx : x ≠ []) (hy : y ≠ []) :
    ∃ out, directConvolve x y = .ok out ∧ out.length = x.length + y.length - 1 ∧
      ∀ k < x.length + y.length - 1,
        ‖val (out.getD k 0) - Spec.conv (fun i => val (x.getD i 0)) (fun i => val (y.getD i 0)) k‖
          ≤ ((1 + u) ^ min x.length y.length * (1 + v) - 1)
            * Spec.conv (fun i => ‖val (x.getD i 0)‖) (fun i => ‖val (y.getD i 0)‖) k := by
  have h1 : 1 ≤ x.length := List.length_pos_iff.2 hx
  have h2 : 1 ≤ y.length := List.length_pos_iff.2 hy
  have hd : ∀ (z : List R) i, z.length ≤ i → z.getD i 0 = 0 := fun z i hi => by
    rw [List.getD_eq_getElem?_getD, List.getElem?_eq_none (by omega)]; rfl
  have e := directConvolve_fold (fun i => x.getD i 0) (fun i => y.getD i 0) h1 h2
  rw [← list_eq_vec (0 : R) (rfl : x.length = x.length), ← list_eq_vec (0 : R) (rfl : y.length = y.length)] at e
  refine ⟨_, e, length_vec _ _, ?_⟩
  intro k hk
  rw [getD_vec _ _ _ _ hk]
  by_cases c : y.length ≤ x.length
  · rw [if_pos c, min_eq_right c]
    exact window_err h h2 c hk _ _ (hd x) (hd y)
  · rw [if_neg c, min_eq_left (by omega), conv_comm (fun i => val (x.getD i 0)),
      conv_comm (fun i => ‖val (x.getD i 0)‖)]
    exact window_err h h1 (by omega) (by omega) _ _ (hd y) (hd x)

/-- `(1+u)^n - 1 ≤ 2 n u` as long as `n u ≤ 1`. -/
theorem pow_sub_one_le {u : ℝ} (hu : 0 ≤ u) {n : ℕ} (hn : n * u ≤ 1) : (1 + u) ^ n - 1 ≤ 2 * (n * u) := by
  have h1 : (1 + u) ^ n ≤ Real.exp (n * u) := by
    rw [Real.exp_nat_mul]
    exact pow_le_pow_left₀ (by linarith) (by linarith [Real.add_one_le_exp u]) n
  have h0 : 0 ≤ n * u := by positivity
  have h2 := Real.abs_exp_sub_one_le (x := n * u) (by rwa [abs_of_nonneg h0])
  rw [abs_of_nonneg h0] at h2
  linarith [le_abs_self (Real.exp (n * u) - 1)]

theorem FR.approx (F : Rounding) : Approx (FR F) F.u F.u (fun x => (x.val : ℂ)) where
  u0 := F.u_nonneg
  v0 := F.u_nonneg
  zero := by simp [show (0 : FR F).val = 0 from rfl]
  add a b := by
    have := F.rnd_err (a.val + b.val)
    rw [show (a + b).val = F.rnd (a.val + b.val) from rfl, ← Complex.ofReal_add, ← Complex.ofReal_sub,
      Complex.norm_real, Complex.norm_real]
    exact this
  mul a b := by
    have := F.rnd_err (a.val * b.val)
    rw [show (a * b).val = F.rnd (a.val * b.val) from rfl, ← norm_mul, ← Complex.ofReal_mul, ← Complex.ofReal_sub,
      Complex.norm_real, Complex.norm_real]
    exact this

theorem FC.approx (F : Rounding) : Approx (FC F) F.u (Real.sqrt 2 * (2 * F.u + F.u ^ 2)) FC.val where
  u0 := F.u_nonneg
  v0 := by have := F.u_nonneg; positivity
  zero := by apply Complex.ext <;> rfl
  add := FC.add_err
  mul := FC.mul_err

end Neo
