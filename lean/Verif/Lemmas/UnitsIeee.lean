import Verif.Model.UnitsIeee
import Verif.Lemmas.NormIeee
import Verif.Lemmas.IeeeError

/-! # The order of IEEE values, and relative errors of products and quotients -/

namespace Neo

open Spec

variable {f : Fmt}

/-! ## Order -/

theorem Spec.FVal.Le.trans {a b c : FVal} (h1 : a.Le b) (h2 : b.Le c) : a.Le c := by
  cases a <;> cases b <;> cases c <;> simp only [FVal.Le] at h1 h2 ⊢ <;> first
    | exact le_trans h1 h2
    | tauto
    | (cases h1 <;> simp_all)

theorem Spec.FVal.le_refl {a : FVal} (h : a ≠ .nan) : a.Le a := by
  cases a with
  | fin x => exact _root_.le_refl x
  | inf s => cases s <;> simp [FVal.Le]
  | nan => exact absurd rfl h

theorem Spec.FVal.Le.round {a b : FVal} (hp : 1 ≤ f.p) (h : a.Le b) : (f.round a).Le (f.round b) := by
  have hE := two_zpow_pos f.emax
  cases a with
  | nan => simp [FVal.Le] at h
  | inf s =>
    cases b with
    | nan => simp [FVal.Le] at h
    | inf t => exact h
    | fin y =>
      simp only [FVal.Le] at h
      subst h
      unfold Fmt.round
      dsimp only
      split <;> simp [FVal.Le]
  | fin x =>
    cases b with
    | nan => simp [FVal.Le] at h
    | inf t =>
      simp only [FVal.Le] at h
      subst h
      unfold Fmt.round
      dsimp only
      split <;> simp [FVal.Le]
    | fin y =>
      have hm := rndInf_mono f hp (show x ≤ y from h)
      unfold Fmt.round
      dsimp only
      split
      · rename_i hx
        split
        · exact hm
        · rename_i hy
          have : ¬ f.rndInf y < 0 := by
            intro hn
            rw [abs_of_neg hn] at hy
            rw [abs_lt] at hx
            exact hy (by linarith)
          simp [FVal.Le, this]
      · rename_i hx
        split
        · rename_i hy
          have : f.rndInf x < 0 := by
            by_contra hn
            rw [not_lt] at hn
            rw [abs_of_nonneg hn] at hx
            rw [abs_lt] at hy
            exact hx (by linarith)
          simp [FVal.Le, this]
        · by_cases hn : f.rndInf x < 0
          · simp [FVal.Le, hn]
          · have : ¬ f.rndInf y < 0 := by
              rw [not_lt] at hn ⊢
              linarith
            simp [FVal.Le, this]

theorem Spec.FVal.Le.const_add {a b : FVal} (c : ℝ) (h : a.Le b) : ((FVal.fin c).add a).Le ((FVal.fin c).add b) := by
  cases a <;> cases b <;> simp only [FVal.Le, FVal.add] at h ⊢ <;> first | exact h | linarith

theorem Spec.FVal.Le.sub_const {a b : FVal} (c : ℝ) (h : a.Le b) : (a.sub (.fin c)).Le (b.sub (.fin c)) := by
  cases a <;> cases b <;> simp only [FVal.Le, FVal.sub, FVal.neg, FVal.add] at h ⊢ <;> first | exact h | linarith

theorem Spec.FVal.Le.const_mul {a b : FVal} {c : ℝ} (hc : 0 < c) (h : a.Le b) :
    ((FVal.fin c).mul a).Le ((FVal.fin c).mul b) := by
  have h1 : ¬ c < 0 := hc.le.not_gt
  cases a <;> cases b <;> simp only [FVal.Le, FVal.mul, hc.ne', h1, if_false, decide_false, Bool.xor_false] at h ⊢ <;> first
    | exact h
    | exact mul_le_mul_of_nonneg_left h hc.le

theorem Spec.FVal.Le.mul_const {a b : FVal} {c : ℝ} (hc : 0 < c) (h : a.Le b) :
    (a.mul (.fin c)).Le (b.mul (.fin c)) := by
  have h1 : ¬ c < 0 := hc.le.not_gt
  cases a <;> cases b <;> simp only [FVal.Le, FVal.mul, hc.ne', h1, if_false, decide_false, Bool.xor_false] at h ⊢ <;> first
    | exact h
    | exact mul_le_mul_of_nonneg_right h hc.le

theorem Spec.FVal.Le.div_const {a b : FVal} {c : ℝ} (hc : 0 < c) (h : a.Le b) :
    (a.div (.fin c)).Le (b.div (.fin c)) := by
  have h1 : ¬ c < 0 := hc.le.not_gt
  cases a <;> cases b <;> simp only [FVal.Le, FVal.div, hc.ne', h1, if_false, decide_false, Bool.xor_false] at h ⊢ <;> first
    | exact h
    | exact div_le_div_of_nonneg_right h hc.le

theorem Spec.FVal.Le.ne_nan {a b : FVal} (h : a.Le b) : a ≠ .nan ∧ b ≠ .nan := by
  cases a <;> cases b <;> simp_all [FVal.Le]

/-! ## Rounded integers -/

theorem ofNat_mono (hp : 1 ≤ f.p) {i j : ℕ} (h : i ≤ j) : (ofNat f i).Le (ofNat f j) :=
  FVal.Le.round hp (show (i : ℝ) ≤ j by exact_mod_cast h)

theorem ofNat_zero : ofNat f 0 = .fin 0 := by
  unfold ofNat
  rw [Nat.cast_zero]
  exact round_mem (onGrid_zero f) (by rw [abs_zero]; exact two_zpow_pos _)

theorem minNormal_le_one (hf : f.Ieee) : f.minNormal ≤ 1 := by
  unfold Fmt.minNormal
  rw [← zpow_zero (2 : ℝ)]
  exact zpow_le_zpow_right₀ (by norm_num) (by have := hf.2.2; have := hf.2.1; omega)

/-! ## Relative errors -/

/-- `φ` is a product or quotient of `k` factors, each within the unit roundoff of one. -/
def Fac (f : Fmt) (k : ℕ) (φ : ℝ) : Prop := (1 - f.u) ^ k ≤ φ ∧ φ * (1 - f.u) ^ k ≤ 1

theorem Fac.pos (hf : f.Ieee) {k : ℕ} {φ : ℝ} (h : Fac f k φ) : 0 < φ := by
  have := u_le hf
  exact lt_of_lt_of_le (pow_pos (by linarith) k) h.1

theorem Fac.one (hf : f.Ieee) (k : ℕ) : Fac f k 1 := by
  have h1 := u_le hf
  have h2 := u_pos f
  have : (1 - f.u) ^ k ≤ 1 := pow_le_one₀ (by linarith) (by linarith)
  exact ⟨this, by linarith⟩

theorem Fac.mul (hf : f.Ieee) {j k : ℕ} {φ ψ : ℝ} (h : Fac f j φ) (h' : Fac f k ψ) : Fac f (j + k) (φ * ψ) := by
  have h1 := u_le hf
  have hv : 0 < 1 - f.u := by linarith
  have a := pow_pos hv j
  have b := pow_pos hv k
  have c := h.pos hf
  have d := h'.pos hf
  constructor
  · rw [pow_add]
    exact mul_le_mul h.1 h'.1 b.le c.le
  · rw [pow_add]
    calc φ * ψ * ((1 - f.u) ^ j * (1 - f.u) ^ k) = (φ * (1 - f.u) ^ j) * (ψ * (1 - f.u) ^ k) := by ring
      _ ≤ 1 * 1 := mul_le_mul h.2 h'.2 (by positivity) (by norm_num)
      _ = 1 := one_mul 1

theorem Fac.inv (hf : f.Ieee) {k : ℕ} {φ : ℝ} (h : Fac f k φ) : Fac f k (1 / φ) := by
  have c := h.pos hf
  constructor
  · rw [le_div_iff₀ c, mul_comm]; exact h.2
  · rw [div_mul_eq_mul_div, one_mul, div_le_one c]; exact h.1

theorem Fac.div (hf : f.Ieee) {j k : ℕ} {φ ψ : ℝ} (h : Fac f j φ) (h' : Fac f k ψ) : Fac f (j + k) (φ / ψ) := by
  rw [div_eq_mul_one_div]
  exact h.mul hf (h'.inv hf)

/-- Rounding a positive normal number is multiplying with such a factor. -/
theorem rndInf_fac (hf : f.Ieee) {t : ℝ} (ht : f.minNormal ≤ t) : ∃ φ, f.rndInf t = t * φ ∧ Fac f 1 φ := by
  have h0 : 0 < t := (minNormal_pos f).trans_le ht
  have hu := u_pos f
  have := rndInf_abs_err hf (le_of_eq (abs_of_pos h0)) ht
  rw [abs_le] at this
  refine ⟨f.rndInf t / t, by field_simp, ?_, ?_⟩
  · rw [pow_one, le_div_iff₀ h0]; linarith
  · rw [pow_one, div_mul_eq_mul_div, div_le_one h0]
    have h8 := u_le hf
    nlinarith [mul_pos hu h0]

theorem Fac.sub_one (hf : f.Ieee) {k : ℕ} {φ e : ℝ} (h : Fac f k φ) (hk : k * f.u < 1) (he : k * f.u ≤ e * (1 - k * f.u)) :
    |φ - 1| ≤ e := by
  have hu := u_pos f
  have h8 := u_le hf
  have hb : 1 - k * f.u ≤ (1 - f.u) ^ k := by
    have := one_add_mul_le_pow (a := -f.u) (by linarith) k
    have e1 : (1 + -f.u) ^ k = (1 - f.u) ^ k := by rw [sub_eq_add_neg]
    rw [e1] at this
    linarith
  have hku : 0 ≤ k * f.u := by positivity
  have c := h.pos hf
  have h1 : φ * (1 - k * f.u) ≤ 1 := le_trans (mul_le_mul_of_nonneg_left hb c.le) h.2
  have h2 := h.1
  rw [abs_le]
  have he0 : k * f.u ≤ e := by
    have : 0 ≤ e := by
      by_contra hc
      rw [not_le] at hc
      nlinarith
    nlinarith
  constructor
  · linarith
  · have : (φ - 1) * (1 - k * f.u) ≤ e * (1 - k * f.u) := by linarith
    exact le_of_mul_le_mul_right this (by linarith)

theorem ofNat_fac (hf : f.Ieee) {n : ℕ} (hn : 1 ≤ n) (ho : 2 * (n : ℝ) ≤ (2 : ℝ) ^ f.emax) :
    ∃ φ, ofNat f n = .fin (n * φ) ∧ Fac f 1 φ ∧ f.OnGrid (n * φ) := by
  have hn' : (1 : ℝ) ≤ n := by exact_mod_cast hn
  obtain ⟨φ, e, h⟩ := rndInf_fac hf (t := n) ((minNormal_le_one hf).trans hn')
  refine ⟨φ, ?_, h, ?_⟩
  · unfold ofNat
    rw [← e]
    refine round_fin_of_lt ?_
    rw [e, abs_of_pos (mul_pos (by linarith) (h.pos hf))]
    have h2 := h.2
    rw [pow_one] at h2
    have := u_le hf
    have hφ : φ < 2 := by
      by_contra hc
      rw [not_lt] at hc
      nlinarith
    nlinarith
  · rw [← e]
    exact (rndInf_nearest f (by have := hf.1; omega) _).1

/-- `v` is the positive number `t` with a relative error of at most `k` roundings. -/
def Ap (f : Fmt) (k : ℕ) (t : ℝ) (v : FVal) : Prop := ∃ φ, v = .fin (t * φ) ∧ Fac f k φ

theorem Fac.near_one (hf : f.Ieee) {k : ℕ} {φ : ℝ} (h : Fac f k φ) (hk : k * f.u ≤ 1 / 8) : 6 / 7 ≤ φ ∧ φ ≤ 8 / 7 := by
  have := h.sub_one hf (e := 1 / 7) (by linarith) (by linarith)
  rw [abs_le] at this
  constructor <;> linarith

theorem Ap.round (hf : f.Ieee) {k : ℕ} {t φ : ℝ} (h : Fac f k φ) (hk : k * f.u ≤ 1 / 8) (h1 : 2 * f.minNormal ≤ t)
    (h2 : 2 * t ≤ (2 : ℝ) ^ f.emax) : Ap f (k + 1) t (f.round (.fin (t * φ))) := by
  have hν := minNormal_pos f
  have hE := two_zpow_pos f.emax
  have ht : 0 < t := by linarith
  have hφ := h.near_one hf hk
  have a1 : t * (6 / 7) ≤ t * φ := mul_le_mul_of_nonneg_left hφ.1 ht.le
  have a2 : t * φ ≤ t * (8 / 7) := mul_le_mul_of_nonneg_left hφ.2 ht.le
  obtain ⟨ψ, e, hψ⟩ := rndInf_fac hf (t := t * φ) (by linarith)
  have hψ2 : ψ ≤ 8 / 7 := by
    have h8 := u_le hf
    exact (hψ.near_one hf (by rw [Nat.cast_one, one_mul]; exact h8)).2
  have hψ0 := hψ.pos hf
  refine ⟨φ * ψ, ?_, h.mul hf hψ⟩
  rw [← mul_assoc, ← e]
  refine round_fin_of_lt ?_
  rw [e, abs_of_pos (mul_pos (by linarith) hψ0)]
  have : t * φ * ψ ≤ t * (8 / 7) * (8 / 7) := mul_le_mul a2 hψ2 hψ0.le (by linarith)
  linarith

theorem Ap.mul (hf : f.Ieee) {j k : ℕ} {s t : ℝ} {a b : FVal} (ha : Ap f j s a) (hb : Ap f k t b)
    (hk : (j + k : ℕ) * f.u ≤ 1 / 8) (h1 : 2 * f.minNormal ≤ s * t) (h2 : 2 * (s * t) ≤ (2 : ℝ) ^ f.emax) :
    Ap f (j + k + 1) (s * t) (f.round (a.mul b)) := by
  obtain ⟨φ, rfl, hφ⟩ := ha
  obtain ⟨ψ, rfl, hψ⟩ := hb
  have := Ap.round hf (hφ.mul hf hψ) hk h1 h2
  unfold FVal.mul
  dsimp only
  rwa [show s * φ * (t * ψ) = s * t * (φ * ψ) by ring]

theorem Ap.div (hf : f.Ieee) {j k : ℕ} {s t : ℝ} {a b : FVal} (ha : Ap f j s a) (hb : Ap f k t b) (ht : 0 < t)
    (hk : (j + k : ℕ) * f.u ≤ 1 / 8) (h1 : 2 * f.minNormal ≤ s / t) (h2 : 2 * (s / t) ≤ (2 : ℝ) ^ f.emax) :
    Ap f (j + k + 1) (s / t) (f.round (a.div b)) := by
  obtain ⟨φ, rfl, hφ⟩ := ha
  obtain ⟨ψ, rfl, hψ⟩ := hb
  have := Ap.round hf (hφ.div hf hψ) hk h1 h2
  unfold FVal.div
  dsimp only
  rw [if_neg (mul_pos ht (hψ.pos hf)).ne']
  rwa [show s * φ / (t * ψ) = s / t * (φ / ψ) by rw [mul_div_mul_comm]]

theorem Ap.exact (hf : f.Ieee) (t : ℝ) : Ap f 0 t (.fin t) := ⟨1, by rw [mul_one], Fac.one hf 0⟩

theorem Ap.err (hf : f.Ieee) {k : ℕ} {t e : ℝ} {v : FVal} (h : Ap f k t v) (ht : 0 ≤ t) (hk : k * f.u < 1)
    (he : k * f.u ≤ e * (1 - k * f.u)) : ∃ y, v = .fin y ∧ |y - t| ≤ e * t := by
  obtain ⟨φ, rfl, hφ⟩ := h
  refine ⟨_, rfl, ?_⟩
  rw [show t * φ - t = (φ - 1) * t by ring, abs_mul, abs_of_nonneg ht]
  exact mul_le_mul_of_nonneg_right (hφ.sub_one hf hk he) ht

theorem ofNat_ap (hf : f.Ieee) {n : ℕ} (hn : 1 ≤ n) (ho : 2 * (n : ℝ) ≤ (2 : ℝ) ^ f.emax) : Ap f 1 n (ofNat f n) := by
  obtain ⟨φ, e, h, -⟩ := ofNat_fac hf hn ho
  exact ⟨φ, e, h⟩

theorem round_eq_fin {v : FVal} {d : ℝ} (hp : 1 ≤ f.p) (h : f.round v = .fin d) :
    f.OnGrid d ∧ |d| < (2 : ℝ) ^ f.emax := by
  cases v with
  | nan => cases h
  | inf s => cases h
  | fin x =>
    unfold Fmt.round at h
    dsimp only at h
    split at h
    · rename_i hx
      injection h with h
      subst h
      exact ⟨(rndInf_nearest f hp x).1, hx⟩
    · cases h

theorem recip_pos (hf : f.Ieee) {d : ℝ} (hg : f.OnGrid d) (h1 : (2 : ℝ) ^ (-f.emax) < d)
    (h2 : d < (2 : ℝ) ^ f.emax) : ∃ r, 0 < r ∧ f.round ((FVal.fin 1).div (.fin d)) = .fin r := by
  have hp : 1 ≤ f.p := by have := hf.1; omega
  have hd : 0 < d := (two_zpow_pos _).trans h1
  have hr := recip_finite hf hg h1
  have h3 : (2 : ℝ) ^ (-f.emax) ≤ f.rndInf (1 / d) := by
    refine grid_le_rndInf hp (two_zpow_onGrid hp ?_) ?_
    · have := hf.2.2; have := hf.1; omega
    · rw [zpow_neg, ← one_div]
      exact one_div_le_one_div_of_le hd h2.le
  refine ⟨_, (two_zpow_pos _).trans_le h3, ?_⟩
  unfold FVal.div
  dsimp only
  rw [if_neg hd.ne']
  exact round_fin_of_lt (by rw [abs_of_nonneg hr.1]; exact hr.2)

theorem eight_le_emax (hf : f.Ieee) : (8 : ℝ) ≤ (2 : ℝ) ^ f.emax := by
  have : (2 : ℝ) ^ (3 : ℤ) ≤ (2 : ℝ) ^ f.emax := zpow_le_zpow_right₀ (by norm_num) hf.2.1
  norm_num at this
  exact this

theorem minNormal_mul_emax (hf : f.Ieee) : f.minNormal * (2 : ℝ) ^ f.emax = 4 := by
  unfold Fmt.minNormal
  rw [← zpow_add₀ (by norm_num), show f.emin + f.p - 1 + f.emax = 2 by have := hf.2.2; omega]
  norm_num

theorem ofNat_pos (hf : f.Ieee) {n : ℕ} (hn : 1 ≤ n) (ho : 2 * (n : ℝ) ≤ (2 : ℝ) ^ f.emax) :
    ∃ s, 1 ≤ s ∧ ofNat f n = .fin s ∧ f.OnGrid s ∧ s < (2 : ℝ) ^ f.emax := by
  have hp : 1 ≤ f.p := by have := hf.1; omega
  obtain ⟨φ, e, -, hg⟩ := ofNat_fac hf hn ho
  have hm := round_eq_fin hp (v := .fin n) (d := n * φ) e
  refine ⟨_, ?_, e, hg, (le_abs_self _).trans_lt hm.2⟩
  have : f.round (.fin n) = .fin (f.rndInf n) := by
    unfold ofNat Fmt.round at e
    unfold Fmt.round
    dsimp only at e ⊢
    split at e
    · rename_i h; rw [if_pos h]
    · cases e
  have e2 : (n : ℝ) * φ = f.rndInf n := by
    unfold ofNat at e
    rw [this] at e
    injection e with e
    exact e.symm
  rw [e2]
  exact grid_le_rndInf hp (one_onGrid hf) (by exact_mod_cast hn)

theorem Fac.coarser {g : Fmt} (hg : g.Ieee) (h : g.u ≤ f.u) {φ : ℝ} (hφ : Fac g 1 φ) : Fac f 1 φ := by
  have h0 := hφ.pos hg
  unfold Fac at hφ ⊢
  rw [pow_one] at hφ ⊢
  have : φ * (1 - f.u) ≤ φ * (1 - g.u) := mul_le_mul_of_nonneg_left (by linarith) h0.le
  exact ⟨by linarith [hφ.1], this.trans hφ.2⟩

theorem binary64_ieee : binary64.Ieee := by unfold Fmt.Ieee binary64; norm_num

theorem u_binary64 : binary64.u = 1 / 2 ^ 53 := by
  show (2 : ℝ) ^ (-((53 : ℕ) : ℤ)) = _
  rw [zpow_neg, zpow_natCast, one_div]

theorem u_coarser (h : f.p ≤ 53) : binary64.u ≤ f.u := by
  show (2 : ℝ) ^ (-((53 : ℕ) : ℤ)) ≤ (2 : ℝ) ^ (-(f.p : ℤ))
  exact zpow_le_zpow_right₀ (by norm_num) (by omega)

theorem binary64_minNormal : binary64.minNormal ≤ 1 / 4 := by
  have h : (2 : ℝ) ^ ((-1074 : ℤ) + ((53 : ℕ) : ℤ) - 1) ≤ (2 : ℝ) ^ (-2 : ℤ) := zpow_le_zpow_right₀ (by norm_num) (by norm_num)
  have e : (2 : ℝ) ^ (-2 : ℤ) = 1 / 4 := by norm_num
  rw [e] at h
  exact h

/-- Constants of type `double`: two roundings. -/
theorem ofDouble_ap (hf : f.Ieee) (h53 : f.p ≤ 53) {x : ℝ} (h1 : 2 * f.minNormal ≤ x) (h1' : 1 / 4 ≤ x) (h2 : 2 * x ≤ (2 : ℝ) ^ f.emax)
    (h3 : x ≤ 4) : Ap f 2 x (ofDouble f x) := by
  have hb := binary64_ieee
  obtain ⟨φ, e, hφ⟩ := rndInf_fac hb (t := x) (binary64_minNormal.trans h1')
  have hφ' := hφ.coarser hb (u_coarser h53)
  have e2 : binary64.round (.fin x) = .fin (x * φ) := by
    rw [← e]
    refine round_fin_of_lt ?_
    have hφ2 := (hφ.near_one hb (by rw [Nat.cast_one, one_mul]; exact u_le hb)).2
    have hφ0 := hφ.pos hb
    rw [e, abs_of_pos (mul_pos (by linarith) hφ0)]
    have h8 : (2 : ℝ) ^ (3 : ℤ) ≤ (2 : ℝ) ^ binary64.emax := zpow_le_zpow_right₀ (by norm_num) (by norm_num [binary64])
    have e8 : (2 : ℝ) ^ (3 : ℤ) = 8 := by norm_num
    have : x * φ ≤ 4 * (8 / 7) := mul_le_mul h3 hφ2 hφ0.le (by norm_num)
    linarith
  unfold ofDouble
  rw [e2]
  exact Ap.round hf hφ' (by rw [Nat.cast_one, one_mul]; exact u_le hf) h1 h2

end Neo
