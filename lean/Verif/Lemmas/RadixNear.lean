import Verif.Lemmas.RadixAny
import Verif.Lemmas.StockhamIeee

/-! # Errors of the in-place plans of radix 3 and 5 -/

namespace Neo

open Finset Spec

variable {f : Fmt} {C : Type} [Add C] [Mul C] {inj : ℂ → C}

/-- The rules for sums and products. -/
structure RadixNear (f : Fmt) (inj : ℂ → C) : Prop where
  add : ∀ {z w : C} {ζ ξ : ℂ} {M K γ : ℝ}, NearP inj z ζ M γ → NearP inj w ξ K γ → 1 ≤ γ → f.minNormal ≤ M + K →
    γ * (1 + 2 * f.u) * (M + K) < (2 : ℝ) ^ f.emax → NearP inj (z + w) (ζ + ξ) (M + K) (γ * (1 + 2 * f.u))
  mul : ∀ {z w : C} {ζ ξ : ℂ} {M K γ κ : ℝ}, NearP inj z ζ M γ → NearP inj w ξ K κ → 1 ≤ γ → 1 ≤ κ →
    f.minNormal ≤ M * K → γ * κ * (1 + 5 * f.u) * (M * K) < (2 : ℝ) ^ f.emax →
    NearP inj (z * w) (ζ * ξ) (M * K) (γ * κ * (1 + 5 * f.u))

theorem radixNear_ieee (hf : f.Ieee) : RadixNear f (IC.pt : ℂ → IC f) where
  add hz hw hγ hn ho := nearP_pt.2 (NearC.add hf (nearP_pt.1 hz) (nearP_pt.1 hw) hγ hn ho)
  mul hz hw hγ hκ hn ho := nearP_pt.2 (NearC.mul hf (nearP_pt.1 hz) (nearP_pt.1 hw) hγ hκ hn ho)

theorem radixNear_std (hf : f.Ieee) : RadixNear f (fun y => (IC.pt y : IC f).std) where
  add hz hw hγ hn ho := by
    obtain ⟨z, rfl, kz⟩ := nearP_std.1 hz
    obtain ⟨w, rfl, kw⟩ := nearP_std.1 hw
    exact nearP_std.2 ⟨z + w, rfl, NearC.add hf kz kw hγ hn ho⟩
  mul hz hw hγ hκ hn ho := by
    obtain ⟨z, rfl, kz⟩ := nearP_std.1 hz
    obtain ⟨w, rfl, kw⟩ := nearP_std.1 hw
    have hm := NearC.mul hf kz kw hγ hκ hn ho
    refine nearP_std.2 ⟨z * w, ?_, hm⟩
    rcases annexMul_cases z w with e | ⟨e, -, -⟩
    · exact e
    · obtain ⟨a, b, e', -, -⟩ := hm
      rw [e'] at e
      exact absurd e (by simp)

section rules
variable {G T : ℝ}

theorem RadixNear.mul' (S : RadixNear f inj) (hB : G * T < (2 : ℝ) ^ f.emax) {z w : C} {ζ ξ : ℂ} {M g k g' : ℝ}
    (hz : NearP inj z ζ M g) (hw : NearP inj w ξ 1 k) (hg : 1 ≤ g) (hk : 1 ≤ k) (hM : f.minNormal ≤ M) (hT : M ≤ T)
    (h : g * k * (1 + 5 * f.u) ≤ g') (hG : g' ≤ G) : NearP inj (z * w) (ζ * ξ) M g' := by
  have hν := minNormal_pos f
  have hu := u_pos f
  have h0 : 0 ≤ g * k * (1 + 5 * f.u) := by positivity
  have := S.mul hz hw hg hk (by rwa [mul_one]) (by
    rw [mul_one]
    exact lt_of_le_of_lt (mul_le_mul (h.trans hG) hT (by linarith) (h0.trans (h.trans hG))) hB)
  rw [mul_one] at this
  exact this.mono h

theorem RadixNear.add' (S : RadixNear f inj) (hB : G * T < (2 : ℝ) ^ f.emax) {z w : C} {ζ ξ : ℂ} {M K g : ℝ}
    (hz : NearP inj z ζ M g) (hw : NearP inj w ξ K g) (hg : 1 ≤ g) (hM : f.minNormal ≤ M) (hK : f.minNormal ≤ K)
    (hT : M + K ≤ T) (hG : g * (1 + 2 * f.u) ≤ G) : NearP inj (z + w) (ζ + ξ) (M + K) (g * (1 + 2 * f.u)) := by
  have hν := minNormal_pos f
  have hu := u_pos f
  have h0 : 0 ≤ g * (1 + 2 * f.u) := by positivity
  exact S.add hz hw hg (by linarith) (lt_of_le_of_lt (mul_le_mul hG hT (by linarith) (h0.trans hG)) hB)

end rules

/-- Growth of the errors of one butterfly, for a twiddle near with `κ` and constants accurate to `ε`. -/
noncomputable def bflyGrowth (f : Fmt) (ε : ℝ) (r : ℕ) (κ γ : ℝ) : ℝ :=
  γ * (κ * (1 + 5 * f.u)) ^ r * (1 + 5 * f.u) * ((1 + ε) * (1 + 5 * f.u)) * (1 + 2 * f.u) ^ r

/-- The butterfly `val` of radix `R` has this growth. -/
def IsNearRadix (f : Fmt) (inj : ℂ → C) (R : ℕ) (dir : Direction) (ε : ℝ) (val : C → (ℕ → C) → ℕ → C) : Prop :=
  ∀ (wi : C) (ω : ℂ) (κ : ℝ), NearP inj wi ω 1 κ → 1 ≤ κ → ∀ (c : ℕ → C) (ξ : ℕ → ℂ) (M : ℕ → ℝ) (γ T : ℝ), 1 ≤ γ →
    (∀ v < R, NearP inj (c v) (ξ v) (M v) γ) → (∀ v < R, f.minNormal ≤ M v) → f.minNormal ≤ 1 → 1 ≤ T →
    ∑ v ∈ range R, M v ≤ T → bflyGrowth f ε (R - 1) κ γ * T < (2 : ℝ) ^ f.emax → ∀ u < R,
    NearP inj (val wi c u) (∑ v ∈ range R, ξ v * ω ^ v * root R dir ^ (v * u)) (∑ v ∈ range R, M v)
      (bflyGrowth f ε (R - 1) κ γ)

section butterflies
variable {tw : ℕ → ℕ → Direction → C} {dir : Direction} {ε : ℝ}

/-- The constants of the butterfly of radix `R` are accurate to `ε`. -/
def CstNear (inj : ℂ → C) (tw : ℕ → ℕ → Direction → C) (R : ℕ) (dir : Direction) (ε : ℝ) : Prop :=
  ∀ k, 1 ≤ k → k < R → NearP inj (radixCst tw R dir k) (root R dir ^ k) 1 (1 + ε)

omit [Add C] [Mul C] in
private theorem NearP.eq {z : C} {ζ ζ' : ℂ} {M M' γ γ' : ℝ} (h : NearP inj z ζ M γ) (e : ζ = ζ') (e' : M = M')
    (e'' : γ ≤ γ') : NearP inj z ζ' M' γ' := by
  subst e e'
  exact h.mono e''

/-- What the butterflies use about the growth. -/
private theorem facts {κ γ : ℝ} (hε : 0 ≤ ε) (hκ : 1 ≤ κ) (hγ : 1 ≤ γ) (r : ℕ) {p g1 g2 a : ℝ} (hp : p = κ * (1 + 5 * f.u))
    (h1 : g1 = γ * p ^ r * (1 + 5 * f.u)) (h2 : g2 = g1 * ((1 + ε) * (1 + 5 * f.u))) (ha : a = 1 + 2 * f.u) :
    1 ≤ p ∧ κ ≤ p ∧ 1 ≤ g1 ∧ g1 ≤ g2 ∧ 1 ≤ a ∧ γ ≤ g2 ∧ (∀ k ≤ r, p ^ k ≤ g2 * a ^ r) ∧
      (∀ k ≤ r, γ * p ^ k * (1 + 5 * f.u) ≤ g1) ∧ (∀ k ≤ r, g2 * a ^ k ≤ g2 * a ^ r) ∧ g1 ≤ g2 * a ^ r ∧
      bflyGrowth f ε r κ γ = g2 * a ^ r := by
  have hu := u_pos f
  have hm : 1 ≤ 1 + 5 * f.u := by linarith
  have hp1 : 1 ≤ p := by rw [hp]; exact one_le_mul_of_one_le_of_one_le hκ hm
  have ha1 : 1 ≤ a := by rw [ha]; linarith
  have hpr : 1 ≤ p ^ r := one_le_pow₀ hp1
  have hpk : ∀ k ≤ r, p ^ k ≤ p ^ r := fun k hk => pow_le_pow_right₀ hp1 hk
  have hγp : 1 ≤ γ * p ^ r := one_le_mul_of_one_le_of_one_le hγ hpr
  have hg1 : γ * p ^ r ≤ g1 := by rw [h1]; exact le_mul_of_one_le_right (by linarith) hm
  have he : 1 ≤ (1 + ε) * (1 + 5 * f.u) := one_le_mul_of_one_le_of_one_le (by linarith) hm
  have h12 : g1 ≤ g2 := by rw [h2]; exact le_mul_of_one_le_right (by linarith) he
  have har : 1 ≤ a ^ r := one_le_pow₀ ha1
  have h2a : g2 ≤ g2 * a ^ r := le_mul_of_one_le_right (by linarith) har
  have hpg : p ^ r ≤ γ * p ^ r := le_mul_of_one_le_left (by linarith) hγ
  have hγg : γ ≤ γ * p ^ r := le_mul_of_one_le_right (by linarith) hpr
  refine ⟨hp1, by rw [hp]; exact le_mul_of_one_le_right (by linarith) hm, by linarith, h12, ha1, by linarith,
    fun k hk => by have := hpk k hk; linarith, fun k hk => ?_, fun k hk => ?_, by linarith, ?_⟩
  · rw [h1]
    exact mul_le_mul_of_nonneg_right (mul_le_mul_of_nonneg_left (hpk k hk) (by linarith)) (by linarith)
  · exact mul_le_mul_of_nonneg_left (pow_le_pow_right₀ ha1 hk) (by linarith)
  · unfold bflyGrowth
    rw [h2, h1, hp, ha]

theorem dif3_near (S : RadixNear f inj) (hε : 0 ≤ ε) (hc : CstNear inj tw 3 dir ε) :
    IsNearRadix f inj 3 dir ε (dif3Val tw dir) := by
  intro wi ω κ hwi hκ c ξ M γ T hγ hcv hM hν1 hT1 hT hB u hu
  have hν := minNormal_pos f
  obtain ⟨p, hp⟩ : ∃ p, p = κ * (1 + 5 * f.u) := ⟨_, rfl⟩
  obtain ⟨g1, h1⟩ : ∃ g1, g1 = γ * p ^ 2 * (1 + 5 * f.u) := ⟨_, rfl⟩
  obtain ⟨g2, h2⟩ : ∃ g2, g2 = g1 * ((1 + ε) * (1 + 5 * f.u)) := ⟨_, rfl⟩
  obtain ⟨a, ha⟩ : ∃ a, a = 1 + 2 * f.u := ⟨_, rfl⟩
  obtain ⟨f1, f2, f3, f4, f5, f6, f7, f8, f9, f10, f11⟩ := facts (f := f) hε hκ hγ 2 hp h1 h2 ha
  show NearP inj _ _ _ (bflyGrowth f ε 2 κ γ)
  replace hB : g2 * a ^ 2 * T < (2 : ℝ) ^ f.emax := by rw [← f11]; exact hB
  rw [f11]
  have hS : ∑ v ∈ range 3, M v = M 0 + M 1 + M 2 := by
    simp only [sum_range_succ, sum_range_zero, zero_add]
  rw [hS] at hT ⊢
  have m0 := hM 0 (by norm_num)
  have m1 := hM 1 (by norm_num)
  have m2 := hM 2 (by norm_num)
  have f12 : 1 ≤ g2 := f3.trans f4
  have k0 := (hcv 0 (by norm_num)).mono f6
  have w1 : NearP inj wi ω 1 (p ^ 1) := hwi.mono (by rw [pow_one]; exact f2)
  have w2 : NearP inj (wi * wi) (ω * ω) 1 (p ^ 2) := S.mul' hB hwi hwi hκ hκ hν1 hT1 (by
    rw [pow_two, mul_assoc, ← hp]; exact mul_le_mul_of_nonneg_right f2 (by linarith)) (f7 2 (by norm_num))
  have t1 : NearP inj (c 1 * wi) (ξ 1 * ω) (M 1) g1 := S.mul' hB (hcv 1 (by norm_num)) w1 hγ (one_le_pow₀ f1) m1
    (by linarith) (f8 1 (by norm_num)) f10
  have t2 : NearP inj (c 2 * (wi * wi)) (ξ 2 * (ω * ω)) (M 2) g1 := S.mul' hB (hcv 2 (by norm_num)) w2 hγ (one_le_pow₀ f1)
    m2 (by linarith) (f8 2 (by norm_num)) f10
  have hs : ∀ {z : C} {ζ : ℂ} {K : ℝ}, NearP inj z ζ K g1 → f.minNormal ≤ K → K ≤ T → ∀ k, 1 ≤ k → k < 3 →
      NearP inj (z * radixCst tw 3 dir k) (ζ * root 3 dir ^ k) K g2 := fun hz hK hKT k k1 k2 =>
    S.mul' hB hz (hc k k1 k2) f3 (by linarith) hK hKT (by rw [h2, mul_assoc]) (by
      have := f9 0 (by norm_num); rwa [pow_zero, mul_one] at this)
  have a1 : g2 * (1 + 2 * f.u) ≤ g2 * a ^ 2 := by
    have := f9 1 (by norm_num); rw [← ha]; rwa [pow_one] at this
  have ga : 1 ≤ g2 * (1 + 2 * f.u) := by
    rw [← ha]; exact one_le_mul_of_one_le_of_one_le f12 f5
  have a2 : g2 * (1 + 2 * f.u) * (1 + 2 * f.u) = g2 * a ^ 2 := by rw [ha]; ring
  have hu' : u = 0 ∨ u = 1 ∨ u = 2 := by omega
  have hz := root_pow_self (N := 3) (by norm_num) dir
  have z4 : root 3 dir ^ 4 = root 3 dir := by rw [pow_succ, hz, one_mul]
  have up : ∀ {z : C} {ζ : ℂ} {K : ℝ}, NearP inj z ζ K g2 → NearP inj z ζ K (g2 * (1 + 2 * f.u)) := fun h =>
    h.mono (le_mul_of_one_le_right (by linarith) (by rw [← ha]; exact f5))
  have pair : ∀ k l, 1 ≤ k → k < 3 → 1 ≤ l → l < 3 →
      NearP inj (c 0 + c 1 * wi * radixCst tw 3 dir k + c 2 * (wi * wi) * radixCst tw 3 dir l)
        (ξ 0 + ξ 1 * ω * root 3 dir ^ k + ξ 2 * (ω * ω) * root 3 dir ^ l) (M 0 + M 1 + M 2)
        (g2 * (1 + 2 * f.u) * (1 + 2 * f.u)) := fun k l k1 k2 l1 l2 =>
    S.add' hB (S.add' hB k0 (hs t1 m1 (by linarith) k k1 k2) f12 m0 m1 (by linarith) a1)
      (up (hs t2 m2 (by linarith) l l1 l2)) ga (by linarith) m2 (by linarith) a2.le
  obtain rfl | rfl | rfl := hu'
  · refine NearP.eq (S.add' hB (up k0) (S.add' hB (t1.mono f4) (t2.mono f4) f12 m1 m2 (by linarith) a1) ga m0 (by linarith)
      (by linarith) a2.le) ?_ (by ring) a2.le
    simp only [sum_range_succ, sum_range_zero, mul_zero, pow_zero, pow_one, zero_add]
    ring
  · refine NearP.eq (pair 1 2 (by norm_num) (by norm_num) (by norm_num) (by norm_num)) ?_ rfl a2.le
    simp only [sum_range_succ, sum_range_zero, zero_mul, mul_one, pow_zero, pow_one, zero_add]
    ring
  · refine NearP.eq (pair 2 1 (by norm_num) (by norm_num) (by norm_num) (by norm_num)) ?_ rfl a2.le
    simp only [sum_range_succ, sum_range_zero, zero_mul, Nat.reduceMul, pow_zero, pow_one, zero_add, z4]
    ring

theorem dif5_near (S : RadixNear f inj) (hε : 0 ≤ ε) (hc : CstNear inj tw 5 dir ε) :
    IsNearRadix f inj 5 dir ε (dif5Val tw dir) := by
  intro wi ω κ hwi hκ c ξ M γ T hγ hcv hM hν1 hT1 hT hB u hu
  have hν := minNormal_pos f
  obtain ⟨p, hp⟩ : ∃ p, p = κ * (1 + 5 * f.u) := ⟨_, rfl⟩
  obtain ⟨g1, h1⟩ : ∃ g1, g1 = γ * p ^ 4 * (1 + 5 * f.u) := ⟨_, rfl⟩
  obtain ⟨g2, h2⟩ : ∃ g2, g2 = g1 * ((1 + ε) * (1 + 5 * f.u)) := ⟨_, rfl⟩
  obtain ⟨a, ha⟩ : ∃ a, a = 1 + 2 * f.u := ⟨_, rfl⟩
  obtain ⟨f1, f2, f3, f4, f5, f6, f7, f8, f9, f10, f11⟩ := facts (f := f) hε hκ hγ 4 hp h1 h2 ha
  show NearP inj _ _ _ (bflyGrowth f ε 4 κ γ)
  replace hB : g2 * a ^ 4 * T < (2 : ℝ) ^ f.emax := by rw [← f11]; exact hB
  rw [f11]
  have hS : ∑ v ∈ range 5, M v = M 0 + M 1 + M 2 + M 3 + M 4 := by
    simp only [sum_range_succ, sum_range_zero, zero_add]
  rw [hS] at hT ⊢
  have m0 := hM 0 (by norm_num)
  have m1 := hM 1 (by norm_num)
  have m2 := hM 2 (by norm_num)
  have m3 := hM 3 (by norm_num)
  have m4 := hM 4 (by norm_num)
  have f12 : 1 ≤ g2 := f3.trans f4
  have k0 := (hcv 0 (by norm_num)).mono f6
  have ps : ∀ k, p ^ k * κ * (1 + 5 * f.u) = p ^ (k + 1) := fun k => by rw [pow_succ, mul_assoc, ← hp]
  have w1 : NearP inj wi ω 1 (p ^ 1) := hwi.mono (by rw [pow_one]; exact f2)
  have w2 : NearP inj (wi * wi) (ω * ω) 1 (p ^ 2) :=
    S.mul' hB w1 hwi (one_le_pow₀ f1) hκ hν1 hT1 (ps 1).le (f7 2 (by norm_num))
  have w3 : NearP inj (wi * wi * wi) (ω * ω * ω) 1 (p ^ 3) :=
    S.mul' hB w2 hwi (one_le_pow₀ f1) hκ hν1 hT1 (ps 2).le (f7 3 (by norm_num))
  have w4 : NearP inj (wi * wi * wi * wi) (ω * ω * ω * ω) 1 (p ^ 4) :=
    S.mul' hB w3 hwi (one_le_pow₀ f1) hκ hν1 hT1 (ps 3).le (f7 4 (by norm_num))
  have tk : ∀ {w : C} {ρ : ℂ} (k : ℕ), k < 5 → NearP inj w ρ 1 (p ^ k) → NearP inj (c k * w) (ξ k * ρ) (M k) g1 :=
    fun k hk hw => S.mul' hB (hcv k hk) hw hγ (one_le_pow₀ f1) (hM k hk) (by
      have hk' : k = 0 ∨ k = 1 ∨ k = 2 ∨ k = 3 ∨ k = 4 := by omega
      obtain rfl | rfl | rfl | rfl | rfl := hk' <;> linarith) (f8 k (by omega)) f10
  have t1 := tk 1 (by norm_num) w1
  have t2 := tk 2 (by norm_num) w2
  have t3 := tk 3 (by norm_num) w3
  have t4 := tk 4 (by norm_num) w4
  have hs : ∀ {z : C} {ζ : ℂ} {K : ℝ}, NearP inj z ζ K g1 → f.minNormal ≤ K → K ≤ T → ∀ k, 1 ≤ k → k < 5 →
      NearP inj (z * radixCst tw 5 dir k) (ζ * root 5 dir ^ k) K g2 := fun hz hK hKT k k1 k2 =>
    S.mul' hB hz (hc k k1 k2) f3 (by linarith) hK hKT (by rw [h2, mul_assoc]) (by
      have := f9 0 (by norm_num); rwa [pow_zero, mul_one] at this)
  have pw : ∀ k, g2 * a ^ k * (1 + 2 * f.u) = g2 * a ^ (k + 1) := fun k => by rw [pow_succ, ← ha]; ring
  have ga : ∀ k, 1 ≤ g2 * a ^ k := fun k => one_le_mul_of_one_le_of_one_le f12 (one_le_pow₀ f5)
  have up : ∀ {z : C} {ζ : ℂ} {K : ℝ} (k : ℕ), NearP inj z ζ K g2 → NearP inj z ζ K (g2 * a ^ k) := fun k h =>
    h.mono (le_mul_of_one_le_right (by linarith) (one_le_pow₀ f5))
  have ad : ∀ {z w : C} {ζ ρ : ℂ} {K K' : ℝ} (k : ℕ), k + 1 ≤ 4 → NearP inj z ζ K (g2 * a ^ k) → NearP inj w ρ K' g2 →
      f.minNormal ≤ K → f.minNormal ≤ K' → K + K' ≤ T → NearP inj (z + w) (ζ + ρ) (K + K') (g2 * a ^ (k + 1)) :=
    fun k hk hz hw hK hK' hT => by
      have := S.add' hB hz (up k hw) (ga k) hK hK' hT (by rw [pw]; exact f9 _ hk)
      rwa [pw] at this
  have hz := root_pow_self (N := 5) (by norm_num) dir
  have hp5 : ∀ k, root 5 dir ^ (k + 5) = root 5 dir ^ k := fun k => by rw [pow_add, hz, mul_one]
  have z6 : root 5 dir ^ 6 = root 5 dir := by rw [hp5 1, pow_one]
  have z8 : root 5 dir ^ 8 = root 5 dir ^ 3 := hp5 3
  have z9 : root 5 dir ^ 9 = root 5 dir ^ 4 := hp5 4
  have z12 : root 5 dir ^ 12 = root 5 dir ^ 2 := by rw [hp5 7, hp5 2]
  have z16 : root 5 dir ^ 16 = root 5 dir := by rw [hp5 11, hp5 6, z6]
  have quad : ∀ i j k l, (1 ≤ i ∧ i < 5) → (1 ≤ j ∧ j < 5) → (1 ≤ k ∧ k < 5) → (1 ≤ l ∧ l < 5) →
      NearP inj (c 0 + c 1 * wi * radixCst tw 5 dir i + c 2 * (wi * wi) * radixCst tw 5 dir j
          + c 3 * (wi * wi * wi) * radixCst tw 5 dir k + c 4 * (wi * wi * wi * wi) * radixCst tw 5 dir l)
        (ξ 0 + ξ 1 * ω * root 5 dir ^ i + ξ 2 * (ω * ω) * root 5 dir ^ j + ξ 3 * (ω * ω * ω) * root 5 dir ^ k
          + ξ 4 * (ω * ω * ω * ω) * root 5 dir ^ l) (M 0 + M 1 + M 2 + M 3 + M 4) (g2 * a ^ 4) :=
    fun i j k l hi hj hk hl =>
    ad 3 (by norm_num) (ad 2 (by norm_num) (ad 1 (by norm_num) (ad 0 (by norm_num) (up 0 k0)
      (hs t1 m1 (by linarith) i hi.1 hi.2) m0 m1 (by linarith))
      (hs t2 m2 (by linarith) j hj.1 hj.2) (by linarith) m2 (by linarith))
      (hs t3 m3 (by linarith) k hk.1 hk.2) (by linarith) m3 (by linarith))
      (hs t4 m4 (by linarith) l hl.1 hl.2) (by linarith) m4 (by linarith)
  have hu' : u = 0 ∨ u = 1 ∨ u = 2 ∨ u = 3 ∨ u = 4 := by omega
  obtain rfl | rfl | rfl | rfl | rfl := hu'
  · have q3 := ad 2 (by norm_num) (ad 1 (by norm_num) (ad 0 (by norm_num) (up 0 (t1.mono f4)) (t2.mono f4) m1 m2 (by linarith))
      (t3.mono f4) (by linarith) m3 (by linarith)) (t4.mono f4) (by linarith) m4 (by linarith)
    refine NearP.eq (S.add' hB (up 3 k0) q3 (ga 3) m0 (by linarith) (by linarith) (by rw [pw])) ?_ (by ring) (by rw [pw])
    simp only [sum_range_succ, sum_range_zero, mul_zero, pow_zero, pow_one, zero_add]
    ring
  · refine NearP.eq (quad 1 2 3 4 (by norm_num) (by norm_num) (by norm_num) (by norm_num)) ?_ rfl le_rfl
    simp only [sum_range_succ, sum_range_zero, zero_mul, mul_one, pow_zero, pow_one, zero_add]
    ring
  · refine NearP.eq (quad 2 4 1 3 (by norm_num) (by norm_num) (by norm_num) (by norm_num)) ?_ rfl le_rfl
    simp only [sum_range_succ, sum_range_zero, zero_mul, Nat.reduceMul, pow_zero, pow_one, zero_add, z6, z8]
    ring
  · refine NearP.eq (quad 3 1 4 2 (by norm_num) (by norm_num) (by norm_num) (by norm_num)) ?_ rfl le_rfl
    simp only [sum_range_succ, sum_range_zero, zero_mul, Nat.reduceMul, pow_zero, pow_one, zero_add, z6, z9, z12]
    ring
  · refine NearP.eq (quad 4 3 2 1 (by norm_num) (by norm_num) (by norm_num) (by norm_num)) ?_ rfl le_rfl
    simp only [sum_range_succ, sum_range_zero, zero_mul, Nat.reduceMul, pow_zero, pow_one, zero_add, z8, z12, z16]
    ring

end butterflies

/-! ## The plan -/

/-- Growth of the errors of `s` stages. -/
noncomputable def radixGrowthR (f : Fmt) (ε : ℝ) (R s : ℕ) : ℝ :=
  ((1 + ε) * (1 + 5 * f.u)) ^ (R ^ s - 1 + 2 * s) * (1 + 2 * f.u) ^ ((R - 1) * s)

theorem radixGrowthR_succ (f : Fmt) (ε : ℝ) {R : ℕ} (hR : 1 ≤ R) (s : ℕ) :
    radixGrowthR f ε R (s + 1)
      = radixGrowthR f ε R s * ((1 + ε) * (1 + 5 * f.u)) ^ ((R - 1) * R ^ s + 2) * (1 + 2 * f.u) ^ (R - 1) := by
  have h1 : 1 ≤ R ^ s := Nat.one_le_pow _ _ hR
  have e : R ^ (s + 1) - 1 + 2 * (s + 1) = (R ^ s - 1 + 2 * s) + ((R - 1) * R ^ s + 2) := by
    obtain ⟨r, rfl⟩ : ∃ r, R = r + 1 := ⟨R - 1, by omega⟩
    rw [pow_succ, Nat.add_sub_cancel, show (r + 1) ^ s * (r + 1) = r * (r + 1) ^ s + (r + 1) ^ s by ring]
    omega
  unfold radixGrowthR
  rw [e, pow_add, show (R - 1) * (s + 1) = (R - 1) * s + (R - 1) by ring, pow_add]
  ring

theorem one_le_radixGrowthR (f : Fmt) {ε : ℝ} (hε : 0 ≤ ε) (R s : ℕ) : 1 ≤ radixGrowthR f ε R s := by
  have hu := u_pos f
  exact one_le_mul_of_one_le_of_one_le
    (one_le_pow₀ (one_le_mul_of_one_le_of_one_le (by linarith) (by linarith))) (one_le_pow₀ (by linarith))

theorem radixGrowthR_mono (f : Fmt) {ε : ℝ} (hε : 0 ≤ ε) {R : ℕ} (hR : 1 ≤ R) {s b : ℕ} (h : s ≤ b) :
    radixGrowthR f ε R s ≤ radixGrowthR f ε R b := by
  have hu := u_pos f
  have he : 1 ≤ (1 + ε) * (1 + 5 * f.u) := one_le_mul_of_one_le_of_one_le (by linarith) (by linarith)
  refine monotone_nat_of_le_succ (f := radixGrowthR f ε R) (fun s => ?_) h
  rw [radixGrowthR_succ f ε hR, mul_assoc]
  exact le_mul_of_one_le_right (by linarith [one_le_radixGrowthR f hε R s])
    (one_le_mul_of_one_le_of_one_le (one_le_pow₀ he) (one_le_pow₀ (by linarith)))

/-- Magnitudes never exceed the sum of all. -/
theorem ditPartial_one_le {R b s : ℕ} (hR : 1 ≤ R) (hs : s ≤ b) {m : ℕ → ℝ} (hm : ∀ i, 0 ≤ m i) (t : ℕ) :
    ditPartial R b s (1 : ℝ) m t ≤ ∑ n ∈ range (R ^ b), m n := by
  unfold ditPartial
  simp only [one_pow, mul_one]
  have hlt := digitRev_lt (R := R) (by omega) (b - s) (t / R ^ s)
  have hp : 0 < R ^ (b - s) := by positivity
  have hn : R ^ b = R ^ s * R ^ (b - s) := by rw [← pow_add]; congr 1; omega
  set d := digitRev R (b - s) (t / R ^ s)
  have hinj : Set.InjOn (fun τ => d + τ * R ^ (b - s)) (range (R ^ s) : Set ℕ) := by
    intro x _ y _ h
    have h : d + x * R ^ (b - s) = d + y * R ^ (b - s) := h
    exact Nat.eq_of_mul_eq_mul_right hp (Nat.add_left_cancel h)
  have e := sum_image (f := m) hinj
  rw [← e]
  refine sum_le_sum_of_subset_of_nonneg ?_ (fun i _ _ => hm i)
  intro x hx
  obtain ⟨τ, hτ, rfl⟩ := mem_image.1 hx
  have hτ := mem_range.1 hτ
  rw [mem_range, hn]
  have : (τ + 1) * R ^ (b - s) ≤ R ^ s * R ^ (b - s) := Nat.mul_le_mul_right _ hτ
  have e : (τ + 1) * R ^ (b - s) = τ * R ^ (b - s) + R ^ (b - s) := by ring
  omega

section plan
variable {R b : ℕ} {tw : ℕ → ℕ → Direction → C} {dir : Direction} {ε : ℝ} {val : C → (ℕ → C) → ℕ → C}

/-- The twiddle that the loop over `i` has computed. -/
theorem wseq_near (S : RadixNear f inj) (hε : 0 ≤ ε) (hν1 : f.minNormal ≤ 1) {w : C} {ω : ℂ} (hω : NearP inj w ω 1 (1 + ε))
    {G T : ℝ} (hB : G * T < (2 : ℝ) ^ f.emax) (hT : 1 ≤ T) (i : ℕ) (hG : ((1 + ε) * (1 + 5 * f.u)) ^ i ≤ G) :
    NearP inj (wseq (inj 1) w i) (ω ^ i) 1 (((1 + ε) * (1 + 5 * f.u)) ^ i) := by
  have hu := u_pos f
  have he : 1 ≤ (1 + ε) * (1 + 5 * f.u) := one_le_mul_of_one_le_of_one_le (by linarith) (by linarith)
  induction i with
  | zero =>
    refine ⟨1, rfl, ?_, ?_⟩
    · rw [pow_zero, norm_one]
    · rw [pow_zero, pow_zero, sub_self, norm_zero, sub_self, zero_mul]
  | succ i ih =>
    have h := ih (le_trans (pow_le_pow_right₀ he (Nat.le_succ i)) hG)
    rw [pow_succ ω]
    refine S.mul' hB h hω (one_le_pow₀ he) (by linarith) hν1 hT (le_of_eq ?_) hG
    rw [pow_succ]
    ring

theorem radixSt_near (S : RadixNear f inj) (hR : 2 ≤ R) (hε : 0 ≤ ε) (hν1 : f.minNormal ≤ 1)
    (hval : 1 ≤ b → IsNearRadix f inj R dir ε val)
    (hw : ∀ s < b, NearP inj (tw (R ^ (s + 1)) 1 dir) (root (R ^ (s + 1)) dir) 1 (1 + ε)) {Ξ : ℕ → ℂ} {m : ℕ → ℝ}
    (h1 : ∀ i, ‖Ξ i‖ ≤ m i) (h2 : ∀ i, f.minNormal ≤ m i)
    (hB : radixGrowthR f ε R b * max 1 (∑ n ∈ range (R ^ b), m n) < (2 : ℝ) ^ f.emax) :
    ∀ s ≤ b, ∀ t, NearP inj (radixSt tw (inj 1) R b dir val (fun n => inj (Ξ n)) s t)
        (ditPartial R b s (root (R ^ b) dir) Ξ t) (ditPartial R b s (1 : ℝ) m t) (radixGrowthR f ε R s) ∧
      f.minNormal ≤ ditPartial R b s (1 : ℝ) m t := by
  have hu := u_pos f
  have hν := minNormal_pos f
  have hm0 : ∀ i, 0 ≤ m i := fun i => hν.le.trans (h2 i)
  have he : 1 ≤ (1 + ε) * (1 + 5 * f.u) := one_le_mul_of_one_le_of_one_le (by linarith) (by linarith)
  have hT1 : (1 : ℝ) ≤ max 1 (∑ n ∈ range (R ^ b), m n) := le_max_left _ _
  intro s
  induction s with
  | zero =>
    intro _ t
    rw [ditPartial_zero, ditPartial_zero]
    refine ⟨⟨Ξ (digitRev R b t), rfl, h1 _, ?_⟩, h2 _⟩
    have : radixGrowthR f ε R 0 = 1 := by unfold radixGrowthR; simp
    rw [this, sub_self, sub_self, zero_mul, norm_zero]
  | succ s ih =>
    intro hs t
    have ih := ih (by omega)
    have hL : 0 < R ^ s := by positivity
    have hp : R ^ (s + 1) = R * R ^ s := by rw [pow_succ]; ring
    have em : ditPartial R b (s + 1) (1 : ℝ) m t
        = ∑ v ∈ range R, ditPartial R b s (1 : ℝ) m (t / (R * R ^ s) * (R * R ^ s) + t % R ^ s + v * R ^ s) := by
      rw [ditPartial_succ (by omega) (by omega) (one_pow _)]
      refine sum_congr rfl fun v _ => ?_
      rw [one_pow, one_mul, hp, show t / (R * R ^ s) * (R * R ^ s) + v * R ^ s + t % R ^ s
        = t / (R * R ^ s) * (R * R ^ s) + t % R ^ s + v * R ^ s by ring]
    have ez := ditF_ditPartial (R := R) (b := b) (s := s) (by omega) (by omega) dir Ξ t
    unfold ditF at ez
    have hle := ditPartial_one_le (R := R) (b := b) (s := s + 1) (by omega) hs hm0 t
    have hgb := radixGrowthR_mono f hε (R := R) (by omega) hs
    have hmod := Nat.mod_lt t hL
    have hgs := one_le_radixGrowthR f hε R s
    -- the growth of this stage
    have hκ : bflyGrowth f ε (R - 1) (((1 + ε) * (1 + 5 * f.u)) ^ (t % R ^ s)) (radixGrowthR f ε R s)
        ≤ radixGrowthR f ε R (s + 1) := by
      rw [radixGrowthR_succ f ε (by omega)]
      unfold bflyGrowth
      have hm1 : 1 + 5 * f.u ≤ (1 + ε) * (1 + 5 * f.u) := le_mul_of_one_le_left (by linarith) (by linarith)
      have hpp : ((1 + ε) * (1 + 5 * f.u)) ^ (t % R ^ s) * (1 + 5 * f.u) ≤ ((1 + ε) * (1 + 5 * f.u)) ^ R ^ s := by
        calc _ ≤ ((1 + ε) * (1 + 5 * f.u)) ^ (t % R ^ s) * ((1 + ε) * (1 + 5 * f.u)) :=
              mul_le_mul_of_nonneg_left hm1 (by positivity)
          _ = ((1 + ε) * (1 + 5 * f.u)) ^ (t % R ^ s + 1) := (pow_succ _ _).symm
          _ ≤ _ := pow_le_pow_right₀ he (by omega)
      have hpp' : (((1 + ε) * (1 + 5 * f.u)) ^ (t % R ^ s) * (1 + 5 * f.u)) ^ (R - 1)
          ≤ ((1 + ε) * (1 + 5 * f.u)) ^ ((R - 1) * R ^ s) := by
        rw [mul_comm (R - 1), pow_mul]
        exact pow_le_pow_left₀ (by positivity) hpp _
      refine mul_le_mul_of_nonneg_right ?_ (by positivity)
      have e : ∀ A B D : ℝ, A * (B * (D * D)) = A * B * D * D := fun A B D => by ring
      rw [pow_add, pow_two, e]
      have he0 : 0 ≤ (1 + ε) * (1 + 5 * f.u) := by linarith
      refine mul_le_mul_of_nonneg_right ?_ he0
      exact mul_le_mul (mul_le_mul_of_nonneg_left hpp' (by linarith)) hm1 (by linarith) (by positivity)
    have hT : ditPartial R b (s + 1) (1 : ℝ) m t ≤ max 1 (∑ n ∈ range (R ^ b), m n) := hle.trans (le_max_right _ _)
    have hBs : bflyGrowth f ε (R - 1) (((1 + ε) * (1 + 5 * f.u)) ^ (t % R ^ s)) (radixGrowthR f ε R s)
        * max 1 (∑ n ∈ range (R ^ b), m n) < (2 : ℝ) ^ f.emax :=
      lt_of_le_of_lt (mul_le_mul_of_nonneg_right (hκ.trans hgb) (by linarith)) hB
    have hwg : ((1 + ε) * (1 + 5 * f.u)) ^ (t % R ^ s) ≤ radixGrowthR f ε R b := by
      refine le_trans ?_ hgb
      unfold radixGrowthR
      refine le_trans (pow_le_pow_right₀ he ?_) (le_mul_of_one_le_right (by positivity) (one_le_pow₀ (by linarith)))
      have : R ^ s ≤ R ^ (s + 1) := Nat.pow_le_pow_right (by omega) (by omega)
      omega
    have hwi := wseq_near S hε hν1 (hw s (by omega)) hB hT1 (t % R ^ s) hwg
    have := hval (by omega) _ _ _ hwi (one_le_pow₀ he)
      (fun v => radixSt tw (inj 1) R b dir val (fun n => inj (Ξ n)) s
        (t / (R * R ^ s) * (R * R ^ s) + t % R ^ s + v * R ^ s))
      (fun v => ditPartial R b s (root (R ^ b) dir) Ξ (t / (R * R ^ s) * (R * R ^ s) + t % R ^ s + v * R ^ s))
      (fun v => ditPartial R b s (1 : ℝ) m (t / (R * R ^ s) * (R * R ^ s) + t % R ^ s + v * R ^ s))
      (radixGrowthR f ε R s) (max 1 (∑ n ∈ range (R ^ b), m n)) hgs (fun v _ => (ih _).1) (fun v _ => (ih _).2) hν1 hT1
      (by rw [← em]; exact hT) hBs (t / R ^ s % R) (Nat.mod_lt _ (by omega))
    rw [← em, ez] at this
    refine ⟨this.mono hκ, ?_⟩
    rw [em]
    refine (ih _).2.trans (single_le_sum (f := fun v => ditPartial R b s (1 : ℝ) m
      (t / (R * R ^ s) * (R * R ^ s) + t % R ^ s + v * R ^ s)) (fun v _ => hν.le.trans (ih _).2)
      (mem_range.2 (by omega : 0 < R)))

end plan

/-- The accuracy of the constants, from that of the twiddles. -/
theorem cstNear_of {tw : ℕ → ℕ → Direction → C} {R : ℕ} (hR : 1 ≤ R) {ε : ℝ}
    (h : ∀ k < R, NearP inj (tw R k .forward) (root R .forward ^ k) 1 (1 + ε)) (dir : Direction) : CstNear inj tw R dir ε := by
  intro k k1 k2
  cases dir with
  | forward => exact h k k2
  | backward =>
    have := h (R - k) (by omega)
    rw [root_pow_backward (by omega) (by omega), show R - (R - k) = k by omega] at this
    exact this

end Neo
