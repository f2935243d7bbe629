import Verif.Lemmas.StockhamAny
import Verif.Lemmas.IeeeError

/-! # Errors of the Stockham plans of radix 3, 4, 5 and 8

The rules for sums and for products with constants are the fields of `StockNear`; they hold for both complex types. -/

namespace Neo

open Finset Spec

variable {R C : Type} [Add C] [Sub C] [Mul C]

/-- The results of a butterfly in exact arithmetic. -/
theorem stockVal_exact {r : ℕ} {dir : Direction} {body : (l m j k : ℕ) → (y x : List ℂ) → Res (List ℂ)}
    {val : (l j : ℕ) → (ℕ → ℂ) → ℕ → ℂ} (h1 : IsStockBody r body val) (h2 : IsStockButterfly r dir body)
    {l j u : ℕ} (hj : j < l) (hu : u < r) (hn : r * l < 2 ^ 32) (c : ℕ → ℂ) :
    val l j c u = (∑ v ∈ range r, c v * root r dir ^ (v * u)) * root (r * l) dir ^ (u * j) := by
  have hl : 0 < l := by omega
  have a1 := h1 l 1 j 0 hj (by norm_num) (by rwa [mul_one]) (fun q => c (q / l)) (fun _ => 0)
  have a2 := h2 l 1 j 0 hj (by norm_num) (by rwa [mul_one]) (fun q => c (q / l)) (fun _ => 0)
  rw [a1] at a2
  have a3 := Except.ok.inj a2
  have hc : ∀ v, c ((0 + j * 1 + v * l * 1) / l) = c v := fun v => by
    rw [show 0 + j * 1 + v * l * 1 = l * v + j by ring, Nat.mul_add_div hl, Nat.div_eq_of_lt hj, add_zero]
  have hi : r * j + u < r * l * 1 := by
    have := Nat.mul_le_mul_left r (Nat.succ_le_of_lt hj)
    rw [Nat.mul_succ] at this
    omega
  have a4 := congrArg (fun L => L.getD (r * j + u) 0) a3
  have b1 : (r * j + u) / (r * 1) = j := by
    rw [mul_one, Nat.mul_add_div (by omega), Nat.div_eq_of_lt hu, add_zero]
  have b2 : (r * j + u) % 1 = 0 := Nat.mod_one _
  have b3 : (r * j + u) / 1 % r = u := by rw [Nat.div_one, Nat.mul_add_mod, Nat.mod_eq_of_lt hu]
  beta_reduce at a4
  rw [getD_vec _ _ _ _ hi, getD_vec _ _ _ _ hi, if_pos ⟨b1, b2⟩, if_pos ⟨b1, b2⟩, b3] at a4
  simp only [hc] at a4
  exact a4

omit [Add C] [Sub C] [Mul C] in
/-- The value `z` is the complex number `y`, which differs from `ζ` by at most `(γ - 1) M`, where `M` bounds `ζ`. -/
def NearP (inj : ℂ → C) (z : C) (ζ : ℂ) (M γ : ℝ) : Prop :=
  ∃ y : ℂ, z = inj y ∧ ‖ζ‖ ≤ M ∧ ‖y - ζ‖ ≤ (γ - 1) * M

/-- The operation `op` multiplies by `ρ` with relative error `b`; `K` bounds `ρ`. -/
def ScaleBy (f : Fmt) (inj : ℂ → C) (b : ℝ) (op : C → C) (ρ : ℂ) (K : ℝ) : Prop :=
  ∀ {z : C} {ζ : ℂ} {M γ : ℝ}, NearP inj z ζ M γ → 1 ≤ γ → f.minNormal ≤ M * K →
    γ * b * (M * K) < (2 : ℝ) ^ f.emax → NearP inj (op z) (ζ * ρ) (M * K) (γ * b)

/-- The rules for the operations of the plans in the direction `dir`; `N` are the sizes of the twiddles. -/
structure StockNear (f : Fmt) (inj : ℂ → C) (A : StockArith R C) (dir : Direction) (N : ℕ → Prop) (b : ℝ) : Prop where
  one_le : 1 ≤ b
  add : ∀ {z w : C} {ζ ξ : ℂ} {M K γ : ℝ}, NearP inj z ζ M γ → NearP inj w ξ K γ → 1 ≤ γ → f.minNormal ≤ M + K →
    γ * (1 + 2 * f.u) * (M + K) < (2 : ℝ) ^ f.emax → NearP inj (z + w) (ζ + ξ) (M + K) (γ * (1 + 2 * f.u))
  sub : ∀ {z w : C} {ζ ξ : ℂ} {M K γ : ℝ}, NearP inj z ζ M γ → NearP inj w ξ K γ → 1 ≤ γ → f.minNormal ≤ M + K →
    γ * (1 + 2 * f.u) * (M + K) < (2 : ℝ) ^ f.emax → NearP inj (z - w) (ζ - ξ) (M + K) (γ * (1 + 2 * f.u))
  i : ScaleBy f inj b (fun z => z * A.i) (signedI dir) 1
  half : ScaleBy f inj b (fun z => A.scale z A.half) ((exactStock dir).half : ℂ) (1 / 2)
  quarter : ScaleBy f inj b (fun z => A.scale z A.quarter) ((exactStock dir).quarter : ℂ) (1 / 4)
  sinPiBy3 : ScaleBy f inj b (fun z => A.scale z A.sinPiBy3) ((exactStock dir).sinPiBy3 : ℂ) 1
  sqrt5By4 : ScaleBy f inj b (fun z => A.scale z A.sqrt5By4) ((exactStock dir).sqrt5By4 : ℂ) (3 / 5)
  sin2PiBy5 : ScaleBy f inj b (fun z => A.scale z A.sin2PiBy5) ((exactStock dir).sin2PiBy5 : ℂ) 1
  sinRatio : ScaleBy f inj b (fun z => A.scale z A.sinRatio) ((exactStock dir).sinRatio : ℂ) 1
  sqrt2By2 : ScaleBy f inj b (fun z => A.scale z A.sqrt2By2) ((exactStock dir).sqrt2By2 : ℂ) (3 / 4)
  tw : ∀ n k, N n → k < n → ScaleBy f inj b (fun z => z * A.tw n k) (twiddle n k dir) 1

/-- Near after `i` sums and `j` products. -/
def NearI (f : Fmt) (inj : ℂ → C) (b : ℝ) (i j : ℕ) (z : C) (ζ : ℂ) (M : ℝ) : Prop :=
  NearP inj z ζ M ((1 + 2 * f.u) ^ i * b ^ j) ∧ f.minNormal ≤ M

section rules
variable {f : Fmt} {inj : ℂ → C} {A : StockArith R C} {dir : Direction} {N : ℕ → Prop} {b T : ℝ} {I J : ℕ}

theorem ops_le {i j i' j' : ℕ} (hb : 1 ≤ b) (hi : i ≤ i') (hj : j ≤ j') :
    (1 + 2 * f.u) ^ i * b ^ j ≤ (1 + 2 * f.u) ^ i' * b ^ j' := by
  have hu := u_pos f
  have ha : 1 ≤ 1 + 2 * f.u := by linarith
  exact mul_le_mul (pow_le_pow_right₀ ha hi) (pow_le_pow_right₀ hb hj) (by positivity) (by positivity)

theorem one_le_ops {i j : ℕ} (hb : 1 ≤ b) : 1 ≤ (1 + 2 * f.u) ^ i * b ^ j := by
  have := ops_le (f := f) hb (Nat.zero_le i) (Nat.zero_le j)
  rwa [pow_zero, pow_zero, mul_one] at this

omit [Add C] [Sub C] [Mul C] in
theorem NearP.mono {z : C} {ζ : ℂ} {M γ γ' : ℝ} (h : NearP inj z ζ M γ) (hγ : γ ≤ γ') : NearP inj z ζ M γ' := by
  obtain ⟨y, e, h1, h2⟩ := h
  have hM : 0 ≤ M := (norm_nonneg _).trans h1
  exact ⟨y, e, h1, h2.trans (mul_le_mul_of_nonneg_right (by linarith) hM)⟩

private theorem bound (hb : 1 ≤ b) (hB : (1 + 2 * f.u) ^ I * b ^ J * T < (2 : ℝ) ^ f.emax) {i j : ℕ} {M : ℝ} (hi : i ≤ I)
    (hj : j ≤ J) (h0 : 0 ≤ M) (hT : M ≤ T) : (1 + 2 * f.u) ^ i * b ^ j * M < (2 : ℝ) ^ f.emax := by
  have h1 := one_le_ops (f := f) (i := I) (j := J) hb
  exact lt_of_le_of_lt (mul_le_mul (ops_le hb hi hj) hT h0 (by linarith)) hB

theorem NearI.add (S : StockNear f inj A dir N b) (hB : (1 + 2 * f.u) ^ I * b ^ J * T < (2 : ℝ) ^ f.emax)
    {i1 j1 i2 j2 : ℕ} {z w : C} {ζ ξ : ℂ} {M K : ℝ} (hz : NearI f inj b i1 j1 z ζ M) (hw : NearI f inj b i2 j2 w ξ K)
    (i j : ℕ) (hT : M + K ≤ T)
    (h : i1 ≤ i ∧ j1 ≤ j ∧ i2 ≤ i ∧ j2 ≤ j ∧ i + 1 ≤ I ∧ j ≤ J := by decide) :
    NearI f inj b (i + 1) j (z + w) (ζ + ξ) (M + K) := by
  obtain ⟨a1, a2, a3, a4, a5, a6⟩ := h
  have hν := minNormal_pos f
  have h1 := hz.2
  have h2 := hw.2
  have e : (1 + 2 * f.u) ^ (i + 1) * b ^ j = (1 + 2 * f.u) ^ i * b ^ j * (1 + 2 * f.u) := by ring
  refine ⟨?_, by linarith⟩
  rw [e]
  refine S.add (hz.1.mono (ops_le S.one_le a1 a2)) (hw.1.mono (ops_le S.one_le a3 a4)) (one_le_ops S.one_le)
    (by linarith) ?_
  rw [← e]
  exact bound S.one_le hB a5 a6 (by linarith) hT

theorem NearI.sub (S : StockNear f inj A dir N b) (hB : (1 + 2 * f.u) ^ I * b ^ J * T < (2 : ℝ) ^ f.emax)
    {i1 j1 i2 j2 : ℕ} {z w : C} {ζ ξ : ℂ} {M K : ℝ} (hz : NearI f inj b i1 j1 z ζ M) (hw : NearI f inj b i2 j2 w ξ K)
    (i j : ℕ) (hT : M + K ≤ T)
    (h : i1 ≤ i ∧ j1 ≤ j ∧ i2 ≤ i ∧ j2 ≤ j ∧ i + 1 ≤ I ∧ j ≤ J := by decide) :
    NearI f inj b (i + 1) j (z - w) (ζ - ξ) (M + K) := by
  obtain ⟨a1, a2, a3, a4, a5, a6⟩ := h
  have hν := minNormal_pos f
  have h1 := hz.2
  have h2 := hw.2
  have e : (1 + 2 * f.u) ^ (i + 1) * b ^ j = (1 + 2 * f.u) ^ i * b ^ j * (1 + 2 * f.u) := by ring
  refine ⟨?_, by linarith⟩
  rw [e]
  refine S.sub (hz.1.mono (ops_le S.one_le a1 a2)) (hw.1.mono (ops_le S.one_le a3 a4)) (one_le_ops S.one_le)
    (by linarith) ?_
  rw [← e]
  exact bound S.one_le hB a5 a6 (by linarith) hT

omit [Add C] [Sub C] [Mul C] in
theorem NearI.scale (hb : 1 ≤ b) (hB : (1 + 2 * f.u) ^ I * b ^ J * T < (2 : ℝ) ^ f.emax)
    {i j : ℕ} {op : C → C} {ρ : ℂ} {K : ℝ} (hop : ScaleBy f inj b op ρ K) {z : C} {ζ : ℂ} {M : ℝ}
    (hz : NearI f inj b i j z ζ M) (hM : f.minNormal ≤ M * K) (hT : M * K ≤ T)
    (h : i ≤ I ∧ j + 1 ≤ J := by decide) :
    NearI f inj b i (j + 1) (op z) (ζ * ρ) (M * K) := by
  have hν := minNormal_pos f
  have e : (1 + 2 * f.u) ^ i * b ^ (j + 1) = (1 + 2 * f.u) ^ i * b ^ j * b := by ring
  refine ⟨?_, hM⟩
  rw [e]
  refine hop hz.1 (one_le_ops hb) hM ?_
  rw [← e]
  exact bound hb hB h.1 h.2 (by linarith) hT

omit [Add C] [Sub C] [Mul C] in
theorem NearI.of {x : ℂ} {M : ℝ} (h : ‖x‖ ≤ M) (hM : f.minNormal ≤ M) : NearI f inj b 0 0 (inj x) x M :=
  ⟨⟨x, rfl, h, by rw [pow_zero, pow_zero, mul_one, sub_self, sub_self, zero_mul, norm_zero]⟩, hM⟩

omit [Add C] [Sub C] [Mul C] in
theorem NearI.out (hb : 1 ≤ b) {i j : ℕ} {z : C} {ζ : ℂ} {M : ℝ} (h : NearI f inj b i j z ζ M) (hi : i ≤ I) (hj : j ≤ J)
    (hT : M ≤ T) : ∃ y, z = inj y ∧ ‖y - ζ‖ ≤ ((1 + 2 * f.u) ^ I * b ^ J - 1) * T := by
  obtain ⟨y, e, -, h2⟩ := h.1.mono (ops_le hb hi hj)
  have := one_le_ops (f := f) (i := I) (j := J) hb
  exact ⟨y, e, h2.trans (mul_le_mul_of_nonneg_left hT (by linarith))⟩

/-- The butterfly `val` of radix `r` has the errors of `I` sums and `J` products, with bounds at most doubled. -/
def IsNearButterfly (f : Fmt) (inj : ℂ → C) (N : ℕ → Prop) (b : ℝ) (r I J : ℕ) (val : (l j : ℕ) → (ℕ → C) → ℕ → C)
    (exact : (l j : ℕ) → (ℕ → ℂ) → ℕ → ℂ) : Prop :=
  ∀ l j : ℕ, j < l → N (r * l) → ∀ (x : ℕ → ℂ) (M : ℕ → ℝ), (∀ v < r, ‖x v‖ ≤ M v) → (∀ v < r, f.minNormal ≤ M v) →
    (1 + 2 * f.u) ^ I * b ^ J * (2 * ∑ v ∈ range r, M v) < (2 : ℝ) ^ f.emax → ∀ u < r,
    ∃ y, val l j (fun v => inj (x v)) u = inj y ∧
      ‖y - exact l j x u‖ ≤ ((1 + 2 * f.u) ^ I * b ^ J - 1) * (2 * ∑ v ∈ range r, M v)

theorem stock3_near (S : StockNear f inj A dir N b) :
    IsNearButterfly f inj N b 3 3 3 (stock3Val A) (stock3Val (exactStock dir)) := by
  intro l j hj hN x M h1 h2 hB u hu
  have hν := minNormal_pos f
  have hu' : u = 0 ∨ u = 1 ∨ u = 2 := by omega
  have m0 := h2 0 (by norm_num)
  have m1 := h2 1 (by norm_num)
  have m2 := h2 2 (by norm_num)
  have hS : ∑ v ∈ range 3, M v = M 0 + M 1 + M 2 := by
    simp only [sum_range_succ, sum_range_zero, zero_add]
  rw [hS] at hB ⊢
  clear hS
  have t0 : M 1 + M 2 ≤ 2 * (M 0 + M 1 + M 2) := by linarith only [hν, m0, m1, m2]
  have t1 : f.minNormal ≤ (M 1 + M 2) * (1 / 2) := by linarith only [hν, m0, m1, m2]
  have t2 : (M 1 + M 2) * (1 / 2) ≤ 2 * (M 0 + M 1 + M 2) := by linarith only [hν, m0, m1, m2]
  have t3 : M 0 + ((M 1 + M 2) * (1 / 2)) ≤ 2 * (M 0 + M 1 + M 2) := by linarith only [hν, m0, m1, m2]
  have t4 : f.minNormal ≤ (M 1 + M 2) * 1 := by linarith only [hν, m0, m1, m2]
  have t5 : (M 1 + M 2) * 1 ≤ 2 * (M 0 + M 1 + M 2) := by linarith only [hν, m0, m1, m2]
  have t6 : f.minNormal ≤ ((M 1 + M 2) * 1) * 1 := by linarith only [hν, m0, m1, m2]
  have t7 : ((M 1 + M 2) * 1) * 1 ≤ 2 * (M 0 + M 1 + M 2) := by linarith only [hν, m0, m1, m2]
  have t8 : M 0 + (M 1 + M 2) ≤ 2 * (M 0 + M 1 + M 2) := by linarith only [hν, m0, m1, m2]
  have t9 : M 0 + ((M 1 + M 2) * (1 / 2)) + (((M 1 + M 2) * 1) * 1) ≤ 2 * (M 0 + M 1 + M 2) := by linarith only [hν, m0, m1, m2]
  have t10 : f.minNormal ≤ (M 0 + ((M 1 + M 2) * (1 / 2)) + (((M 1 + M 2) * 1) * 1)) * 1 := by linarith only [hν, m0, m1, m2]
  have t11 : (M 0 + ((M 1 + M 2) * (1 / 2)) + (((M 1 + M 2) * 1) * 1)) * 1 ≤ 2 * (M 0 + M 1 + M 2) := by linarith only [hν, m0, m1, m2]
  have k0 := NearI.of (f := f) (inj := inj) (b := b) (h1 0 (by norm_num)) (h2 0 (by norm_num))
  have k1 := NearI.of (f := f) (inj := inj) (b := b) (h1 1 (by norm_num)) (h2 1 (by norm_num))
  have k2 := NearI.of (f := f) (inj := inj) (b := b) (h1 2 (by norm_num)) (h2 2 (by norm_num))
  have kd0 := NearI.add S hB k1 k2 0 0 t0
  have kp0 := NearI.scale S.one_le hB S.half kd0 t1 t2
  have kd1 := NearI.sub S hB k0 kp0 1 1 t3
  have kp1 := NearI.sub S hB k1 k2 0 0 t0
  have kp2 := NearI.scale S.one_le hB S.i kp1 t4 t5
  have kd2 := NearI.scale S.one_le hB S.sinPiBy3 kp2 t6 t7
  have ko0 := NearI.add S hB k0 kd0 1 0 t8
  have ko1 := NearI.add S hB kd1 kd2 2 2 t9
  have kw1 := NearI.scale S.one_le hB (S.tw (3 * l) (1 * j) hN (by omega)) ko1 t10 t11
  have ko2 := NearI.sub S hB kd1 kd2 2 2 t9
  have kw2 := NearI.scale S.one_le hB (S.tw (3 * l) (2 * j) hN (by omega)) ko2 t10 t11
  have r0 := NearI.out (I := 3) (J := 3) S.one_le ko0 (by decide) (by decide) t8
  have r1 := NearI.out (I := 3) (J := 3) S.one_le kw1 (by decide) (by decide) t11
  have r2 := NearI.out (I := 3) (J := 3) S.one_le kw2 (by decide) (by decide) t11
  obtain rfl | rfl | rfl := hu'
  · exact r0
  · exact r1
  · exact r2

theorem stock4_near (S : StockNear f inj A dir N b) :
    IsNearButterfly f inj N b 4 2 2 (stock4Val A) (stock4Val (exactStock dir)) := by
  intro l j hj hN x M h1 h2 hB u hu
  have hν := minNormal_pos f
  have hu' : u = 0 ∨ u = 1 ∨ u = 2 ∨ u = 3 := by omega
  have m0 := h2 0 (by norm_num)
  have m1 := h2 1 (by norm_num)
  have m2 := h2 2 (by norm_num)
  have m3 := h2 3 (by norm_num)
  have hS : ∑ v ∈ range 4, M v = M 0 + M 1 + M 2 + M 3 := by
    simp only [sum_range_succ, sum_range_zero, zero_add]
  rw [hS] at hB ⊢
  clear hS
  have t0 : M 0 + M 2 ≤ 2 * (M 0 + M 1 + M 2 + M 3) := by linarith only [hν, m0, m1, m2, m3]
  have t1 : M 1 + M 3 ≤ 2 * (M 0 + M 1 + M 2 + M 3) := by linarith only [hν, m0, m1, m2, m3]
  have t2 : f.minNormal ≤ (M 1 + M 3) * 1 := by linarith only [hν, m0, m1, m2, m3]
  have t3 : (M 1 + M 3) * 1 ≤ 2 * (M 0 + M 1 + M 2 + M 3) := by linarith only [hν, m0, m1, m2, m3]
  have t4 : M 0 + M 2 + (M 1 + M 3) ≤ 2 * (M 0 + M 1 + M 2 + M 3) := by linarith only [hν, m0, m1, m2, m3]
  have t5 : M 0 + M 2 + ((M 1 + M 3) * 1) ≤ 2 * (M 0 + M 1 + M 2 + M 3) := by linarith only [hν, m0, m1, m2, m3]
  have t6 : f.minNormal ≤ (M 0 + M 2 + ((M 1 + M 3) * 1)) * 1 := by linarith only [hν, m0, m1, m2, m3]
  have t7 : (M 0 + M 2 + ((M 1 + M 3) * 1)) * 1 ≤ 2 * (M 0 + M 1 + M 2 + M 3) := by linarith only [hν, m0, m1, m2, m3]
  have t8 : f.minNormal ≤ (M 0 + M 2 + (M 1 + M 3)) * 1 := by linarith only [hν, m0, m1, m2, m3]
  have t9 : (M 0 + M 2 + (M 1 + M 3)) * 1 ≤ 2 * (M 0 + M 1 + M 2 + M 3) := by linarith only [hν, m0, m1, m2, m3]
  have k0 := NearI.of (f := f) (inj := inj) (b := b) (h1 0 (by norm_num)) (h2 0 (by norm_num))
  have k1 := NearI.of (f := f) (inj := inj) (b := b) (h1 1 (by norm_num)) (h2 1 (by norm_num))
  have k2 := NearI.of (f := f) (inj := inj) (b := b) (h1 2 (by norm_num)) (h2 2 (by norm_num))
  have k3 := NearI.of (f := f) (inj := inj) (b := b) (h1 3 (by norm_num)) (h2 3 (by norm_num))
  have kd0 := NearI.add S hB k0 k2 0 0 t0
  have kd1 := NearI.sub S hB k0 k2 0 0 t0
  have kd2 := NearI.add S hB k1 k3 0 0 t1
  have kp3 := NearI.sub S hB k1 k3 0 0 t1
  have kd3 := NearI.scale S.one_le hB S.i kp3 t2 t3
  have ko0 := NearI.add S hB kd0 kd2 1 0 t4
  have ko1 := NearI.add S hB kd1 kd3 1 1 t5
  have kw1 := NearI.scale S.one_le hB (S.tw (4 * l) (1 * j) hN (by omega)) ko1 t6 t7
  have ko2 := NearI.sub S hB kd0 kd2 1 0 t4
  have kw2 := NearI.scale S.one_le hB (S.tw (4 * l) (2 * j) hN (by omega)) ko2 t8 t9
  have ko3 := NearI.sub S hB kd1 kd3 1 1 t5
  have kw3 := NearI.scale S.one_le hB (S.tw (4 * l) (3 * j) hN (by omega)) ko3 t6 t7
  have r0 := NearI.out (I := 2) (J := 2) S.one_le ko0 (by decide) (by decide) t4
  have r1 := NearI.out (I := 2) (J := 2) S.one_le kw1 (by decide) (by decide) t7
  have r2 := NearI.out (I := 2) (J := 2) S.one_le kw2 (by decide) (by decide) t9
  have r3 := NearI.out (I := 2) (J := 2) S.one_le kw3 (by decide) (by decide) t7
  obtain rfl | rfl | rfl | rfl := hu'
  · exact r0
  · exact r1
  · exact r2
  · exact r3

theorem stock5_near (S : StockNear f inj A dir N b) :
    IsNearButterfly f inj N b 5 5 4 (stock5Val A) (stock5Val (exactStock dir)) := by
  intro l j hj hN x M h1 h2 hB u hu
  have hν := minNormal_pos f
  have hu' : u = 0 ∨ u = 1 ∨ u = 2 ∨ u = 3 ∨ u = 4 := by omega
  have m0 := h2 0 (by norm_num)
  have m1 := h2 1 (by norm_num)
  have m2 := h2 2 (by norm_num)
  have m3 := h2 3 (by norm_num)
  have m4 := h2 4 (by norm_num)
  have hS : ∑ v ∈ range 5, M v = M 0 + M 1 + M 2 + M 3 + M 4 := by
    simp only [sum_range_succ, sum_range_zero, zero_add]
  rw [hS] at hB ⊢
  clear hS
  have t0 : M 1 + M 4 ≤ 2 * (M 0 + M 1 + M 2 + M 3 + M 4) := by linarith only [hν, m0, m1, m2, m3, m4]
  have t1 : M 2 + M 3 ≤ 2 * (M 0 + M 1 + M 2 + M 3 + M 4) := by linarith only [hν, m0, m1, m2, m3, m4]
  have t2 : f.minNormal ≤ (M 1 + M 4) * 1 := by linarith only [hν, m0, m1, m2, m3, m4]
  have t3 : (M 1 + M 4) * 1 ≤ 2 * (M 0 + M 1 + M 2 + M 3 + M 4) := by linarith only [hν, m0, m1, m2, m3, m4]
  have t4 : f.minNormal ≤ (M 2 + M 3) * 1 := by linarith only [hν, m0, m1, m2, m3, m4]
  have t5 : (M 2 + M 3) * 1 ≤ 2 * (M 0 + M 1 + M 2 + M 3 + M 4) := by linarith only [hν, m0, m1, m2, m3, m4]
  have t6 : M 1 + M 4 + (M 2 + M 3) ≤ 2 * (M 0 + M 1 + M 2 + M 3 + M 4) := by linarith only [hν, m0, m1, m2, m3, m4]
  have t7 : f.minNormal ≤ (M 1 + M 4 + (M 2 + M 3)) * (3 / 5) := by linarith only [hν, m0, m1, m2, m3, m4]
  have t8 : (M 1 + M 4 + (M 2 + M 3)) * (3 / 5) ≤ 2 * (M 0 + M 1 + M 2 + M 3 + M 4) := by linarith only [hν, m0, m1, m2, m3, m4]
  have t9 : f.minNormal ≤ (M 1 + M 4 + (M 2 + M 3)) * (1 / 4) := by linarith only [hν, m0, m1, m2, m3, m4]
  have t10 : (M 1 + M 4 + (M 2 + M 3)) * (1 / 4) ≤ 2 * (M 0 + M 1 + M 2 + M 3 + M 4) := by linarith only [hν, m0, m1, m2, m3, m4]
  have t11 : M 0 + ((M 1 + M 4 + (M 2 + M 3)) * (1 / 4)) ≤ 2 * (M 0 + M 1 + M 2 + M 3 + M 4) := by linarith only [hν, m0, m1, m2, m3, m4]
  have t12 : M 0 + ((M 1 + M 4 + (M 2 + M 3)) * (1 / 4)) + ((M 1 + M 4 + (M 2 + M 3)) * (3 / 5)) ≤ 2 * (M 0 + M 1 + M 2 + M 3 + M 4) := by linarith only [hν, m0, m1, m2, m3, m4]
  have t13 : f.minNormal ≤ ((M 2 + M 3) * 1) * 1 := by linarith only [hν, m0, m1, m2, m3, m4]
  have t14 : ((M 2 + M 3) * 1) * 1 ≤ 2 * (M 0 + M 1 + M 2 + M 3 + M 4) := by linarith only [hν, m0, m1, m2, m3, m4]
  have t15 : (M 1 + M 4) * 1 + (((M 2 + M 3) * 1) * 1) ≤ 2 * (M 0 + M 1 + M 2 + M 3 + M 4) := by linarith only [hν, m0, m1, m2, m3, m4]
  have t16 : f.minNormal ≤ ((M 1 + M 4) * 1 + (((M 2 + M 3) * 1) * 1)) * 1 := by linarith only [hν, m0, m1, m2, m3, m4]
  have t17 : ((M 1 + M 4) * 1 + (((M 2 + M 3) * 1) * 1)) * 1 ≤ 2 * (M 0 + M 1 + M 2 + M 3 + M 4) := by linarith only [hν, m0, m1, m2, m3, m4]
  have t18 : f.minNormal ≤ ((M 1 + M 4) * 1) * 1 := by linarith only [hν, m0, m1, m2, m3, m4]
  have t19 : ((M 1 + M 4) * 1) * 1 ≤ 2 * (M 0 + M 1 + M 2 + M 3 + M 4) := by linarith only [hν, m0, m1, m2, m3, m4]
  have t20 : ((M 1 + M 4) * 1) * 1 + ((M 2 + M 3) * 1) ≤ 2 * (M 0 + M 1 + M 2 + M 3 + M 4) := by linarith only [hν, m0, m1, m2, m3, m4]
  have t21 : f.minNormal ≤ (((M 1 + M 4) * 1) * 1 + ((M 2 + M 3) * 1)) * 1 := by linarith only [hν, m0, m1, m2, m3, m4]
  have t22 : (((M 1 + M 4) * 1) * 1 + ((M 2 + M 3) * 1)) * 1 ≤ 2 * (M 0 + M 1 + M 2 + M 3 + M 4) := by linarith only [hν, m0, m1, m2, m3, m4]
  have t23 : M 0 + (M 1 + M 4 + (M 2 + M 3)) ≤ 2 * (M 0 + M 1 + M 2 + M 3 + M 4) := by linarith only [hν, m0, m1, m2, m3, m4]
  have t24 : M 0 + ((M 1 + M 4 + (M 2 + M 3)) * (1 / 4)) + ((M 1 + M 4 + (M 2 + M 3)) * (3 / 5)) + (((M 1 + M 4) * 1 + (((M 2 + M 3) * 1) * 1)) * 1) ≤ 2 * (M 0 + M 1 + M 2 + M 3 + M 4) := by linarith only [hν, m0, m1, m2, m3, m4]
  have t25 : f.minNormal ≤ (M 0 + ((M 1 + M 4 + (M 2 + M 3)) * (1 / 4)) + ((M 1 + M 4 + (M 2 + M 3)) * (3 / 5)) + (((M 1 + M 4) * 1 + (((M 2 + M 3) * 1) * 1)) * 1)) * 1 := by linarith only [hν, m0, m1, m2, m3, m4]
  have t26 : (M 0 + ((M 1 + M 4 + (M 2 + M 3)) * (1 / 4)) + ((M 1 + M 4 + (M 2 + M 3)) * (3 / 5)) + (((M 1 + M 4) * 1 + (((M 2 + M 3) * 1) * 1)) * 1)) * 1 ≤ 2 * (M 0 + M 1 + M 2 + M 3 + M 4) := by linarith only [hν, m0, m1, m2, m3, m4]
  have t27 : M 0 + ((M 1 + M 4 + (M 2 + M 3)) * (1 / 4)) + ((M 1 + M 4 + (M 2 + M 3)) * (3 / 5)) + ((((M 1 + M 4) * 1) * 1 + ((M 2 + M 3) * 1)) * 1) ≤ 2 * (M 0 + M 1 + M 2 + M 3 + M 4) := by linarith only [hν, m0, m1, m2, m3, m4]
  have t28 : f.minNormal ≤ (M 0 + ((M 1 + M 4 + (M 2 + M 3)) * (1 / 4)) + ((M 1 + M 4 + (M 2 + M 3)) * (3 / 5)) + ((((M 1 + M 4) * 1) * 1 + ((M 2 + M 3) * 1)) * 1)) * 1 := by linarith only [hν, m0, m1, m2, m3, m4]
  have t29 : (M 0 + ((M 1 + M 4 + (M 2 + M 3)) * (1 / 4)) + ((M 1 + M 4 + (M 2 + M 3)) * (3 / 5)) + ((((M 1 + M 4) * 1) * 1 + ((M 2 + M 3) * 1)) * 1)) * 1 ≤ 2 * (M 0 + M 1 + M 2 + M 3 + M 4) := by linarith only [hν, m0, m1, m2, m3, m4]
  have k0 := NearI.of (f := f) (inj := inj) (b := b) (h1 0 (by norm_num)) (h2 0 (by norm_num))
  have k1 := NearI.of (f := f) (inj := inj) (b := b) (h1 1 (by norm_num)) (h2 1 (by norm_num))
  have k2 := NearI.of (f := f) (inj := inj) (b := b) (h1 2 (by norm_num)) (h2 2 (by norm_num))
  have k3 := NearI.of (f := f) (inj := inj) (b := b) (h1 3 (by norm_num)) (h2 3 (by norm_num))
  have k4 := NearI.of (f := f) (inj := inj) (b := b) (h1 4 (by norm_num)) (h2 4 (by norm_num))
  have kd0 := NearI.add S hB k1 k4 0 0 t0
  have kd1 := NearI.add S hB k2 k3 0 0 t1
  have kp2 := NearI.sub S hB k1 k4 0 0 t0
  have kd2 := NearI.scale S.one_le hB S.sin2PiBy5 kp2 t2 t3
  have kp3 := NearI.sub S hB k2 k3 0 0 t1
  have kd3 := NearI.scale S.one_le hB S.sin2PiBy5 kp3 t4 t5
  have kd4 := NearI.add S hB kd0 kd1 1 0 t6
  have kp5 := NearI.sub S hB kd0 kd1 1 0 t6
  have kd5 := NearI.scale S.one_le hB S.sqrt5By4 kp5 t7 t8
  have kp6 := NearI.scale S.one_le hB S.quarter kd4 t9 t10
  have kd6 := NearI.sub S hB k0 kp6 2 1 t11
  have kd7 := NearI.add S hB kd6 kd5 3 1 t12
  have kd8 := NearI.sub S hB kd6 kd5 3 1 t12
  have kp9 := NearI.scale S.one_le hB S.sinRatio kd3 t13 t14
  have kq9 := NearI.add S hB kd2 kp9 1 2 t15
  have kd9 := NearI.scale S.one_le hB S.i kq9 t16 t17
  have kp10 := NearI.scale S.one_le hB S.sinRatio kd2 t18 t19
  have kq10 := NearI.sub S hB kp10 kd3 1 2 t20
  have kd10 := NearI.scale S.one_le hB S.i kq10 t21 t22
  have ko0 := NearI.add S hB k0 kd4 2 0 t23
  have ko1 := NearI.add S hB kd7 kd9 4 3 t24
  have kw1 := NearI.scale S.one_le hB (S.tw (5 * l) (1 * j) hN (by omega)) ko1 t25 t26
  have ko2 := NearI.add S hB kd8 kd10 4 3 t27
  have kw2 := NearI.scale S.one_le hB (S.tw (5 * l) (2 * j) hN (by omega)) ko2 t28 t29
  have ko3 := NearI.sub S hB kd8 kd10 4 3 t27
  have kw3 := NearI.scale S.one_le hB (S.tw (5 * l) (3 * j) hN (by omega)) ko3 t28 t29
  have ko4 := NearI.sub S hB kd7 kd9 4 3 t24
  have kw4 := NearI.scale S.one_le hB (S.tw (5 * l) (4 * j) hN (by omega)) ko4 t25 t26
  have r0 := NearI.out (I := 5) (J := 4) S.one_le ko0 (by decide) (by decide) t23
  have r1 := NearI.out (I := 5) (J := 4) S.one_le kw1 (by decide) (by decide) t26
  have r2 := NearI.out (I := 5) (J := 4) S.one_le kw2 (by decide) (by decide) t29
  have r3 := NearI.out (I := 5) (J := 4) S.one_le kw3 (by decide) (by decide) t29
  have r4 := NearI.out (I := 5) (J := 4) S.one_le kw4 (by decide) (by decide) t26
  obtain rfl | rfl | rfl | rfl | rfl := hu'
  · exact r0
  · exact r1
  · exact r2
  · exact r3
  · exact r4

theorem stock8_near (S : StockNear f inj A dir N b) :
    IsNearButterfly f inj N b 8 4 3 (stock8Val A) (stock8Val (exactStock dir)) := by
  intro l j hj hN x M h1 h2 hB u hu
  have hν := minNormal_pos f
  have hu' : u = 0 ∨ u = 1 ∨ u = 2 ∨ u = 3 ∨ u = 4 ∨ u = 5 ∨ u = 6 ∨ u = 7 := by omega
  have m0 := h2 0 (by norm_num)
  have m1 := h2 1 (by norm_num)
  have m2 := h2 2 (by norm_num)
  have m3 := h2 3 (by norm_num)
  have m4 := h2 4 (by norm_num)
  have m5 := h2 5 (by norm_num)
  have m6 := h2 6 (by norm_num)
  have m7 := h2 7 (by norm_num)
  have hS : ∑ v ∈ range 8, M v = M 0 + M 1 + M 2 + M 3 + M 4 + M 5 + M 6 + M 7 := by
    simp only [sum_range_succ, sum_range_zero, zero_add]
  rw [hS] at hB ⊢
  clear hS
  have t0 : M 0 + M 4 ≤ 2 * (M 0 + M 1 + M 2 + M 3 + M 4 + M 5 + M 6 + M 7) := by linarith only [hν, m0, m1, m2, m3, m4, m5, m6, m7]
  have t1 : M 2 + M 6 ≤ 2 * (M 0 + M 1 + M 2 + M 3 + M 4 + M 5 + M 6 + M 7) := by linarith only [hν, m0, m1, m2, m3, m4, m5, m6, m7]
  have t2 : f.minNormal ≤ (M 2 + M 6) * 1 := by linarith only [hν, m0, m1, m2, m3, m4, m5, m6, m7]
  have t3 : (M 2 + M 6) * 1 ≤ 2 * (M 0 + M 1 + M 2 + M 3 + M 4 + M 5 + M 6 + M 7) := by linarith only [hν, m0, m1, m2, m3, m4, m5, m6, m7]
  have t4 : M 1 + M 5 ≤ 2 * (M 0 + M 1 + M 2 + M 3 + M 4 + M 5 + M 6 + M 7) := by linarith only [hν, m0, m1, m2, m3, m4, m5, m6, m7]
  have t5 : M 3 + M 7 ≤ 2 * (M 0 + M 1 + M 2 + M 3 + M 4 + M 5 + M 6 + M 7) := by linarith only [hν, m0, m1, m2, m3, m4, m5, m6, m7]
  have t6 : M 0 + M 4 + (M 2 + M 6) ≤ 2 * (M 0 + M 1 + M 2 + M 3 + M 4 + M 5 + M 6 + M 7) := by linarith only [hν, m0, m1, m2, m3, m4, m5, m6, m7]
  have t7 : M 1 + M 5 + (M 3 + M 7) ≤ 2 * (M 0 + M 1 + M 2 + M 3 + M 4 + M 5 + M 6 + M 7) := by linarith only [hν, m0, m1, m2, m3, m4, m5, m6, m7]
  have t8 : f.minNormal ≤ (M 1 + M 5 + (M 3 + M 7)) * 1 := by linarith only [hν, m0, m1, m2, m3, m4, m5, m6, m7]
  have t9 : (M 1 + M 5 + (M 3 + M 7)) * 1 ≤ 2 * (M 0 + M 1 + M 2 + M 3 + M 4 + M 5 + M 6 + M 7) := by linarith only [hν, m0, m1, m2, m3, m4, m5, m6, m7]
  have t10 : f.minNormal ≤ (M 1 + M 5 + (M 3 + M 7)) * (3 / 4) := by linarith only [hν, m0, m1, m2, m3, m4, m5, m6, m7]
  have t11 : (M 1 + M 5 + (M 3 + M 7)) * (3 / 4) ≤ 2 * (M 0 + M 1 + M 2 + M 3 + M 4 + M 5 + M 6 + M 7) := by linarith only [hν, m0, m1, m2, m3, m4, m5, m6, m7]
  have t12 : f.minNormal ≤ ((M 1 + M 5 + (M 3 + M 7)) * (3 / 4)) * 1 := by linarith only [hν, m0, m1, m2, m3, m4, m5, m6, m7]
  have t13 : ((M 1 + M 5 + (M 3 + M 7)) * (3 / 4)) * 1 ≤ 2 * (M 0 + M 1 + M 2 + M 3 + M 4 + M 5 + M 6 + M 7) := by linarith only [hν, m0, m1, m2, m3, m4, m5, m6, m7]
  have t14 : M 0 + M 4 + ((M 1 + M 5 + (M 3 + M 7)) * (3 / 4)) ≤ 2 * (M 0 + M 1 + M 2 + M 3 + M 4 + M 5 + M 6 + M 7) := by linarith only [hν, m0, m1, m2, m3, m4, m5, m6, m7]
  have t15 : (M 2 + M 6) * 1 + (((M 1 + M 5 + (M 3 + M 7)) * (3 / 4)) * 1) ≤ 2 * (M 0 + M 1 + M 2 + M 3 + M 4 + M 5 + M 6 + M 7) := by linarith only [hν, m0, m1, m2, m3, m4, m5, m6, m7]
  have t16 : M 0 + M 4 + (M 2 + M 6) + (M 1 + M 5 + (M 3 + M 7)) ≤ 2 * (M 0 + M 1 + M 2 + M 3 + M 4 + M 5 + M 6 + M 7) := by linarith only [hν, m0, m1, m2, m3, m4, m5, m6, m7]
  have t17 : M 0 + M 4 + ((M 1 + M 5 + (M 3 + M 7)) * (3 / 4)) + ((M 2 + M 6) * 1 + (((M 1 + M 5 + (M 3 + M 7)) * (3 / 4)) * 1)) ≤ 2 * (M 0 + M 1 + M 2 + M 3 + M 4 + M 5 + M 6 + M 7) := by linarith only [hν, m0, m1, m2, m3, m4, m5, m6, m7]
  have t18 : f.minNormal ≤ (M 0 + M 4 + ((M 1 + M 5 + (M 3 + M 7)) * (3 / 4)) + ((M 2 + M 6) * 1 + (((M 1 + M 5 + (M 3 + M 7)) * (3 / 4)) * 1))) * 1 := by linarith only [hν, m0, m1, m2, m3, m4, m5, m6, m7]
  have t19 : (M 0 + M 4 + ((M 1 + M 5 + (M 3 + M 7)) * (3 / 4)) + ((M 2 + M 6) * 1 + (((M 1 + M 5 + (M 3 + M 7)) * (3 / 4)) * 1))) * 1 ≤ 2 * (M 0 + M 1 + M 2 + M 3 + M 4 + M 5 + M 6 + M 7) := by linarith only [hν, m0, m1, m2, m3, m4, m5, m6, m7]
  have t20 : M 0 + M 4 + (M 2 + M 6) + ((M 1 + M 5 + (M 3 + M 7)) * 1) ≤ 2 * (M 0 + M 1 + M 2 + M 3 + M 4 + M 5 + M 6 + M 7) := by linarith only [hν, m0, m1, m2, m3, m4, m5, m6, m7]
  have t21 : f.minNormal ≤ (M 0 + M 4 + (M 2 + M 6) + ((M 1 + M 5 + (M 3 + M 7)) * 1)) * 1 := by linarith only [hν, m0, m1, m2, m3, m4, m5, m6, m7]
  have t22 : (M 0 + M 4 + (M 2 + M 6) + ((M 1 + M 5 + (M 3 + M 7)) * 1)) * 1 ≤ 2 * (M 0 + M 1 + M 2 + M 3 + M 4 + M 5 + M 6 + M 7) := by linarith only [hν, m0, m1, m2, m3, m4, m5, m6, m7]
  have t23 : f.minNormal ≤ (M 0 + M 4 + (M 2 + M 6) + (M 1 + M 5 + (M 3 + M 7))) * 1 := by linarith only [hν, m0, m1, m2, m3, m4, m5, m6, m7]
  have t24 : (M 0 + M 4 + (M 2 + M 6) + (M 1 + M 5 + (M 3 + M 7))) * 1 ≤ 2 * (M 0 + M 1 + M 2 + M 3 + M 4 + M 5 + M 6 + M 7) := by linarith only [hν, m0, m1, m2, m3, m4, m5, m6, m7]
  have k0 := NearI.of (f := f) (inj := inj) (b := b) (h1 0 (by norm_num)) (h2 0 (by norm_num))
  have k1 := NearI.of (f := f) (inj := inj) (b := b) (h1 1 (by norm_num)) (h2 1 (by norm_num))
  have k2 := NearI.of (f := f) (inj := inj) (b := b) (h1 2 (by norm_num)) (h2 2 (by norm_num))
  have k3 := NearI.of (f := f) (inj := inj) (b := b) (h1 3 (by norm_num)) (h2 3 (by norm_num))
  have k4 := NearI.of (f := f) (inj := inj) (b := b) (h1 4 (by norm_num)) (h2 4 (by norm_num))
  have k5 := NearI.of (f := f) (inj := inj) (b := b) (h1 5 (by norm_num)) (h2 5 (by norm_num))
  have k6 := NearI.of (f := f) (inj := inj) (b := b) (h1 6 (by norm_num)) (h2 6 (by norm_num))
  have k7 := NearI.of (f := f) (inj := inj) (b := b) (h1 7 (by norm_num)) (h2 7 (by norm_num))
  have kd0 := NearI.add S hB k0 k4 0 0 t0
  have kd1 := NearI.sub S hB k0 k4 0 0 t0
  have kd2 := NearI.add S hB k2 k6 0 0 t1
  have kp3 := NearI.sub S hB k2 k6 0 0 t1
  have kd3 := NearI.scale S.one_le hB S.i kp3 t2 t3
  have kd4 := NearI.add S hB k1 k5 0 0 t4
  have kd5 := NearI.sub S hB k1 k5 0 0 t4
  have kd6 := NearI.add S hB k3 k7 0 0 t5
  have kd7 := NearI.sub S hB k3 k7 0 0 t5
  have ke0 := NearI.add S hB kd0 kd2 1 0 t6
  have ke1 := NearI.sub S hB kd0 kd2 1 0 t6
  have ke2 := NearI.add S hB kd4 kd6 1 0 t7
  have kf3 := NearI.sub S hB kd4 kd6 1 0 t7
  have ke3 := NearI.scale S.one_le hB S.i kf3 t8 t9
  have kf4 := NearI.sub S hB kd5 kd7 1 0 t7
  have ke4 := NearI.scale S.one_le hB S.sqrt2By2 kf4 t10 t11
  have kf5 := NearI.add S hB kd5 kd7 1 0 t7
  have kg5 := NearI.scale S.one_le hB S.sqrt2By2 kf5 t10 t11
  have ke5 := NearI.scale S.one_le hB S.i kg5 t12 t13
  have ke6 := NearI.add S hB kd1 ke4 2 1 t14
  have ke7 := NearI.sub S hB kd1 ke4 2 1 t14
  have ke8 := NearI.add S hB kd3 ke5 2 2 t15
  have ke9 := NearI.sub S hB kd3 ke5 2 2 t15
  have ko0 := NearI.add S hB ke0 ke2 2 0 t16
  have ko1 := NearI.add S hB ke6 ke8 3 2 t17
  have kw1 := NearI.scale S.one_le hB (S.tw (8 * l) (1 * j) hN (by omega)) ko1 t18 t19
  have ko2 := NearI.add S hB ke1 ke3 2 1 t20
  have kw2 := NearI.scale S.one_le hB (S.tw (8 * l) (2 * j) hN (by omega)) ko2 t21 t22
  have ko3 := NearI.sub S hB ke7 ke9 3 2 t17
  have kw3 := NearI.scale S.one_le hB (S.tw (8 * l) (3 * j) hN (by omega)) ko3 t18 t19
  have ko4 := NearI.sub S hB ke0 ke2 2 0 t16
  have kw4 := NearI.scale S.one_le hB (S.tw (8 * l) (4 * j) hN (by omega)) ko4 t23 t24
  have ko5 := NearI.add S hB ke7 ke9 3 2 t17
  have kw5 := NearI.scale S.one_le hB (S.tw (8 * l) (5 * j) hN (by omega)) ko5 t18 t19
  have ko6 := NearI.sub S hB ke1 ke3 2 1 t20
  have kw6 := NearI.scale S.one_le hB (S.tw (8 * l) (6 * j) hN (by omega)) ko6 t21 t22
  have ko7 := NearI.sub S hB ke6 ke8 3 2 t17
  have kw7 := NearI.scale S.one_le hB (S.tw (8 * l) (7 * j) hN (by omega)) ko7 t18 t19
  have r0 := NearI.out (I := 4) (J := 3) S.one_le ko0 (by decide) (by decide) t16
  have r1 := NearI.out (I := 4) (J := 3) S.one_le kw1 (by decide) (by decide) t19
  have r2 := NearI.out (I := 4) (J := 3) S.one_le kw2 (by decide) (by decide) t22
  have r3 := NearI.out (I := 4) (J := 3) S.one_le kw3 (by decide) (by decide) t19
  have r4 := NearI.out (I := 4) (J := 3) S.one_le kw4 (by decide) (by decide) t24
  have r5 := NearI.out (I := 4) (J := 3) S.one_le kw5 (by decide) (by decide) t19
  have r6 := NearI.out (I := 4) (J := 3) S.one_le kw6 (by decide) (by decide) t22
  have r7 := NearI.out (I := 4) (J := 3) S.one_le kw7 (by decide) (by decide) t19
  obtain rfl | rfl | rfl | rfl | rfl | rfl | rfl | rfl := hu'
  · exact r0
  · exact r1
  · exact r2
  · exact r3
  · exact r4
  · exact r5
  · exact r6
  · exact r7

end rules

end Neo
