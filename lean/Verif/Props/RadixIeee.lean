import Verif.Props.StockhamIeee
import Verif.Lemmas.RadixNear

/-! # C112: finiteness and accuracy of the in-place plans of radix 3 and 5 in IEEE 754 arithmetic -/

namespace Neo.Props

open Neo Spec Finset

variable {f : Fmt}

/-- The largest orders for which `m *= radix` stays in `int`. -/
def oddMaxOrder : OddRadix → ℕ
  | .three => 18
  | .five => 12

/-- Error growth of a transform of `N = R^b` points: the twiddles of the last stage are products of up to `N / R` factors, so
the number of products behind a result is of the order of `N`, not of `b`. -/
noncomputable def radixGrowth (f : Fmt) (ε : ℝ) (R b : ℕ) : ℝ :=
  ((1 + ε) * (1 + 5 * f.u)) ^ (R ^ b - 1 + 2 * b) * (1 + 2 * f.u) ^ ((R - 1) * b)

private theorem near_of {tw : ℕ → ℕ → Direction → IC f} {N : ℕ} {ε : ℝ} (h : TwFull tw N ε) (dir : Direction) {k : ℕ}
    (hk : k < N) : NearC (tw N k dir) (root N dir ^ k) 1 (1 + ε) := by
  obtain ⟨c, s, e, h'⟩ := h dir k hk
  refine ⟨c, s, e, by rw [norm_pow, norm_root, one_pow], ?_⟩
  rw [root_pow_eq, add_sub_cancel_left, mul_one]
  exact h'

private theorem minNormal_one (hf : f.Ieee) : f.minNormal ≤ 1 := by
  unfold Fmt.minNormal
  apply zpow_le_one_of_nonpos₀ (by norm_num)
  obtain ⟨h1, h2, h3⟩ := hf
  omega

private theorem run_odd {C : Type} [Add C] [Mul C] {inj : ℂ → C} (hf : f.Ieee) (S : RadixNear f inj) (q : OddRadix) {b : ℕ}
    (hb : b ≤ oddMaxOrder q) {tw : ℕ → ℕ → Direction → C} {ε : ℝ} (hε : 0 ≤ ε)
    (htw : ∀ e, 1 ≤ e → e ≤ b → ∀ dir, ∀ k < q.val ^ e, NearP inj (tw (q.val ^ e) k dir) (root (q.val ^ e) dir ^ k) 1 (1 + ε))
    (dir : Direction) (x : List ℂ) (hx : x.length = q.val ^ b) {η : ℝ} (hη : f.minNormal ≤ η)
    (hG : radixGrowth f ε q.val b < (2 : ℝ) ^ f.emax)
    (ho : radixGrowth f ε q.val b * (∑ n ∈ range (q.val ^ b), ‖x.getD n 0‖ + (q.val ^ b : ℕ) * η) < (2 : ℝ) ^ f.emax) :
    ∃ y : List ℂ, q.run tw (inj 1) b (x.map inj) dir = .ok (y.map inj) ∧ y.length = q.val ^ b ∧
      ∀ i < q.val ^ b, ‖y.getD i 0 - fourier dir (q.val ^ b) x i‖
        ≤ (radixGrowth f ε q.val b - 1) * (∑ n ∈ range (q.val ^ b), ‖x.getD n 0‖ + (q.val ^ b : ℕ) * η) := by
  have hν := minNormal_pos f
  have hR : 2 ≤ q.val := by cases q <;> decide
  have hcst : 1 ≤ b → CstNear inj tw q.val dir ε := fun hb1 => by
    refine cstNear_of (by omega) (fun k hk => ?_) dir
    have := htw 1 le_rfl hb1 .forward k (by rwa [pow_one])
    rwa [pow_one] at this
  have hw : ∀ s < b, NearP inj (tw (q.val ^ (s + 1)) 1 dir) (root (q.val ^ (s + 1)) dir) 1 (1 + ε) := fun s hs => by
    have := htw (s + 1) (by omega) hs dir 1 (Nat.one_lt_pow (by omega) (by omega))
    rwa [pow_one] at this
  have hB : radixGrowthR f ε q.val b * max 1 (∑ i ∈ range (q.val ^ b), (‖x.getD i 0‖ + η)) < (2 : ℝ) ^ f.emax := by
    rw [sum_allow']
    rcases max_cases (1 : ℝ) (∑ n ∈ range (q.val ^ b), ‖x.getD n 0‖ + (q.val ^ b : ℕ) * η) with ⟨e, -⟩ | ⟨e, -⟩
    · rw [e, mul_one]; exact hG
    · rw [e]; exact ho
  have ex : x.map inj = vec (q.val ^ b) (fun n => inj (x.getD n 0)) := by
    conv_lhs => rw [eq_vec_getD x 0, map_vec, hx]
  have main : ∀ val : C → (ℕ → C) → ℕ → C, (1 ≤ b → IsNearRadix f inj q.val dir ε val) →
      q.run tw (inj 1) b (x.map inj) dir
        = .ok (vec (q.val ^ b) (radixSt tw (inj 1) q.val b dir val (fun n => inj (x.getD n 0)) b)) →
      ∃ y : List ℂ, q.run tw (inj 1) b (x.map inj) dir = .ok (y.map inj) ∧ y.length = q.val ^ b ∧
      ∀ i < q.val ^ b, ‖y.getD i 0 - fourier dir (q.val ^ b) x i‖
        ≤ (radixGrowth f ε q.val b - 1) * (∑ n ∈ range (q.val ^ b), ‖x.getD n 0‖ + (q.val ^ b : ℕ) * η) := by
    intro val hval e
    have hn := radixSt_near S hR hε (minNormal_one hf) hval hw (Ξ := fun n => x.getD n 0)
      (m := fun n => ‖x.getD n 0‖ + η) (fun i => by linarith) (fun i => by linarith [norm_nonneg (x.getD i 0)]) hB b le_rfl
    choose y e1 h1 h2 using fun t => (hn t).1
    refine ⟨vec (q.val ^ b) y, ?_, length_vec _ _, fun i hi => ?_⟩
    · rw [e, map_vec]
      congr 1
      exact vec_ext fun t _ => e1 t
    · rw [getD_vec _ _ _ _ hi, fourier_eq', ← dftRoot_dir, ← ditPartial_last _ _ _ _ hi]
      have := h2 i
      rwa [ditPartial_last (A := ℝ) _ _ _ _ hi, show Spec.dftRoot (q.val ^ b) (1 : ℝ) (fun n => ‖x.getD n 0‖ + η) i
        = ∑ n ∈ range (q.val ^ b), (‖x.getD n 0‖ + η) by unfold Spec.dftRoot; simp only [one_pow, mul_one], sum_allow'] at this
  cases q with
  | three =>
    refine main (dif3Val tw dir) (fun h => dif3_near S hε (hcst h)) ?_
    rw [ex]
    show (RadixPlan.make 3 b >>= fun p => p.dif3G tw (inj 1) _ dir) = _
    rw [radixPlan_make_eq (by norm_num), bind_ok]
    exact dif3G_call hb tw (inj 1) dir _
  | five =>
    refine main (dif5Val tw dir) (fun h => dif5_near S hε (hcst h)) ?_
    rw [ex]
    show (RadixPlan.make 5 b >>= fun p => p.dif5G tw (inj 1) _ dir) = _
    rw [radixPlan_make_eq (by norm_num), bind_ok]
    exact dif5G_call hb tw (inj 1) dir _

/-- **C112** (transform).  The in-place plans of radix 3 and 5 in the IEEE format `f`, with twiddles accurate to `ε`, in both
directions, for all orders up to 18 and 12.  If the growth of the errors, and `S = ∑ (‖xₙ‖ + η)` times it, stay below the
overflow threshold, where `η` is at least the smallest normal number, then both parts of all bins are finite and every bin
is within `(growth - 1) S` of the Fourier transform.  Nothing is assumed about overflow or underflow of intermediate results,
nor about the products of twiddles that the loops compute. -/
theorem C112_fft (hf : f.Ieee) (q : OddRadix) {b : ℕ} (hb : b ≤ oddMaxOrder q) {tw : ℕ → ℕ → Direction → IC f} {ε : ℝ}
    (hε : 0 ≤ ε) (htw : ∀ e, 1 ≤ e → e ≤ b → TwFull tw (q.val ^ e) ε) (dir : Direction) (x : List ℂ)
    (hx : x.length = q.val ^ b) {η : ℝ} (hη : f.minNormal ≤ η) (hG : radixGrowth f ε q.val b < (2 : ℝ) ^ f.emax)
    (ho : radixGrowth f ε q.val b * (∑ n ∈ range (q.val ^ b), ‖x.getD n 0‖ + (q.val ^ b : ℕ) * η) < (2 : ℝ) ^ f.emax) :
    ∃ y : List ℂ, q.run tw ⟨.fin 1, .fin 0⟩ b (x.map point) dir = .ok (y.map point) ∧ y.length = q.val ^ b ∧
      ∀ i < q.val ^ b, ‖y.getD i 0 - fourier dir (q.val ^ b) x i‖
        ≤ (radixGrowth f ε q.val b - 1) * (∑ n ∈ range (q.val ^ b), ‖x.getD n 0‖ + (q.val ^ b : ℕ) * η) :=
  run_odd hf (radixNear_ieee hf) q hb hε (fun e h1 h2 dir _ hk => nearP_pt.2 (near_of (htw e h1 h2) dir hk)) dir x hx hη hG ho

/-- **C112** (`std::complex`).  The same with the default complex type, whose products are those of Annex G. -/
theorem C112_std (hf : f.Ieee) (q : OddRadix) {b : ℕ} (hb : b ≤ oddMaxOrder q) {tw : ℕ → ℕ → Direction → IC f} {ε : ℝ}
    (hε : 0 ≤ ε) (htw : ∀ e, 1 ≤ e → e ≤ b → TwFull tw (q.val ^ e) ε) (dir : Direction) (x : List ℂ)
    (hx : x.length = q.val ^ b) {η : ℝ} (hη : f.minNormal ≤ η) (hG : radixGrowth f ε q.val b < (2 : ℝ) ^ f.emax)
    (ho : radixGrowth f ε q.val b * (∑ n ∈ range (q.val ^ b), ‖x.getD n 0‖ + (q.val ^ b : ℕ) * η) < (2 : ℝ) ^ f.emax) :
    ∃ y : List ℂ, q.run (fun N k d => (tw N k d).std) ⟨.fin 1, .fin 0⟩ b (x.map fun v => (point v).std) dir
        = .ok (y.map fun v => (point v).std) ∧ y.length = q.val ^ b ∧
      ∀ i < q.val ^ b, ‖y.getD i 0 - fourier dir (q.val ^ b) x i‖
        ≤ (radixGrowth f ε q.val b - 1) * (∑ n ∈ range (q.val ^ b), ‖x.getD n 0‖ + (q.val ^ b : ℕ) * η) :=
  run_odd hf (radixNear_std hf) q hb hε
    (fun e h1 h2 dir _ hk => nearP_std.2 ⟨_, rfl, near_of (htw e h1 h2) dir hk⟩) dir x hx hη hG ho

private theorem one_le_radix {ε : ℝ} (hε : 0 ≤ ε) (R b : ℕ) : 1 ≤ radixGrowth f ε R b := one_le_radixGrowthR f hε R b

/-- **C112** (round trip).  Transforming the result back: if the growth, and `N S` times its square, stay below the overflow
threshold, all values are finite, and divided by `N` each is within `(growth² - 1) S` of the number it comes from; for both
complex types. -/
theorem C112_round_trip (hf : f.Ieee) (q : OddRadix) {b : ℕ} (hb : b ≤ oddMaxOrder q) {tw : ℕ → ℕ → Direction → IC f} {ε : ℝ}
    (hε : 0 ≤ ε) (htw : ∀ e, 1 ≤ e → e ≤ b → TwFull tw (q.val ^ e) ε) (dir : Direction) (x : List ℂ)
    (hx : x.length = q.val ^ b) {η : ℝ} (hη : f.minNormal ≤ η) (hG : radixGrowth f ε q.val b < (2 : ℝ) ^ f.emax)
    (ho : radixGrowth f ε q.val b ^ 2 * ((q.val ^ b : ℕ) *
      (∑ n ∈ range (q.val ^ b), ‖x.getD n 0‖ + ((q.val ^ b : ℕ) + 1) * η)) < (2 : ℝ) ^ f.emax) :
    (∃ (y : List (IC f)) (z : List ℂ), q.run tw ⟨.fin 1, .fin 0⟩ b (x.map point) dir = .ok y ∧
      q.run tw ⟨.fin 1, .fin 0⟩ b y (opposite dir) = .ok (z.map point) ∧ z.length = q.val ^ b ∧
      ∀ i < q.val ^ b, ‖z.getD i 0 / (q.val ^ b : ℕ) - x.getD i 0‖ ≤ (radixGrowth f ε q.val b ^ 2 - 1) *
        (∑ n ∈ range (q.val ^ b), ‖x.getD n 0‖ + ((q.val ^ b : ℕ) + 1) * η)) ∧
    ∃ (y : List (SC f)) (z : List ℂ),
      q.run (fun N k d => (tw N k d).std) ⟨.fin 1, .fin 0⟩ b (x.map fun v => (point v).std) dir = .ok y ∧
      q.run (fun N k d => (tw N k d).std) ⟨.fin 1, .fin 0⟩ b y (opposite dir) = .ok (z.map fun v => (point v).std) ∧
      z.length = q.val ^ b ∧
      ∀ i < q.val ^ b, ‖z.getD i 0 / (q.val ^ b : ℕ) - x.getD i 0‖ ≤ (radixGrowth f ε q.val b ^ 2 - 1) *
        (∑ n ∈ range (q.val ^ b), ‖x.getD n 0‖ + ((q.val ^ b : ℕ) + 1) * η) := by
  have hη0 : 0 < η := (minNormal_pos f).trans_le hη
  have hN : 1 ≤ q.val ^ b := Nat.one_le_pow _ _ (by cases q <;> decide)
  have strip : ∀ {C : Type} {r : Res (List C)} {w w' : List C} {y : List C},
      (r >>= fun y => pure (y, w) : Res (List C × List C)) = .ok (y, w') → r = .ok y := by
    intro C r w w' y h
    cases r with
    | error e => exact absurd h (by intro h; cases h)
    | ok v =>
      have h' : (.ok (v, w) : Res (List C × List C)) = .ok (y, w') := h
      rw [(Prod.mk.inj (Except.ok.inj h')).1]
  refine ⟨?_, ?_⟩
  · obtain ⟨y, w', z, w'', h1, h2, h3, h4⟩ := round_of (f := f) (k := 1) (by norm_num) (one_le_radix hε q.val b) hη0 hN
      (F := fun a w => q.run tw ⟨.fin 1, .fin 0⟩ b a dir >>= fun y => pure (y, w))
      (B := fun a w => q.run tw ⟨.fin 1, .fin 0⟩ b a (opposite dir) >>= fun y => pure (y, w)) (inj := point) (dir := dir)
      (fun x w hx hw ho => by
        obtain ⟨y, e, l, h⟩ := C112_fft hf q hb hε htw dir x hx hη hG (by linarith)
        exact ⟨y, w, by beta_reduce; rw [e]; rfl, l, hw, h⟩)
      (fun x w hx hw ho => by
        obtain ⟨y, e, l, h⟩ := C112_fft hf q hb hε htw (opposite dir) x hx hη hG (by linarith)
        exact ⟨y, w, by beta_reduce; rw [e]; rfl, l, hw, h⟩)
      x (x.map point) hx (by rw [List.length_map, hx]) (by rw [one_mul]; exact ho)
    exact ⟨y, z, strip h1, strip h2, h3, h4⟩
  · obtain ⟨y, w', z, w'', h1, h2, h3, h4⟩ := round_of (f := f) (k := 1) (by norm_num) (one_le_radix hε q.val b) hη0 hN
      (F := fun a w => q.run (fun N k d => (tw N k d).std) ⟨.fin 1, .fin 0⟩ b a dir >>= fun y => pure (y, w))
      (B := fun a w => q.run (fun N k d => (tw N k d).std) ⟨.fin 1, .fin 0⟩ b a (opposite dir) >>= fun y => pure (y, w))
      (inj := fun v => (point v).std) (dir := dir)
      (fun x w hx hw ho => by
        obtain ⟨y, e, l, h⟩ := C112_std hf q hb hε htw dir x hx hη hG (by linarith)
        exact ⟨y, w, by beta_reduce; rw [e]; rfl, l, hw, h⟩)
      (fun x w hx hw ho => by
        obtain ⟨y, e, l, h⟩ := C112_std hf q hb hε htw (opposite dir) x hx hη hG (by linarith)
        exact ⟨y, w, by beta_reduce; rw [e]; rfl, l, hw, h⟩)
      x (x.map fun v => (point v).std) hx (by rw [List.length_map, hx]) (by rw [one_mul]; exact ho)
    exact ⟨y, z, strip h1, strip h2, h3, h4⟩

/-- **C112** (the constants).  With twiddles as accurate as correctly rounded ones, the growth of the errors is at most
`1 + 2 (7 N + 2 (R + 7) b) u`, as long as this is at most 2. -/
theorem C112_growth (f : Fmt) {R : ℕ} (hR : 1 ≤ R) (b : ℕ) (h : 2 * (7 * (R : ℝ) ^ b + 2 * (R + 7) * b) * f.u ≤ 1) :
    1 ≤ radixGrowth f (2 * f.u) R b ∧
      radixGrowth f (2 * f.u) R b ≤ 1 + 2 * (7 * (R : ℝ) ^ b + 2 * (R + 7) * b) * f.u := by
  have hu := u_pos f
  refine ⟨one_le_radix (by linarith) R b, ?_⟩
  obtain ⟨t, ht⟩ : ∃ t : ℝ, t = (7 * (R : ℝ) ^ b + 2 * (R + 7) * b) * f.u := ⟨_, rfl⟩
  have ht0 : 0 ≤ t := by rw [ht]; positivity
  have e2 : 2 * (7 * (R : ℝ) ^ b + 2 * (R + 7) * b) * f.u = 2 * t := by rw [ht]; ring
  rw [e2] at h ⊢
  have c1 : ((R ^ b - 1 + 2 * b : ℕ) : ℝ) ≤ (R : ℝ) ^ b + 2 * b := by
    have : R ^ b - 1 + 2 * b ≤ R ^ b + 2 * b := by omega
    exact_mod_cast this
  have c2 : (((R - 1) * b : ℕ) : ℝ) ≤ R * b := by
    have : (R - 1) * b ≤ R * b := Nat.mul_le_mul_right _ (by omega)
    exact_mod_cast this
  have a1 : 1 + 2 * f.u ≤ Real.exp (2 * f.u) := (add_comm _ _).trans_le (Real.add_one_le_exp _)
  have a3 : 1 + 5 * f.u ≤ Real.exp (5 * f.u) := (add_comm _ _).trans_le (Real.add_one_le_exp _)
  have hg : radixGrowth f (2 * f.u) R b ≤ Real.exp t := by
    have k1 : ((1 + 2 * f.u) * (1 + 5 * f.u)) ^ (R ^ b - 1 + 2 * b)
        ≤ Real.exp ((R ^ b - 1 + 2 * b : ℕ) * (2 * f.u + 5 * f.u)) := by
      rw [Real.exp_nat_mul, Real.exp_add]
      gcongr
    have k2 : (1 + 2 * f.u) ^ ((R - 1) * b) ≤ Real.exp (((R - 1) * b : ℕ) * (2 * f.u)) := by
      rw [Real.exp_nat_mul]
      gcongr
    unfold radixGrowth
    refine (mul_le_mul k1 k2 (by positivity) (by positivity)).trans ?_
    rw [← Real.exp_add]
    apply Real.exp_le_exp.2
    have d1 := mul_le_mul_of_nonneg_right c1 (by linarith : 0 ≤ 2 * f.u + 5 * f.u)
    have d2 := mul_le_mul_of_nonneg_right c2 (by linarith : 0 ≤ 2 * f.u)
    have hb0 : (0 : ℝ) ≤ b * f.u := by positivity
    rw [ht]
    nlinarith
  refine hg.trans ?_
  have := Real.abs_exp_sub_one_sub_id_le (x := t) (by rw [abs_of_nonneg ht0]; linarith)
  have := (abs_le.1 this).2
  nlinarith

/-- Radix 3 in binary32: for up to `3^9` points the errors are below 2 percent of the sum; in binary64 they are below `1e-6`
for every order the plan can run, for both radices. -/
example {b : ℕ} (h : b ≤ 9) : radixGrowth Spec.binary32 (2 * Spec.binary32.u) 3 b ≤ 1 + 0.02 := by
  have hu : Spec.binary32.u = 1 / 16777216 := by
    show (2 : ℝ) ^ (-((24 : ℕ) : ℤ)) = _
    norm_num
  have h1 : (3 : ℝ) ^ b ≤ 3 ^ 9 := pow_le_pow_right₀ (by norm_num) h
  have h2 : (b : ℝ) ≤ 9 := by exact_mod_cast h
  have h5 : 2 * (7 * ((3 : ℕ) : ℝ) ^ b + 2 * (((3 : ℕ) : ℝ) + 7) * b) * Spec.binary32.u ≤ 0.02 := by
    rw [hu]
    norm_num at h1 ⊢
    linarith
  exact (C112_growth _ (by norm_num) _ (h5.trans (by norm_num))).2.trans (by linarith)

example (q : OddRadix) {b : ℕ} (h : b ≤ oddMaxOrder q) :
    radixGrowth Spec.binary64 (2 * Spec.binary64.u) q.val b ≤ 1 + 1e-6 := by
  have hu : Spec.binary64.u = 1 / 9007199254740992 := by
    show (2 : ℝ) ^ (-((53 : ℕ) : ℤ)) = _
    norm_num
  have hv : (q.val : ℝ) ^ b ≤ 387420489 ∧ (q.val : ℝ) ≤ 5 ∧ (b : ℝ) ≤ 18 ∧ 1 ≤ q.val := by
    cases q with
    | three =>
      have h : b ≤ 18 := h
      refine ⟨?_, by norm_num [OddRadix.val], by exact_mod_cast h, by decide⟩
      calc (((3 : ℕ) : ℝ)) ^ b ≤ (((3 : ℕ) : ℝ)) ^ 18 := pow_le_pow_right₀ (by norm_num) h
        _ = _ := by norm_num
    | five =>
      have h : b ≤ 12 := h
      refine ⟨?_, by norm_num [OddRadix.val], by exact_mod_cast (h.trans (by norm_num)), by decide⟩
      calc (((5 : ℕ) : ℝ)) ^ b ≤ (((5 : ℕ) : ℝ)) ^ 12 := pow_le_pow_right₀ (by norm_num) h
        _ ≤ _ := by norm_num
  obtain ⟨v1, v2, v3, v4⟩ := hv
  have hb0 : (0 : ℝ) ≤ b := by positivity
  have h5 : 2 * (7 * (q.val : ℝ) ^ b + 2 * ((q.val : ℝ) + 7) * b) * Spec.binary64.u ≤ 1e-6 := by
    have : ((q.val : ℝ) + 7) * b ≤ 12 * 18 := mul_le_mul (by linarith) v3 hb0 (by norm_num)
    rw [hu]
    norm_num
    linarith
  exact (C112_growth _ v4 _ (h5.trans (by norm_num))).2.trans (by linarith)

/-- The plans of `C17` are the same code in exact arithmetic. -/
example (p : RadixPlan) (x : List ℂ) (dir : Direction) :
    p.dif3G twiddle 1 x dir = p.dif3 x dir ∧ p.dif5G twiddle 1 x dir = p.dif5 x dir := ⟨rfl, rfl⟩

/-- The hypotheses hold in binary16 for nine points, radix 3, with correctly rounded tables. -/
example : binary16.Ieee ∧ 2 ≤ oddMaxOrder .three ∧
    (∃ tw : ℕ → ℕ → Direction → IC binary16, ∀ N, TwFull tw N (2 * binary16.u)) ∧
    radixGrowth binary16 (2 * binary16.u) 3 2 < (2 : ℝ) ^ binary16.emax ∧
    radixGrowth binary16 (2 * binary16.u) 3 2 ^ 2 * ((3 ^ 2 : ℕ) * (∑ n ∈ range (3 ^ 2),
      ‖[(1 : ℂ), -200, Complex.I, 800 * Complex.I, 0, 0, 50, -3, 7].getD n 0‖ + ((3 ^ 2 : ℕ) + 1) * binary16.minNormal))
        < (2 : ℝ) ^ binary16.emax := by
  have hu : binary16.u = 1 / 2048 := by
    show (2 : ℝ) ^ (-((11 : ℕ) : ℤ)) = _
    norm_num
  have hν : binary16.minNormal = 1 / 16384 := by
    show (2 : ℝ) ^ ((-24 : ℤ) + ((11 : ℕ) : ℤ) - 1) = _
    norm_num
  have hm : (2 : ℝ) ^ binary16.emax = 65536 := by
    show (2 : ℝ) ^ (16 : ℤ) = _
    norm_num
  have hf : binary16.Ieee := by unfold Fmt.Ieee binary16; norm_num
  have hg := C112_growth binary16 (R := 3) (by norm_num) 2 (by rw [hu]; norm_num)
  have hg' : radixGrowth binary16 (2 * binary16.u) 3 2 ≤ 6 / 5 := by
    refine hg.2.trans ?_
    rw [hu]
    norm_num
  have hs : ∑ n ∈ range (3 ^ 2), ‖[(1 : ℂ), -200, Complex.I, 800 * Complex.I, 0, 0, 50, -3, 7].getD n 0‖ = 1062 := by
    norm_num [sum_range_succ]
  refine ⟨hf, by decide, ⟨_, (C110_tables hf).2 _ (fun _ _ _ => rfl)⟩, by rw [hm]; linarith, ?_⟩
  rw [hs, hν, hm]
  have : radixGrowth binary16 (2 * binary16.u) 3 2 ^ 2 ≤ (6 / 5) ^ 2 := pow_le_pow_left₀ (by linarith [hg.1]) hg' 2
  norm_num at this ⊢
  nlinarith

end Neo.Props
