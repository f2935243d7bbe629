import Verif.Model.DctIeee
import Verif.Props.BluesteinIeee
import Verif.Lemmas.Dct

/-! # C116: the type-2 DCT plan in IEEE 754 arithmetic -/

namespace Neo.Props

open Neo Spec Finset

variable {f : Fmt}

/-! ### The factors -/

private theorem double_exact {c : ℝ} (hg : f.OnGrid c) (hc : |c| ≤ 1) (h8 : (8 : ℝ) ≤ (2 : ℝ) ^ f.emax) :
    f.round ((FVal.fin c).mul (.fin 2)) = .fin (c * 2) := by
  obtain ⟨m, j, g1, g2, g3⟩ := hg
  refine round_mem ⟨m, j + 1, g1, by omega, ?_⟩ ?_
  · rw [g3, zpow_add₀ (by norm_num), zpow_one, mul_assoc]
  · rw [abs_mul, abs_of_pos (by norm_num : (0 : ℝ) < 2)]
    linarith

private theorem dct_angle (hw : TwiddleFmt f) {n i : ℕ} (hn : 1 ≤ n) (hi : i ≤ n) (ho : 16 * (n : ℝ) ≤ (2 : ℝ) ^ f.emax) :
    ∃ a, SC.sdiv (SC.smul (SC.smul (⟨.fin 0, .fin (-1)⟩ : SC f) (piI f)) (ofNat f i)) (f.round ((FVal.fin 2).mul (ofNat f n)))
      = ⟨.fin 0, .fin a⟩ ∧ f.Mem (.fin a) ∧ |a - -(Real.pi * i / (2 * n))| ≤ 16 * f.u ∧ (i = 0 → a = 0) := by
  have hf := hw.1
  have hp : 1 ≤ f.p := by have := hf.1; omega
  have hu := hw.u64
  have hu0 := u_pos f
  have hν := minNormal_pos f
  have hν1 := minNormal_le_one hf
  have hmn := minNormal_mul_emax hf
  have h8 := eight_le_emax hf
  have hπ1 := Real.pi_gt_three
  have hπ2 := Real.pi_lt_d4
  have hn' : (1 : ℝ) ≤ n := by exact_mod_cast hn
  have hn0 : (0 : ℝ) < n := by linarith
  have hku : ∀ j : ℕ, j ≤ 7 → (j : ℝ) * f.u ≤ 1 / 8 := fun j hj => by
    have : (j : ℝ) ≤ 7 := by exact_mod_cast hj
    nlinarith
  have r0 : f.round (.fin 0) = .fin 0 := round_mem (onGrid_zero f) (by rw [abs_zero]; exact two_zpow_pos _)
  have hm16 : f.minNormal * (16 * n) ≤ 4 := by
    rw [← hmn]
    exact mul_le_mul_of_nonneg_left ho hν.le
  have hD := Ap.mul hf (Ap.exact hf 2) (ofNat_ap hf hn (by linarith)) (hku _ (by norm_num)) (by nlinarith) (by linarith)
  have hP := pi_ok hw
  obtain ⟨φ, eP, -⟩ := id hP
  obtain ⟨ψ, eD, -⟩ := id hD
  have mP : f.round (piI f) = piI f := by
    have := round_eq_fin (f := f) hp (show f.round _ = .fin (Real.pi * φ) from eP)
    rw [eP]
    exact round_mem this.1 this.2
  have z1 : ∀ y : ℝ, f.round ((FVal.fin 0).mul (.fin y)) = .fin 0 := fun y => by
    rw [show (FVal.fin 0).mul (.fin y) = .fin (0 * y) from rfl, zero_mul, r0]
  have hi0 : ∃ y, ofNat f i = .fin y := by
    rcases Nat.eq_zero_or_pos i with rfl | h
    · exact ⟨0, ofNat_zero⟩
    · have hi' : (i : ℝ) ≤ n := by exact_mod_cast hi
      obtain ⟨χ, e, -⟩ := ofNat_ap hf h (by linarith)
      exact ⟨_, e⟩
  obtain ⟨y, ey⟩ := hi0
  have hDpos : (2 : ℝ) * n * ψ ≠ 0 := by
    obtain ⟨ψ', e1, h1⟩ := hD
    rw [eD] at e1
    injection e1 with e1
    rw [e1]
    have := h1.near_one hf (hku _ (by norm_num))
    have : 0 < ψ' := by linarith [this.1]
    positivity
  have eim : (FVal.fin (-1)).mul (piI f) = (piI f).neg := by
    rw [eP]
    show FVal.fin (-1 * _) = .fin (- _)
    rw [neg_one_mul]
  have e : SC.sdiv (SC.smul (SC.smul (⟨.fin 0, .fin (-1)⟩ : SC f) (piI f)) (ofNat f i))
      (f.round ((FVal.fin 2).mul (ofNat f n)))
      = ⟨.fin 0, (f.round ((f.round ((piI f).mul (ofNat f i))).div (f.round ((FVal.fin 2).mul (ofNat f n))))).neg⟩ := by
    unfold SC.sdiv SC.smul
    dsimp only
    rw [eim, Fmt.round_neg, mP, FVal.neg_mul, Fmt.round_neg, neg_div', Fmt.round_neg]
    refine SC.ext ?_ rfl
    dsimp only
    rw [eP, z1, ey, z1, eD, show (FVal.fin 0).div (.fin (2 * n * ψ)) = .fin (0 / (2 * n * ψ)) from by
      simp [FVal.div, hDpos], zero_div, r0]
  rw [e]
  rcases Nat.eq_zero_or_pos i with rfl | h
  · refine ⟨0, ?_, ⟨onGrid_zero f, by rw [abs_zero]; exact two_zpow_pos _⟩, by simp; positivity, fun _ => rfl⟩
    rw [ofNat_zero, eP, show (FVal.fin (Real.pi * φ)).mul (.fin 0) = .fin (Real.pi * φ * 0) from rfl, mul_zero, r0, eD,
      show (FVal.fin 0).div (.fin (2 * n * ψ)) = .fin (0 / (2 * n * ψ)) from by simp [FVal.div, hDpos], zero_div, r0]
    show (⟨.fin 0, .fin (-0)⟩ : SC f) = _
    rw [neg_zero]
  · have h' : (1 : ℝ) ≤ i := by exact_mod_cast h
    have hi' : (i : ℝ) ≤ n := by exact_mod_cast hi
    have hN := Ap.mul hf hP (ofNat_ap hf h (by linarith)) (hku _ (by norm_num)) (by nlinarith) (by nlinarith)
    have c1 : Real.pi * i / (2 * n) ≤ Real.pi / 2 := by
      rw [div_le_div_iff₀ (by positivity) (by norm_num)]
      nlinarith
    have c2 : 2 * f.minNormal ≤ Real.pi * i / (2 * n) := by
      rw [le_div_iff₀ (by positivity)]
      nlinarith
    have hA := Ap.div hf hN hD (by positivity) (hku _ (by norm_num)) c2 (by linarith)
    have h7 : ((2 + 1 + 1 + (0 + 1 + 1) + 1 : ℕ) : ℝ) = 7 := by norm_num
    obtain ⟨a, ea, ha⟩ := hA.err hf (e := 8 * f.u) (by positivity) (by rw [h7]; linarith) (by rw [h7]; nlinarith)
    have hm := round_eq_fin hp ea
    refine ⟨-a, by rw [ea]; rfl, ⟨?_, by rw [abs_neg]; exact hm.2⟩, ?_, fun h0 => by omega⟩
    · obtain ⟨m, j, g1, g2, g3⟩ := hm.1
      exact ⟨-m, j, by rwa [abs_neg], g2, by rw [g3]; push_cast; ring⟩
    · rw [← neg_add', abs_neg, ← sub_eq_add_neg]
      refine ha.trans ?_
      nlinarith

/-- **C116** (the factors).  For every size `n` with `16 n` at most the overflow threshold and every `i ≤ n` the factor
`2 exp(-πi i/(2n))` as the code computes it is finite, its parts are at most two, and it is within `2 (16 u + 3/2 κ)` of the
exact one, where `κ` is the error of the cosine and sine of the library; the factor of bin zero is exactly two. -/
theorem C116_scale (hw : TwiddleFmt f) {exp cos sin : FVal → FVal} {κ : ℝ} (he : exp (.fin 0) = .fin 1) (hc : CosOk f cos κ)
    (hs : SinOk f sin κ) {n : ℕ} (hn : 1 ≤ n) (ho : 16 * (n : ℝ) ≤ (2 : ℝ) ^ f.emax) :
    (∀ i ≤ n, ∃ c s : ℝ, dct2ScaleI f exp cos sin n i = ⟨.fin c, .fin s⟩ ∧ |c| ≤ 2 ∧ |s| ≤ 2 ∧
      ‖(⟨c, s⟩ : ℂ) - 2 * Complex.exp (-(Real.pi * Complex.I * i / (2 * n)))‖ ≤ 2 * (16 * f.u + 3 / 2 * κ)) ∧
    dct2ScaleI f exp cos sin n 0 = ⟨.fin 2, .fin 0⟩ := by
  have hf := hw.1
  have h8 := eight_le_emax hf
  have r1 : ∀ y : ℝ, f.OnGrid y → |y| ≤ 1 → f.round ((FVal.fin 1).mul (.fin y)) = .fin y := fun y h1 h2 => by
    rw [show (FVal.fin 1).mul (.fin y) = .fin (1 * y) from rfl, one_mul]
    exact round_mem h1 (by linarith)
  refine ⟨fun i hi => ?_, ?_⟩
  · obtain ⟨a, ea, hm, herr, -⟩ := dct_angle hw hn hi ho
    obtain ⟨c, ec, c1, c2, c3⟩ := hc.fin a hm
    obtain ⟨s, es, s1, s2, s3⟩ := hs.fin a hm
    refine ⟨c * 2, s * 2, ?_, ?_, ?_, ?_⟩
    · unfold dct2ScaleI
      dsimp only
      rw [ea]
      unfold cexpI polarI IC.std
      dsimp only
      rw [he, ec, es, r1 c c1 c2, r1 s s1 s2]
      unfold SC.smul
      dsimp only
      rw [double_exact c1 c2 h8, double_exact s1 s2 h8]
    · rw [abs_mul, abs_of_pos (by norm_num : (0 : ℝ) < 2)]; linarith
    · rw [abs_mul, abs_of_pos (by norm_num : (0 : ℝ) < 2)]; linarith
    · have e1 : (⟨c * 2, s * 2⟩ : ℂ) = 2 * ⟨c, s⟩ := by apply Complex.ext <;> simp <;> ring
      have e2 : (-(Real.pi * Complex.I * i / (2 * n)) : ℂ) = ((-(Real.pi * i / (2 * n)) : ℝ) : ℂ) * Complex.I := by
        push_cast; ring
      rw [e1, e2, ← mul_sub, norm_mul, Complex.norm_ofNat]
      have h1 := norm_le_of_parts_abs (z := (⟨c, s⟩ : ℂ) - ⟨Real.cos a, Real.sin a⟩) (e := κ) c3 s3
      have h2 := norm_sub_le_norm_sub_add_norm_sub (⟨c, s⟩ : ℂ) ⟨Real.cos a, Real.sin a⟩
        (Complex.exp ((-(Real.pi * i / (2 * n)) : ℝ) * Complex.I))
      have h3 := exp_close a (-(Real.pi * i / (2 * n)))
      linarith
  · obtain ⟨a, ea, -, -, h0⟩ := dct_angle hw hn (Nat.zero_le n) ho
    rw [h0 rfl] at ea
    unfold dct2ScaleI
    dsimp only
    rw [ea]
    unfold cexpI polarI IC.std
    dsimp only
    rw [he, hc.zero, hs.zero, r1 1 (one_onGrid hf) (by rw [abs_one]), r1 0 (onGrid_zero f) (by rw [abs_zero]; norm_num)]
    unfold SC.smul
    dsimp only
    rw [double_exact (one_onGrid hf) (by rw [abs_one]) h8, double_exact (onGrid_zero f) (by rw [abs_zero]; norm_num) h8,
      one_mul, zero_mul]

/-! ### The plan -/

/-- The plan after its construction and any number of successful calls. -/
inductive Dct2ReachableI (f : Fmt) (exp cos sin : FVal → FVal) (order : ℕ) : Dct2PlanI f → Prop
  | make {p} : Dct2PlanI.make f cos sin order = .ok p → Dct2ReachableI f exp cos sin order p
  | call {p p' x y} : Dct2ReachableI f exp cos sin order p → p.call exp cos sin x = .ok (p', y) →
      Dct2ReachableI f exp cos sin order p'

/-- The plan of order `b` with the buffer `g`. -/
private noncomputable def dctIOf (f : Fmt) (cos sin : FVal → FVal) (b : ℕ) (g : ℕ → SC f) : Dct2PlanI f :=
  { fft := dit2PlanGOf (stdArith f (twiddleI f cos sin)) b, buffer := vec (2 ^ b) g }

private theorem dctI_make (cos sin : FVal → FVal) {b : ℕ} (hb : b ≤ 27) :
    Dct2PlanI.make f cos sin b = .ok (dctIOf f cos sin b fun _ => 0) := by
  unfold Dct2PlanI.make
  rw [dit2Plan_makeG_eq _ hb]
  rfl

/-- The reordered input. -/
private def orderI (f : Fmt) (N : ℕ) (x : ℕ → FVal) (i : ℕ) : SC f :=
  ⟨if i < N / 2 then x (2 * i) else x (2 * (N - 1 - i) + 1), .fin 0⟩

private theorem orderI_loop {H : ℕ} (x : ℕ → FVal) (g : ℕ → SC f) :
    forN H (fun i buf => do
      let src := i * 2
      let top := 2 * H - i - 1
      let a ← rd (vec (2 * H) x) src
      let buf ← wr buf i (⟨a, .fin 0⟩ : SC f)
      let b ← rd (vec (2 * H) x) (src + 1)
      wr buf top (⟨b, .fin 0⟩ : SC f)) (vec (2 * H) g) = .ok (vec (2 * H) (orderI f (2 * H) x)) := by
  apply forN_eq' (fun t => vec (2 * H) (fun i => if i < t ∨ 2 * H - 1 - i < t then orderI f (2 * H) x i else g i))
  · exact vec_ext (fun i _ => by simp)
  · apply vec_ext
    intro i hi
    rw [if_pos (by omega)]
  · intro t ht
    dsimp only
    rw [rd_vec_ok (by omega), bind_ok, wr_vec_ok (by omega), bind_ok, rd_vec_ok (by omega), bind_ok,
      wr_vec_ok (by omega)]
    congr 1
    apply vec_ext
    intro i hi
    by_cases h1 : i = 2 * H - t - 1
    · subst h1
      rw [Function.update_self, if_pos (by omega)]
      unfold orderI
      rw [if_neg (by omega)]
      congr 2; omega
    · rw [Function.update_of_ne h1]
      by_cases h2 : i = t
      · subst h2
        rw [Function.update_self, if_pos (by omega)]
        unfold orderI
        rw [if_pos (by omega), Nat.mul_comm]
      · rw [Function.update_of_ne h2]
        by_cases h3 : i < t ∨ 2 * H - 1 - i < t
        · rw [if_pos h3, if_pos (by omega)]
        · rw [if_neg h3, if_neg (by omega)]

private theorem dctI_call (exp cos sin : FVal → FVal) {b : ℕ} (hb : 1 ≤ b) (g : ℕ → SC f) (x : ℕ → FVal) :
    ∃ g', (dctIOf f cos sin b g).call exp cos sin (vec (2 ^ b) x) = .ok (dctIOf f cos sin b g', vec (2 ^ b) fun k =>
      (ditGn (stdArith f (twiddleI f cos sin)) b .forward (orderI f (2 ^ b) x) k * dct2ScaleI f exp cos sin (2 ^ b) k).re) := by
  obtain ⟨c, rfl⟩ : ∃ c, b = c + 1 := ⟨b - 1, by omega⟩
  have h2 : 2 ^ (c + 1) = 2 * 2 ^ c := pow_succ' 2 c
  have hl := orderI_loop (H := 2 ^ c) x g
  refine ⟨ditGn (stdArith f (twiddleI f cos sin)) (c + 1) .forward (orderI f (2 ^ (c + 1)) x), ?_⟩
  unfold Dct2PlanI.call
  simp only [length_vec]
  rw [check_decide_ok (show 2 ^ (c + 1) = (dctIOf f cos sin (c + 1) g).size from rfl), bind_ok]
  rw [show (dctIOf f cos sin (c + 1) g).buffer = vec (2 ^ (c + 1)) g from rfl,
    show (dctIOf f cos sin (c + 1) g).fft = dit2PlanGOf (stdArith f (twiddleI f cos sin)) (c + 1) from rfl,
    show 2 ^ (c + 1) / 2 = 2 ^ c by omega]
  rw [← h2] at hl
  rw [hl, bind_ok, ditG_fn hb, bind_ok]
  rw [forN_map x (fun i _ => (ditGn (stdArith f (twiddleI f cos sin)) (c + 1) .forward (orderI f (2 ^ (c + 1)) x) i
    * dct2ScaleI f exp cos sin (2 ^ (c + 1)) i).re) _
    (fun i hi h _ => by rw [rd_vec_ok hi, bind_ok, wr_vec_ok hi]), bind_ok, pure_eq_ok]
  rfl

private theorem dctI_wrong (exp cos sin : FVal → FVal) {b : ℕ} (g : ℕ → SC f) {x : List FVal} (hx : x.length ≠ 2 ^ b) :
    (dctIOf f cos sin b g).call exp cos sin x = .error .assertion := by
  unfold Dct2PlanI.call
  have : check (decide (x.length = (dctIOf f cos sin b g).size)) = .error .assertion := by
    rw [decide_eq_false (show ¬ x.length = (dctIOf f cos sin b g).size from hx)]; rfl
  simp only [this, bind_error]

private theorem dctI_form {exp cos sin : FVal → FVal} {b : ℕ} (h1 : 1 ≤ b) (h2 : b ≤ 27) {p : Dct2PlanI f}
    (h : Dct2ReachableI f exp cos sin b p) : ∃ g, p = dctIOf f cos sin b g := by
  induction h with
  | make h =>
    rw [dctI_make cos sin h2] at h
    injection h with h
    exact ⟨_, h.symm⟩
  | @call p p' x y _ h ih =>
    obtain ⟨g, rfl⟩ := ih
    by_cases hx : x.length = 2 ^ b
    · obtain ⟨g', e⟩ := dctI_call exp cos sin h1 g (fun i => x.getD i (.fin 0))
      rw [← list_eq_vec (.fin 0) hx, h] at e
      injection e with e
      exact ⟨g', (Prod.ext_iff.1 e).1⟩
    · rw [dctI_wrong exp cos sin g hx] at h
      simp at h

/-- **C116** (construction and use).  For the orders 1 to 27 the plan can be constructed.  Every call of every plan with
`2^order` numbers, finite or not, succeeds, and its results do not depend on the calls made before; a buffer of any other length
trips the assertion. -/
theorem C116_plan (f : Fmt) (exp cos sin : FVal → FVal) {b : ℕ} (h1 : 1 ≤ b) (h2 : b ≤ 27) :
    (∃ p, Dct2PlanI.make f cos sin b = .ok p) ∧
    (∀ x : List FVal, x.length = 2 ^ b → ∃ y, y.length = 2 ^ b ∧
      ∀ p, Dct2ReachableI f exp cos sin b p → ∃ p', p.call exp cos sin x = .ok (p', y)) ∧
    ∀ p, Dct2ReachableI f exp cos sin b p → ∀ x : List FVal, x.length ≠ 2 ^ b →
      p.call exp cos sin x = .error .assertion := by
  refine ⟨⟨_, dctI_make cos sin h2⟩, fun x hx => ?_, fun p hp x hx => ?_⟩
  · refine ⟨_, length_vec (2 ^ b) fun k => (ditGn (stdArith f (twiddleI f cos sin)) b .forward
      (orderI f (2 ^ b) fun i => x.getD i (.fin 0)) k * dct2ScaleI f exp cos sin (2 ^ b) k).re, fun p hp => ?_⟩
    obtain ⟨g, rfl⟩ := dctI_form h1 h2 hp
    obtain ⟨g', e⟩ := dctI_call exp cos sin h1 g (fun i => x.getD i (.fin 0))
    rw [← list_eq_vec (.fin 0) hx] at e
    exact ⟨_, e⟩
  · obtain ⟨g, rfl⟩ := dctI_form h1 h2 hp
    exact dctI_wrong exp cos sin g hx

/-! ### Errors -/

/-- The growth of the errors: the transform, the factor and the last product. -/
noncomputable def dctGrowth (f : Fmt) (κ : ℝ) (b : ℕ) : ℝ :=
  fftGrowth f (44 * f.u + 3 / 2 * κ) b * (1 + (16 * f.u + 3 / 2 * κ)) * (1 + 5 * f.u)

private theorem sum_makhoul (H : ℕ) (x : ℕ → ℝ) : ∑ i ∈ range (2 * H), |makhoul (2 * H) x i| = ∑ i ∈ range (2 * H), |x i| := by
  rw [sum_ends, sum_two_mul]
  refine sum_congr rfl fun m hm => ?_
  have := mem_range.1 hm
  unfold makhoul
  rw [if_pos (by omega), if_neg (by omega), show 2 * H - 1 - (2 * H - 1 - m) = m by omega]

/-- **C116** (accuracy).  Let `N = 2^b`, `κ` the error of the cosine and sine of the library, `η` a number that is at least the
least normal one, and `S = Σ |x_i| + N η`.  If `growth · 2 S` stays below the overflow threshold, then every call of every plan
that has been constructed and used before returns finite results, the `k`-th within `(growth − 1) 2 S` of
`2 Σ_i x_i cos(π k (2i+1) / (2N))`. -/
theorem C116_dct (hw : TwiddleFmt f) {exp cos sin : FVal → FVal} {κ : ℝ} (hκ : 0 ≤ κ) (he : exp (.fin 0) = .fin 1)
    (hc : CosOk f cos κ) (hs : SinOk f sin κ) {b : ℕ} (h1 : 1 ≤ b) (h2 : b ≤ 27) (hbe : (b : ℤ) + 4 ≤ f.emax) (x : List ℝ)
    (hx : x.length = 2 ^ b) {η S : ℝ} (hη : f.minNormal ≤ η) (hS : S = ∑ i ∈ range (2 ^ b), |x.getD i 0| + 2 ^ b * η)
    (ho : dctGrowth f κ b * (2 * S) < (2 : ℝ) ^ f.emax) :
    ∃ y : List ℝ, y.length = 2 ^ b ∧
      (∀ p, Dct2ReachableI f exp cos sin b p → ∃ p', p.call exp cos sin (x.map .fin) = .ok (p', y.map .fin)) ∧
      ∀ k < 2 ^ b, |y.getD k 0 - 2 * ∑ i ∈ range (2 ^ b), x.getD i 0 * Real.cos (Real.pi * k * (2 * i + 1) / (2 * 2 ^ b))|
        ≤ (dctGrowth f κ b - 1) * (2 * S) := by
  have hf := hw.1
  have hu := u_pos f
  have hν := minNormal_pos f
  have R := radixNear_std hf
  obtain ⟨c, rfl⟩ : ∃ c, b = c + 1 := ⟨b - 1, by omega⟩
  have e2 : 2 ^ (c + 1) = 2 * 2 ^ c := pow_succ' 2 c
  have h16 : 16 * (((2 ^ (c + 1) : ℕ) : ℝ)) ≤ (2 : ℝ) ^ f.emax := by
    have : (2 : ℝ) ^ (((c + 1 : ℕ) : ℤ) + 4) ≤ (2 : ℝ) ^ f.emax := zpow_le_zpow_right₀ (by norm_num) hbe
    rw [zpow_add₀ (by norm_num), zpow_natCast] at this
    push_cast
    norm_num at this ⊢
    linarith
  have hN1 : 1 ≤ 2 ^ (c + 1) := Nat.one_le_two_pow
  have htw := tw_near h1 (C113_tables hw hc hs (N := 2 ^ (c + 1)) hN1 h16).2
  have hsc := (C116_scale (f := f) (exp := exp) hw he hc hs hN1 h16).1
  set X : ℕ → ℝ := fun i => x.getD i 0 with hX
  set N := 2 ^ (c + 1) with hN
  have hη0 : 0 < η := by linarith
  have hSsum : S = ∑ i ∈ range N, (|makhoul N X i| + η) := by
    rw [hS, sum_add_distrib, sum_const, card_range, nsmul_eq_mul]
    congr 1
    · rw [e2, sum_makhoul]
    · rw [hN]; push_cast; rfl
  have hSη : η ≤ S := by
    rw [hSsum]
    have h0 : 0 ∈ range N := mem_range.2 (by omega)
    refine le_trans ?_ (single_le_sum (f := fun i => |makhoul N X i| + η) (fun i _ => by positivity) h0)
    have := abs_nonneg (makhoul N X 0)
    linarith
  have hS0 : 0 < S := by linarith
  have hε : 0 ≤ 44 * f.u + 3 / 2 * κ := by positivity
  have g1 : 1 ≤ fftGrowth f (44 * f.u + 3 / 2 * κ) (c + 1) := one_le_pow₀ (one_le_growth (by linarith))
  have g2 : 1 ≤ 1 + (16 * f.u + 3 / 2 * κ) := by nlinarith
  have g3 : 1 ≤ 1 + 5 * f.u := by linarith
  have hfg : fftGrowth f (44 * f.u + 3 / 2 * κ) (c + 1) ≤ dctGrowth f κ (c + 1) := by
    unfold dctGrowth
    rw [mul_assoc]
    exact le_mul_of_one_le_right (by linarith) (one_le_mul_of_one_le_of_one_le g2 g3)
  have nI : ∀ i < N, NearP (fun y => (IC.pt y : IC f).std) (orderI f N (fun i => .fin (X i)) i)
      ((makhoul N X i : ℝ) : ℂ) (|makhoul N X i| + η) 1 := fun i _ =>
    ⟨((makhoul N X i : ℝ) : ℂ), by
      unfold orderI makhoul
      dsimp only
      split <;> rfl, by rw [Complex.norm_real, Real.norm_eq_abs]; linarith,
      by rw [sub_self, norm_zero, sub_self, zero_mul]⟩
  have near : ∀ k < N, NearP (fun y => (IC.pt y : IC f).std)
      (ditGn (stdArith f (twiddleI f cos sin)) (c + 1) .forward (orderI f N fun i => .fin (X i)) k
        * dct2ScaleI f exp cos sin N k)
      (specDft .forward N (fun i => ((makhoul N X i : ℝ) : ℂ)) k * dct2Scale N k) (S * 2) (dctGrowth f κ (c + 1)) := by
    intro k hk
    have n1 := ditStd_near hf h1 (by linarith) htw le_rfl nI
      (fun i _ => by have := abs_nonneg (makhoul N X i); linarith) (by
      rw [one_mul, ← hSsum]
      have : fftGrowth f (44 * f.u + 3 / 2 * κ) (c + 1) * S ≤ dctGrowth f κ (c + 1) * (2 * S) :=
        mul_le_mul hfg (by linarith) hS0.le (by linarith)
      exact lt_of_le_of_lt this ho) .forward hk
    rw [one_mul, ← hSsum] at n1
    obtain ⟨p, q, e, -, -, hh⟩ := hsc k hk.le
    have e3 : dct2Scale N k = 2 * Complex.exp (-(Real.pi * Complex.I * k / (2 * N))) := by
      unfold dct2Scale
      dsimp only
      rw [show (⟨0, -1⟩ : ℂ) = -Complex.I by apply Complex.ext <;> simp]
      congr 2
      ring
    have n2 : NearP (fun y => (IC.pt y : IC f).std) (dct2ScaleI f exp cos sin N k) (dct2Scale N k) 2
        (1 + (16 * f.u + 3 / 2 * κ)) := by
      refine ⟨⟨p, q⟩, e, ?_, ?_⟩
      · rw [e3, show (-(Real.pi * Complex.I * k / (2 * N)) : ℂ) = ((-(Real.pi * k / (2 * N)) : ℝ) : ℂ) * Complex.I by
          push_cast; ring, norm_mul, Complex.norm_exp_ofReal_mul_I, Complex.norm_ofNat, mul_one]
      · rw [e3, add_sub_cancel_left]
        exact hh.trans_eq (mul_comm _ _)
    exact R.mul n1 n2 g1 g2 (by linarith) (by rw [mul_comm S]; exact ho)
  choose y ey _ hy using near
  refine ⟨vec N fun k => if hk : k < N then (y k hk).re else 0, length_vec _ _, fun p hp => ?_, fun k hk => ?_⟩
  · obtain ⟨g, rfl⟩ := dctI_form h1 h2 hp
    obtain ⟨g', e⟩ := dctI_call exp cos sin h1 g (fun i => .fin (X i))
    refine ⟨dctIOf f cos sin (c + 1) g', ?_⟩
    rw [show (x.map FVal.fin) = vec N fun i => FVal.fin (X i) by
      conv_lhs => rw [list_eq_vec 0 hx, map_vec], e, map_vec]
    refine congrArg Except.ok (Prod.ext rfl (vec_ext fun k hk => ?_))
    rw [ey k hk, dif_pos hk]
    rfl
  · rw [getD_vec _ _ _ _ hk, dif_pos hk]
    have e4 := makhoul_dct (H := 2 ^ c) (by positivity) X k
    rw [← e2] at e4
    have e5 : 2 * ∑ i ∈ range N, x.getD i 0 * Real.cos (Real.pi * k * (2 * i + 1) / (2 * 2 ^ (c + 1)))
        = (specDft .forward N (fun i => ((makhoul N X i : ℝ) : ℂ)) k * dct2Scale N k).re := by
      refine Eq.trans ?_ e4.symm
      unfold Spec.dct2
      rw [hN]
      push_cast
      rfl
    rw [e5, ← Complex.sub_re, mul_comm 2 S]
    exact (Complex.abs_re_le_norm _).trans (hy k hk)

/-- **C116** (accuracy, in plain terms).  If the cosine and sine of the library are within one unit roundoff, `150 b u ≤ 1` and
`4 S` stays below the threshold, all results are finite and within `300 b u S` of the transform. -/
theorem C116_dct_explicit (hw : TwiddleFmt f) {exp cos sin : FVal → FVal} (he : exp (.fin 0) = .fin 1) (hc : CosOk f cos f.u)
    (hs : SinOk f sin f.u) {b : ℕ} (h1 : 1 ≤ b) (h2 : b ≤ 27) (hbe : (b : ℤ) + 4 ≤ f.emax) (hbu : 150 * b * f.u ≤ 1)
    (x : List ℝ) (hx : x.length = 2 ^ b) {η S : ℝ} (hη : f.minNormal ≤ η)
    (hS : S = ∑ i ∈ range (2 ^ b), |x.getD i 0| + 2 ^ b * η) (ho : 4 * S < (2 : ℝ) ^ f.emax) :
    ∃ y : List ℝ, y.length = 2 ^ b ∧
      (∀ p, Dct2ReachableI f exp cos sin b p → ∃ p', p.call exp cos sin (x.map .fin) = .ok (p', y.map .fin)) ∧
      ∀ k < 2 ^ b, |y.getD k 0 - 2 * ∑ i ∈ range (2 ^ b), x.getD i 0 * Real.cos (Real.pi * k * (2 * i + 1) / (2 * 2 ^ b))|
        ≤ 300 * b * f.u * S := by
  have hu := u_pos f
  have hν := minNormal_pos f
  have hb' : (1 : ℝ) ≤ b := by exact_mod_cast h1
  have hbu1 : f.u ≤ b * f.u := le_mul_of_one_le_left hu.le hb'
  have hS0 : 0 ≤ S := by
    rw [hS]
    exact add_nonneg (sum_nonneg fun _ _ => abs_nonneg _) (mul_nonneg (by positivity) (by linarith))
  have hg : dctGrowth f f.u b ≤ 1 + 150 * b * f.u := by
    have l1 : dctGrowth f f.u b ≤ Real.exp (b * ((44 * f.u + 3 / 2 * f.u) + 5 * f.u + 2 * f.u)
        + (16 * f.u + 3 / 2 * f.u) + 5 * f.u) := by
      have hε : 0 ≤ 44 * f.u + 3 / 2 * f.u := by positivity
      have hε' : 0 ≤ 16 * f.u + 3 / 2 * f.u := by positivity
      unfold dctGrowth fftGrowth
      generalize 44 * f.u + 3 / 2 * f.u = ε at hε ⊢
      generalize 16 * f.u + 3 / 2 * f.u = ε' at hε' ⊢
      rw [Real.exp_add, Real.exp_add, Real.exp_nat_mul, Real.exp_add, Real.exp_add]
      gcongr <;> exact le_exp _
    have e : b * ((44 * f.u + 3 / 2 * f.u) + 5 * f.u + 2 * f.u) + (16 * f.u + 3 / 2 * f.u) + 5 * f.u
        = 52.5 * (b * f.u) + 22.5 * f.u := by ring
    rw [e] at l1
    have l2 := exp_le (t := 52.5 * (b * f.u) + 22.5 * f.u) (by positivity) (by linarith)
    linarith
  obtain ⟨y, a1, a2, a3⟩ := C116_dct hw hu.le he hc hs h1 h2 hbe x hx hη hS
    (lt_of_le_of_lt (mul_le_mul_of_nonneg_right (by linarith : _ ≤ (2 : ℝ)) (by linarith)) (by linarith))
  refine ⟨y, a1, a2, fun k hk => (a3 k hk).trans ?_⟩
  have := mul_le_mul_of_nonneg_right (by linarith : dctGrowth f f.u b - 1 ≤ 150 * b * f.u) (by linarith : 0 ≤ 2 * S)
  linarith

/-- In single precision, a plan for 1024 samples, new or used, and any input whose magnitudes add to at most one: the results
are finite and within `2e-4` of the cosine transform. -/
example (x : List ℝ) (hx : x.length = 1024) (h1 : ∑ n ∈ range 1024, |x.getD n 0| ≤ 1) (exp : FVal → FVal)
    (he : exp (.fin 0) = .fin 1) : ∃ y : List ℝ, y.length = 1024 ∧
      (∀ p, Dct2ReachableI binary32 exp (cosR binary32) (sinR binary32) 10 p →
        ∃ p', p.call exp (cosR binary32) (sinR binary32) (x.map .fin) = .ok (p', y.map .fin)) ∧
      ∀ k < 1024, |y.getD k 0 - 2 * ∑ i ∈ range 1024, x.getD i 0 * Real.cos (Real.pi * k * (2 * i + 1) / (2 * 1024))|
        ≤ 2e-4 := by
  have hf : binary32.Ieee := by unfold Fmt.Ieee binary32; norm_num
  have hu : binary32.u = 1 / 2 ^ 24 := by
    show (2 : ℝ) ^ (-((24 : ℕ) : ℤ)) = _
    norm_num
  have hν : binary32.minNormal ≤ 1 / 2 ^ 100 := by
    show (2 : ℝ) ^ ((-149 : ℤ) + ((24 : ℕ) : ℤ) - 1) ≤ _
    norm_num
  have hm : (2 : ℝ) ^ 30 ≤ (2 : ℝ) ^ binary32.emax := by
    rw [← zpow_natCast]
    exact zpow_le_zpow_right₀ (by norm_num) (by norm_num [binary32])
  have e10 : 2 ^ 10 = 1024 := by norm_num
  have hS : ∑ n ∈ range (2 ^ 10), |x.getD n 0| + 2 ^ 10 * (1 / 2 ^ 100) ≤ 1.0001 := by
    have : (2 : ℝ) ^ 10 * (1 / 2 ^ 100) ≤ 0.0001 := by norm_num
    rw [e10]
    exact (add_le_add h1 this).trans (by norm_num)
  have h30 : (4 : ℝ) * 1.0001 < 2 ^ 30 := by norm_num
  obtain ⟨y, a1, a2, a3⟩ := C116_dct_explicit ⟨hf, by norm_num [binary32], by norm_num [binary32]⟩ he (cosR_ok hf)
    (sinR_ok hf) (b := 10) (by norm_num) (by norm_num) (by norm_num [binary32]) (by rw [hu]; norm_num) x (by rw [hx, e10]) hν rfl
    (lt_of_le_of_lt (mul_le_mul_of_nonneg_left hS (by norm_num)) (h30.trans_le hm))
  have e10' : (2 : ℝ) ^ 10 = 1024 := by norm_num
  rw [e10] at a1 a3
  rw [e10'] at a3
  refine ⟨y, a1, a2, fun k hk => (a3 k hk).trans ?_⟩
  rw [e10, e10'] at hS
  have k1 : 300 * ((10 : ℕ) : ℝ) * binary32.u ≤ 1.8e-4 := by rw [hu]; norm_num
  exact (mul_le_mul_of_nonneg_left hS (by positivity)).trans ((mul_le_mul_of_nonneg_right k1 (by norm_num)).trans (by norm_num))

end Neo.Props
