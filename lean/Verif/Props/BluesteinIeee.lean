import Verif.Model.BluesteinIeee
import Verif.Props.TwiddleIeee
import Verif.Lemmas.RadixNear
import Verif.Lemmas.DftRounding

/-! # C115: the arbitrary-length plan (Bluestein) in IEEE 754 arithmetic -/

namespace Neo.Props

open Neo Spec Finset
open scoped ComplexConjugate

variable {f : Fmt}

/-! ### The chirp -/

theorem pi_ok (hw : TwiddleFmt f) : Ap f 2 Real.pi (piI f) := by
  have hf := hw.1
  have hu := hw.u64
  have hu0 := u_pos f
  have h8 := eight_le_emax hf
  have hπ1 := Real.pi_gt_three
  have hπ2 := Real.pi_lt_d2
  have hν1 := minNormal_le_one hf
  have h16 : (16 : ℝ) ≤ (2 : ℝ) ^ binary64.emax := by
    have : (2 : ℝ) ^ (4 : ℤ) ≤ (2 : ℝ) ^ binary64.emax := zpow_le_zpow_right₀ (by norm_num) (by norm_num [binary64])
    norm_num at this ⊢
    exact this
  obtain ⟨φ, e, h⟩ := rndInf_fac binary64_ieee (t := Real.pi) ((minNormal_le_one binary64_ieee).trans (by linarith))
  have hφ := h.coarser binary64_ieee (u_coarser hw.2.2)
  have h67 := hφ.near_one hf (by norm_num; linarith)
  have hpos : 0 ≤ Real.pi * φ := by nlinarith
  have hlt : Real.pi * φ < 4 := by nlinarith
  have e1 : binary64.round (.fin Real.pi) = .fin (Real.pi * φ) := by
    rw [round_fin_of_lt (by rw [e, abs_of_nonneg hpos]; linarith), e]
  unfold piI
  rw [e1]
  exact Ap.round hf hφ (by norm_num; linarith) (by linarith) (by linarith)

private theorem back_chirp (hw : TwiddleFmt f) {n : ℕ} (hn : 1 ≤ n) (ho : 16 * (n : ℝ) ≤ (2 : ℝ) ^ f.emax) (i : ℕ) :
    ∃ a, chirpAngleI f n i .backward = .fin a ∧ f.Mem (.fin a) ∧
      |a - ((i * i % (n * 2) : ℕ) : ℝ) * (Real.pi / n)| ≤ 44 * f.u := by
  have hf := hw.1
  have hp : 1 ≤ f.p := by have := hf.1; omega
  have hu := hw.u64
  have hu0 := u_pos f
  have hν := minNormal_pos f
  have hν1 := minNormal_le_one hf
  have hmn := minNormal_mul_emax hf
  have h8 := eight_le_emax hf
  have hπ1 := Real.pi_gt_three
  have hπ2 := Real.pi_lt_d4
  have hn' : (1 : ℝ) ≤ n := by exact_mod_cast hn
  have hn0 : (0 : ℝ) < n := by linarith
  have hku : ∀ j : ℕ, j ≤ 6 → (j : ℝ) * f.u ≤ 1 / 8 := fun j hj => by
    have : (j : ℝ) ≤ 6 := by exact_mod_cast hj
    nlinarith
  have b3 : 2 * f.minNormal ≤ Real.pi / n := by
    rw [le_div_iff₀ hn0]
    have : f.minNormal * (16 * n) ≤ f.minNormal * (2 : ℝ) ^ f.emax := mul_le_mul_of_nonneg_left (by linarith) hν.le
    nlinarith
  have b4 : Real.pi / n ≤ Real.pi := div_le_self (by linarith) hn'
  have hQ := Ap.div hf (pi_ok hw) (ofNat_ap hf hn (by linarith)) hn0 (hku _ (by norm_num)) b3 (by linarith)
  have h1 : f.round ((f.round ((piI f).div (ofNat f n))).mul (.fin 1)) = f.round ((piI f).div (ofNat f n)) := by
    obtain ⟨ψ, e, -⟩ := hQ
    have hm := round_eq_fin hp e
    rw [e, show (FVal.fin (Real.pi / n * ψ)).mul (.fin 1) = .fin (Real.pi / n * ψ * 1) from rfl, mul_one]
    exact round_mem hm.1 hm.2
  unfold chirpAngleI
  dsimp only
  rw [if_neg (by decide), h1]
  set j := i * i % (n * 2) with hj
  have hjn : j < n * 2 := Nat.mod_lt _ (by omega)
  rcases Nat.eq_zero_or_pos j with h0 | hj0
  · obtain ⟨ψ, e, -⟩ := hQ
    have hr0 : f.round (.fin 0) = .fin 0 := round_mem (onGrid_zero f) (by rw [abs_zero]; exact two_zpow_pos _)
    refine ⟨0, ?_, ⟨onGrid_zero f, by rw [abs_zero]; exact two_zpow_pos _⟩, by rw [h0]; simp; positivity⟩
    rw [h0, ofNat_zero, e, show (FVal.fin 0).mul (.fin (Real.pi / n * ψ)) = .fin (0 * (Real.pi / n * ψ)) from rfl, zero_mul, hr0]
  have hj' : (1 : ℝ) ≤ j := by exact_mod_cast hj0
  have hjn' : (j : ℝ) ≤ n * 2 := by exact_mod_cast hjn.le
  have c1 : Real.pi / n ≤ j * (Real.pi / n) := le_mul_of_one_le_left (by positivity) hj'
  have c2 : j * (Real.pi / n) ≤ Real.pi * 2 := by
    rw [mul_div_assoc', div_le_iff₀ hn0]
    nlinarith
  have hA := Ap.mul hf (ofNat_ap hf hj0 (by linarith)) hQ (hku _ (by norm_num)) (b3.trans c1) (by linarith)
  have h6 : ((1 + (2 + 1 + 1) + 1 : ℕ) : ℝ) = 6 := by norm_num
  obtain ⟨a, ea, ha⟩ := hA.err hf (e := 7 * f.u) (by positivity) (by rw [h6]; linarith) (by rw [h6]; nlinarith)
  refine ⟨a, ea, round_eq_fin hp ea, ha.trans ?_⟩
  nlinarith

private theorem forward_chirp (n i : ℕ) : chirpAngleI f n i .forward = (chirpAngleI f n i .backward).neg := by
  unfold chirpAngleI
  dsimp only
  rw [if_pos rfl, if_neg (by decide), show (FVal.fin (-1)) = (FVal.fin 1).neg from rfl, FVal.mul_neg', Fmt.round_neg,
    FVal.mul_neg', Fmt.round_neg]

private theorem chirp_exp (n : ℕ) (dir : Direction) (i : ℕ) :
    chirp n dir i = Complex.exp ((dirSign dir * (((i * i % (n * 2) : ℕ) : ℝ) * (Real.pi / n)) : ℝ) * Complex.I) := by
  unfold chirp bluesteinChirp
  dsimp only
  rw [polar_eq_exp]
  congr 2
  push_cast
  ring

/-- **C115** (the chirp).  For every size `n` with `16 n` at most the overflow threshold, every index and both directions: the
entry the code computes is finite, its parts are at most one, and it is within `44 u + 3/2 κ` of `exp(∓πi i²/n)`, where `κ` is
the error of the cosine and sine of the library.  The squares are reduced modulo `2 n`, so the error does not grow. -/
theorem C115_chirp (hw : TwiddleFmt f) {cos sin : FVal → FVal} {κ : ℝ} (hc : CosOk f cos κ) (hs : SinOk f sin κ) {n : ℕ}
    (hn : 1 ≤ n) (ho : 16 * (n : ℝ) ≤ (2 : ℝ) ^ f.emax) (i : ℕ) (dir : Direction) :
    ∃ c s : ℝ, chirpI f cos sin n i dir = ⟨.fin c, .fin s⟩ ∧ |c| ≤ 1 ∧ |s| ≤ 1 ∧
      ‖(⟨c, s⟩ : ℂ) - Complex.exp ((if dir = .forward then -1 else 1) * (Real.pi * Complex.I * i ^ 2 / n))‖
        ≤ 44 * f.u + 3 / 2 * κ := by
  have hf := hw.1
  have h8 := eight_le_emax hf
  have r1 : ∀ y : ℝ, f.OnGrid y → |y| ≤ 1 → f.round ((FVal.fin 1).mul (.fin y)) = .fin y := fun y h1 h2 => by
    rw [show (FVal.fin 1).mul (.fin y) = .fin (1 * y) from rfl, one_mul]
    exact round_mem h1 (by linarith)
  have hA : ∃ a, chirpAngleI f n i dir = .fin a ∧ f.Mem (.fin a) ∧
      |a - dirSign dir * (((i * i % (n * 2) : ℕ) : ℝ) * (Real.pi / n))| ≤ 44 * f.u := by
    obtain ⟨a, e, h1, h3⟩ := back_chirp hw hn ho i
    cases dir with
    | backward => exact ⟨a, e, h1, by unfold dirSign; rwa [if_neg (by decide), one_mul]⟩
    | forward =>
      refine ⟨-a, by rw [forward_chirp, e]; rfl, ⟨?_, by rw [abs_neg]; exact h1.2⟩, ?_⟩
      · obtain ⟨m, j, g1, g2, g3⟩ := h1.1
        exact ⟨-m, j, by rwa [abs_neg], g2, by rw [g3]; push_cast; ring⟩
      · unfold dirSign
        rw [if_pos rfl, neg_one_mul, ← neg_add', abs_neg, ← sub_eq_add_neg]
        exact h3
  obtain ⟨a, ea, hm, herr⟩ := hA
  obtain ⟨c, ec, c1, c2, c3⟩ := hc.fin a hm
  obtain ⟨s, es, s1, s2, s3⟩ := hs.fin a hm
  refine ⟨c, s, ?_, c2, s2, ?_⟩
  · unfold chirpI polarI IC.std
    rw [ea, ec, es, r1 c c1 c2, r1 s s1 s2]
  · have e : Complex.exp ((if dir = .forward then -1 else 1) * (Real.pi * Complex.I * i ^ 2 / n)) = chirp n dir i := by
      rw [chirp_eq (by omega), root_pow_eq]
      congr 1
      have : (n : ℂ) ≠ 0 := by exact_mod_cast (by omega : n ≠ 0)
      cases dir <;> simp <;> field_simp
    rw [e, chirp_exp]
    have h1 := norm_le_of_parts_abs (z := (⟨c, s⟩ : ℂ) - ⟨Real.cos a, Real.sin a⟩) (e := κ) c3 s3
    have h2 := norm_sub_le_norm_sub_add_norm_sub (⟨c, s⟩ : ℂ) ⟨Real.cos a, Real.sin a⟩
      (Complex.exp ((dirSign dir * (((i * i % (n * 2) : ℕ) : ℝ) * (Real.pi / n)) : ℝ) * Complex.I))
    have h3 := exp_close a (dirSign dir * (((i * i % (n * 2) : ℕ) : ℝ) * (Real.pi / n)))
    linarith

/-! ### The plan -/

/-- The plan after its construction and any number of successful calls. -/
inductive BluesteinReachableI (f : Fmt) (cos sin : FVal → FVal) (n : ℕ) : BluesteinPlanI f → Prop
  | make {p} : BluesteinPlanI.make f cos sin n = .ok p → BluesteinReachableI f cos sin n p
  | call {p p' x dir y} : BluesteinReachableI f cos sin n p → p.call x dir = .ok (p', y) → BluesteinReachableI f cos sin n p'

/-- The plan for size `n` with work buffers `g`, `h`. -/
private noncomputable def planIOf (f : Fmt) (cos sin : FVal → FVal) (n : ℕ) (g h : ℕ → SC f) : BluesteinPlanI f :=
  { size := n
    plan := dit2PlanGOf (stdArith f (twiddleI f cos sin)) (Nat.clog 2 (n * 2 + 1))
    wf := vec n fun i => chirpI f cos sin n i .forward
    wb := vec n fun i => chirpI f cos sin n i .backward
    a := vec (2 ^ Nat.clog 2 (n * 2 + 1)) g
    b := vec (2 ^ Nat.clog 2 (n * 2 + 1)) h }

private theorem planI_make (cos sin : FVal → FVal) {n : ℕ} (hn : n * 2 + 1 ≤ 2 ^ 27) :
    BluesteinPlanI.make f cos sin n = .ok (planIOf f cos sin n (fun _ => 0) (fun _ => 0)) := by
  unfold BluesteinPlanI.make
  rw [nextOrder_eq, dit2Plan_makeG_eq _ ((Nat.clog_le_iff_le_pow (by norm_num)).2 hn), bind_ok]
  have hl : forN n (fun i (w : List (SC f) × List (SC f)) => do
      let wf ← wr w.1 i (chirpI f cos sin n i .forward)
      let wb ← wr w.2 i (chirpI f cos sin n i .backward)
      pure (wf, wb)) (vec n (fun _ => (0 : SC f)), vec n (fun _ => (0 : SC f)))
      = .ok (vec n fun i => chirpI f cos sin n i .forward, vec n fun i => chirpI f cos sin n i .backward) := by
    apply forN_eq' (fun t => (vec n (fun i => if i < t then chirpI f cos sin n i .forward else 0),
      vec n (fun i => if i < t then chirpI f cos sin n i .backward else 0)))
    · simp
    · refine Prod.ext ?_ ?_ <;> exact vec_ext (fun i hi => by simp [hi])
    · intro t ht
      dsimp only
      rw [wr_vec_ok ht, bind_ok, wr_vec_ok ht, bind_ok, pure_eq_ok]
      congr 1
      refine Prod.ext ?_ ?_ <;>
      · apply vec_ext
        intro i hi
        by_cases h : i = t
        · subst h; simp
        · have : i < t + 1 ↔ i < t := by omega
          simp [h, this]
  rw [hl, bind_ok]
  rfl

/-- The computed symmetric chirp; element 0 is not conjugated. -/
private noncomputable def symI (f : Fmt) (cos sin : FVal → FVal) (n m : ℕ) (dir : Direction) (i : ℕ) : SC f :=
  if i = 0 then chirpI f cos sin n 0 dir else
  if i < n then SC.conj (chirpI f cos sin n i dir) else if m - i < n then SC.conj (chirpI f cos sin n (m - i) dir) else 0

private theorem symI_loop (cos sin : FVal → FVal) {n m : ℕ} (hn : 0 < n) (hm : n * 2 + 1 ≤ m) (dir : Direction) :
    forR 1 n (fun i b => do
      let m := b.length
      let wi ← rd (vec n fun i => chirpI f cos sin n i dir) i
      let c := SC.conj wi
      let b ← wr b i c
      wr b (m - i) c) (vec m (Function.update (fun _ => (0 : SC f)) 0 (chirpI f cos sin n 0 dir)))
      = .ok (vec m (symI f cos sin n m dir)) := by
  apply forR_eq' (fun t => vec m (fun i => if i = 0 then chirpI f cos sin n 0 dir else
    if i < t then SC.conj (chirpI f cos sin n i dir)
    else if m - i < t then SC.conj (chirpI f cos sin n (m - i) dir) else 0)) hn
  · apply vec_ext
    intro i hi
    by_cases h : i = 0
    · subst h; simp
    · rw [Function.update_of_ne h, if_neg h, if_neg (by omega), if_neg (by omega)]
  · rfl
  · intro t h1 ht
    simp only [length_vec]
    rw [rd_vec_ok ht, bind_ok, wr_vec_ok (by omega), bind_ok, wr_vec_ok (by omega)]
    congr 1
    apply vec_ext
    intro i hi
    by_cases h : i = m - t
    · subst h
      rw [Function.update_self, if_neg (by omega), if_neg (by omega), if_pos (by omega),
        show m - (m - t) = t by omega]
    · rw [Function.update_of_ne h]
      by_cases h2 : i = t
      · subst h2; rw [Function.update_self, if_neg (by omega), if_pos (by omega)]
      · rw [Function.update_of_ne h2]
        by_cases h0 : i = 0
        · rw [if_pos h0, if_pos h0]
        · rw [if_neg h0, if_neg h0]
          by_cases h3 : i < t
          · rw [if_pos h3, if_pos (by omega)]
          · rw [if_neg h3, if_neg (show ¬ i < t + 1 by omega)]
            by_cases h4 : m - i < t
            · rw [if_pos h4, if_pos (by omega)]
            · rw [if_neg h4, if_neg (by omega)]

section values
variable (f) (cos sin : FVal → FVal) (n b : ℕ) (dir : Direction) (x : ℕ → SC f)

/-- The input times the chirp, padded. -/
private noncomputable def valA : ℕ → SC f := fun i => if i < n then x i * chirpI f cos sin n i dir else 0
/-- The product of the spectra. -/
private noncomputable def valP : ℕ → SC f := fun k =>
  ditGn (stdArith f (twiddleI f cos sin)) b .forward (valA f cos sin n dir x) k
    * ditGn (stdArith f (twiddleI f cos sin)) b .forward (symI f cos sin n (2 ^ b) dir) k
/-- The convolution. -/
private noncomputable def valC : ℕ → SC f := fun i =>
  SC.smul (ditGn (stdArith f (twiddleI f cos sin)) b .backward (valP f cos sin n b dir x) i)
    (f.round ((FVal.fin 1).div (ofNat f (2 ^ b))))

end values

private theorem call_vec (cos sin : FVal → FVal) {n : ℕ} (hn : 0 < n) (g h x : ℕ → SC f) (dir : Direction) :
    ∃ g' h', (planIOf f cos sin n g h).call (vec n x) dir = .ok (planIOf f cos sin n g' h',
      vec n fun k => valC f cos sin n (Nat.clog 2 (n * 2 + 1)) dir x k * chirpI f cos sin n k dir) := by
  have hb : 1 ≤ Nat.clog 2 (n * 2 + 1) := Nat.clog_pos (by norm_num) (by omega)
  have hm : n * 2 + 1 ≤ 2 ^ Nat.clog 2 (n * 2 + 1) := Nat.le_pow_clog (by norm_num) _
  have hp : (planIOf f cos sin n g h).plan = dit2PlanGOf (stdArith f (twiddleI f cos sin)) (Nat.clog 2 (n * 2 + 1)) := rfl
  have hsz : (planIOf f cos sin n g h).size = n := rfl
  have ha : (planIOf f cos sin n g h).a = vec (2 ^ Nat.clog 2 (n * 2 + 1)) g := rfl
  have hb' : (planIOf f cos sin n g h).b = vec (2 ^ Nat.clog 2 (n * 2 + 1)) h := rfl
  have hw : (if dir = .forward then (planIOf f cos sin n g h).wf else (planIOf f cos sin n g h).wb)
      = vec n fun i => chirpI f cos sin n i dir := by cases dir <;> rfl
  have hps : (dit2PlanGOf (stdArith f (twiddleI f cos sin)) (Nat.clog 2 (n * 2 + 1))).size
      = 2 ^ Nat.clog 2 (n * 2 + 1) := rfl
  generalize hbb : Nat.clog 2 (n * 2 + 1) = b at *
  set m := 2 ^ b with hmdef
  have hmpos : 0 < m := by omega
  refine ⟨valC f cos sin n b dir x, ditGn (stdArith f (twiddleI f cos sin)) b .forward (symI f cos sin n m dir), ?_⟩
  unfold BluesteinPlanI.call
  simp only [hp, hsz, ha, hb', hw, hps]
  rw [check_decide_ok (length_vec n x), bind_ok, fillVec_vec, bind_ok, fillVec_vec, bind_ok,
    rdSpan_vec (Nat.zero_le _) (by omega), bind_ok, Nat.sub_zero, multiplyVec_vec, bind_ok,
    wrSpan_vec (by omega), bind_ok, rd_vec_ok hn, bind_ok, wr_vec_ok hmpos, bind_ok,
    symI_loop cos sin hn hm dir, bind_ok]
  have hA : vec m (fun i => if 0 ≤ i ∧ i < 0 + n then x (i - 0) * chirpI f cos sin n (i - 0) dir else 0)
      = vec m (valA f cos sin n dir x) := vec_ext (fun i _ => by simp [valA])
  have hfft : ∀ h : ℕ → SC f, fft (dit2PlanGOf (stdArith f (twiddleI f cos sin)) b) (vec m h)
      = .ok (vec m (ditGn (stdArith f (twiddleI f cos sin)) b .forward h)) := fun h => ditG_fn hb h .forward
  have hifft : ∀ h : ℕ → SC f, ifft (dit2PlanGOf (stdArith f (twiddleI f cos sin)) b) (vec m h)
      = .ok (vec m (ditGn (stdArith f (twiddleI f cos sin)) b .backward h)) := fun h => ditG_fn hb h .backward
  rw [hA, hfft, bind_ok, hfft, bind_ok, multiplyInPlace_vec, bind_ok]
  have hP : vec m (fun i => ditGn (stdArith f (twiddleI f cos sin)) b .forward (valA f cos sin n dir x) i
      * ditGn (stdArith f (twiddleI f cos sin)) b .forward (symI f cos sin n m dir) i)
      = vec m (valP f cos sin n b dir x) := rfl
  rw [hP, hifft, bind_ok, unaryOp_vec, bind_ok]
  have hC : vec m (fun i => SC.smul (ditGn (stdArith f (twiddleI f cos sin)) b .backward (valP f cos sin n b dir x) i)
      (f.round ((FVal.fin 1).div (ofNat f m)))) = vec m (valC f cos sin n b dir x) := rfl
  rw [hC, rdSpan_vec (Nat.zero_le _) (by omega), bind_ok, Nat.sub_zero,
    multiplyVec_vec, bind_ok, pure_eq_ok]
  congr 1
  refine Prod.ext ?_ ?_
  · unfold planIOf
    rw [hbb]
  · apply vec_ext
    intro k hk
    rw [Nat.zero_add]

private theorem reachable_form {cos sin : FVal → FVal} {n : ℕ} (h1 : 0 < n) (h2 : n * 2 + 1 ≤ 2 ^ 27) {p : BluesteinPlanI f}
    (h : BluesteinReachableI f cos sin n p) : ∃ g h, p = planIOf f cos sin n g h := by
  induction h with
  | make h =>
    rw [planI_make cos sin h2] at h
    injection h with h
    exact ⟨_, _, h.symm⟩
  | @call p p' x dir y _ h ih =>
    obtain ⟨g, k, rfl⟩ := ih
    by_cases hx : x.length = n
    · obtain ⟨g', k', e⟩ := call_vec cos sin h1 g k (fun i => x.getD i 0) dir
      rw [← list_eq_vec 0 hx, h] at e
      injection e with e
      exact ⟨g', k', (Prod.ext_iff.1 e).1⟩
    · unfold BluesteinPlanI.call at h
      have : check (decide (x.length = (planIOf f cos sin n g k).size)) = .error .assertion := by
        rw [decide_eq_false (show ¬ x.length = (planIOf f cos sin n g k).size from hx)]; rfl
      simp only [this, bind_error] at h
      simp at h

/-- **C115** (construction and use).  For every size `n ≥ 1` with `2 n + 1 ≤ 2^27` the plan can be constructed.  Every call of
every plan with buffers of `n` numbers, finite or not, succeeds, and its results do not depend on the calls made before; a
buffer of any other length trips the assertion. -/
theorem C115_plan (f : Fmt) (cos sin : FVal → FVal) {n : ℕ} (h1 : 1 ≤ n) (h2 : n * 2 + 1 ≤ 2 ^ 27) :
    (∃ p, BluesteinPlanI.make f cos sin n = .ok p) ∧
    (∀ (x : List (SC f)) (dir : Direction), x.length = n → ∃ y, y.length = n ∧
      ∀ p, BluesteinReachableI f cos sin n p → ∃ p', p.call x dir = .ok (p', y)) ∧
    ∀ p, BluesteinReachableI f cos sin n p → ∀ (x : List (SC f)) (dir : Direction), x.length ≠ n →
      p.call x dir = .error .assertion := by
  refine ⟨⟨_, planI_make cos sin h2⟩, fun x dir hx => ?_, fun p hp x dir hx => ?_⟩
  · refine ⟨_, length_vec n fun k => valC f cos sin n (Nat.clog 2 (n * 2 + 1)) dir (fun i => x.getD i 0) k
      * chirpI f cos sin n k dir, fun p hp => ?_⟩
    obtain ⟨g, k, rfl⟩ := reachable_form h1 h2 hp
    obtain ⟨g', k', e⟩ := call_vec cos sin h1 g k (fun i => x.getD i 0) dir
    rw [← list_eq_vec 0 hx] at e
    exact ⟨_, e⟩
  · obtain ⟨g, k, rfl⟩ := reachable_form h1 h2 hp
    unfold BluesteinPlanI.call
    have : check (decide (x.length = (planIOf f cos sin n g k).size)) = .error .assertion := by
      rw [decide_eq_false (show ¬ x.length = (planIOf f cos sin n g k).size from hx)]; rfl
    simp only [this, bind_error]

/-! ### Errors -/

/-- The transform with the default complex type, given bounds of the inputs. -/
theorem ditStd_near (hf : f.Ieee) {b : ℕ} (hb : 1 ≤ b) {tw : ℕ → ℕ → Direction → IC f} {τ : ℝ} (hτ : 1 ≤ τ)
    (hw : TwNear tw b τ) {x : ℕ → SC f} {X : ℕ → ℂ} {m : ℕ → ℝ} {γ : ℝ} (hγ : 1 ≤ γ)
    (hx : ∀ i < 2 ^ b, NearP (fun y => (IC.pt y : IC f).std) (x i) (X i) (m i) γ) (hm : ∀ i < 2 ^ b, f.minNormal ≤ m i)
    (ho : γ * f.stageGrowth τ ^ b * ∑ i ∈ range (2 ^ b), m i < (2 : ℝ) ^ f.emax) (dir : Direction) {k : ℕ}
    (hk : k < 2 ^ b) :
    NearP (fun y => (IC.pt y : IC f).std) (ditGn (stdArith f tw) b dir x k) (specDft dir (2 ^ b) X k)
      (∑ i ∈ range (2 ^ b), m i) (γ * f.stageGrowth τ ^ b) := by
  have h := fun i hi => nearP_std.1 (hx i hi)
  choose z e hz using h
  let w : ℕ → IC f := fun i => if hi : i < 2 ^ b then z i hi else 0
  have hwi : ∀ i (hi : i < 2 ^ b), w i = z i hi := fun i hi => dif_pos hi
  have k1 := ditGn_near hf hb hτ hw (x := w) hγ (fun i hi => by rw [hwi i hi]; exact hz i hi) hm ho dir hk
  have k2 := ditGn_rel (std_rel tw) dir (x := w) (x' := x)
    (fun i hi => by rw [hwi i hi, e i hi]; exact SameC.std _) hk
  rcases k2 with k2 | ⟨k2, -⟩
  · exact nearP_std.2 ⟨_, SameC.eq_std k2, k1⟩
  · obtain ⟨a, b, e', -⟩ := k1
    rw [e'] at k2
    exact absurd rfl (k2 a)

/-- The growth of the errors: three times the chirp, three transforms, three products and the scaling. -/
noncomputable def bluesteinGrowth (f : Fmt) (ε : ℝ) (b : ℕ) : ℝ :=
  (1 + ε) ^ 3 * fftGrowth f ε b ^ 3 * (1 + 5 * f.u) ^ 4

section near
variable {cos sin : FVal → FVal} {ε : ℝ} {n b : ℕ} {dir : Direction}

private theorem near_conj {z : SC f} {ζ : ℂ} {M γ : ℝ} (h : NearP (fun y => (IC.pt y : IC f).std) z ζ M γ) :
    NearP (fun y => (IC.pt y : IC f).std) (SC.conj z) (conj ζ) M γ := by
  obtain ⟨y, e, h1, h2⟩ := h
  refine ⟨conj y, by rw [e]; rfl, by rwa [RCLike.norm_conj], by rwa [← map_sub, RCLike.norm_conj]⟩

private theorem near_zero {M γ : ℝ} (hM : 0 ≤ M) (hγ : 1 ≤ γ) :
    NearP (fun y => (IC.pt y : IC f).std) (0 : SC f) 0 M γ :=
  ⟨0, rfl, by rwa [norm_zero], by rw [sub_self, norm_zero]; exact mul_nonneg (by linarith) hM⟩

/-- The chirp of the code near the exact one. -/
private def ChirpNear (f : Fmt) (cos sin : FVal → FVal) (n : ℕ) (dir : Direction) (ε : ℝ) : Prop :=
  ∀ i, NearP (fun y => (IC.pt y : IC f).std) (chirpI f cos sin n i dir) (chirp n dir i) 1 (1 + ε)

private theorem near_sym (hc : ChirpNear f cos sin n dir ε) (hε : 0 ≤ ε) (hn : 0 < n) (m i : ℕ) :
    NearP (fun y => (IC.pt y : IC f).std) (symI f cos sin n m dir i) (chirpSym n m dir i) 1 (1 + ε) := by
  unfold symI chirpSym
  by_cases h0 : i = 0
  · subst h0
    rw [if_pos rfl, if_pos hn, chirp_zero, map_one]
    have := hc 0
    rwa [chirp_zero] at this
  · rw [if_neg h0]
    split_ifs
    · exact near_conj (hc _)
    · exact near_conj (hc _)
    · exact near_zero zero_le_one (by linarith)

private theorem bluestein_near (hf : f.Ieee) (hc : ChirpNear f cos sin n dir ε) (hε : 0 ≤ ε) (hn : 0 < n) (hb : 1 ≤ b)
    (hm : n * 2 + 1 ≤ 2 ^ b) (hbe : (b : ℤ) + 4 ≤ f.emax) (htw : TwNear (twiddleI f cos sin) b (1 + ε)) (x : ℕ → ℂ) {η S : ℝ}
    (hη : f.minNormal ≤ η) (hS : S = ∑ i ∈ range (2 ^ b), ((if i < n then ‖x i‖ else 0) + η))
    (hG : bluesteinGrowth f ε b ≤ 2) (ho : bluesteinGrowth f ε b * (2 ^ b * (2 ^ b * S)) < (2 : ℝ) ^ f.emax) {k : ℕ}
    (hk : k < n) :
    NearP (fun y => (IC.pt y : IC f).std)
      (valC f cos sin n b dir (fun i => (point (x i) : IC f).std) k * chirpI f cos sin n k dir)
      (specDft dir n x k) (2 ^ b * S) (bluesteinGrowth f ε b) := by
  have hu := u_pos f
  have hν := minNormal_pos f
  have hη0 : 0 < η := by linarith
  have R := radixNear_std hf
  have a1 : 1 ≤ 1 + ε := by linarith
  have a5 : 1 ≤ 1 + 5 * f.u := by linarith
  have hg : 1 ≤ f.stageGrowth (1 + ε) ^ b := one_le_pow₀ (one_le_growth a1)
  have eG : bluesteinGrowth f ε b = (1 + ε) ^ 3 * (f.stageGrowth (1 + ε) ^ b) ^ 3 * (1 + 5 * f.u) ^ 4 := rfl
  have hs := near_sym hc hε hn (2 ^ b)
  have hc' : ∀ i, NearP (fun y => (IC.pt y : IC f).std) (chirpI f cos sin n i dir) (chirp n dir i) 1 (1 + ε) := hc
  clear hc
  generalize hκ : 1 + ε = κ at *
  generalize hg' : f.stageGrowth κ ^ b = g at *
  generalize hq' : 1 + 5 * f.u = q at *
  generalize hΓ : bluesteinGrowth f ε b = Γ at *
  have hM : (1 : ℝ) ≤ 2 ^ b := one_le_pow₀ (by norm_num)
  have hle : ∀ i j l : ℕ, i ≤ 3 → j ≤ 3 → l ≤ 4 → κ ^ i * g ^ j * q ^ l ≤ Γ := fun i j l hi hj hl => by
    rw [eG]
    have h1 := pow_le_pow_right₀ a1 hi
    have h2 := pow_le_pow_right₀ hg hj
    have h3 := pow_le_pow_right₀ a5 hl
    have p1 : 0 ≤ κ ^ i := by positivity
    have p2 : 0 ≤ g ^ j := by positivity
    have p3 : 0 ≤ q ^ l := by positivity
    exact mul_le_mul (mul_le_mul h1 h2 p2 (p1.trans h1)) h3 p3 (mul_nonneg (p1.trans h1) (p2.trans h2))
  have one : ∀ i j l : ℕ, 1 ≤ κ ^ i * g ^ j * q ^ l := fun i j l =>
    one_le_mul_of_one_le_of_one_le (one_le_mul_of_one_le_of_one_le (one_le_pow₀ a1) (one_le_pow₀ hg)) (one_le_pow₀ a5)
  have hΓ0 : 0 ≤ Γ := by have := hle 0 0 0 (by norm_num) (by norm_num) (by norm_num); norm_num at this; linarith
  have hm0 : ∀ i, η ≤ (if i < n then ‖x i‖ else 0) + η := fun i => by split <;> [have := norm_nonneg (x i); skip] <;> linarith
  have hSη : η ≤ S := by
    rw [hS]
    have h0 : 0 ∈ range (2 ^ b) := mem_range.2 (by positivity)
    exact (hm0 0).trans (single_le_sum (f := fun i => (if i < n then ‖x i‖ else 0) + η) (fun i _ => hη0.le.trans (hm0 i)) h0)
  have hS0 : 0 < S := by linarith
  have hSS : S ≤ 2 ^ b * S := le_mul_of_one_le_left hS0.le hM
  have hSSS : 2 ^ b * S ≤ 2 ^ b * (2 ^ b * S) := le_mul_of_one_le_left (by linarith) hM
  have small : ∀ {y M : ℝ}, y ≤ Γ → 0 ≤ M → M ≤ 2 ^ b * (2 ^ b * S) → y * M < (2 : ℝ) ^ f.emax := fun h1 h2 h3 =>
    lt_of_le_of_lt (mul_le_mul h1 h3 h2 hΓ0) ho
  -- the input times the chirp
  let XA : ℕ → ℂ := fun i => if i < n then x i * chirp n dir i else 0
  have nA : ∀ i < 2 ^ b, NearP (fun y => (IC.pt y : IC f).std) (valA f cos sin n dir (fun i => (point (x i) : IC f).std) i)
      (XA i) ((if i < n then ‖x i‖ else 0) + η) (κ ^ 1 * g ^ 0 * q ^ 1) := by
    intro i hi
    have hiS : (if i < n then ‖x i‖ else 0) + η ≤ S := by
      rw [hS]
      exact single_le_sum (f := fun i => (if i < n then ‖x i‖ else 0) + η) (fun i _ => hη0.le.trans (hm0 i)) (mem_range.2 hi)
    unfold valA
    show NearP _ _ (if i < n then x i * chirp n dir i else 0) _ _
    split
    · rename_i h
      rw [if_pos h] at hiS
      have h1 : NearP (fun y => (IC.pt y : IC f).std) (point (x i) : IC f).std (x i) (‖x i‖ + η) 1 :=
        ⟨x i, rfl, by linarith, by rw [sub_self, norm_zero, sub_self, zero_mul]⟩
      have := R.mul h1 (hc' i) le_rfl a1 (by have := norm_nonneg (x i); linarith) (by
        rw [hq', mul_one, one_mul]
        have := hle 1 0 1 (by norm_num) (by norm_num) (by norm_num)
        rw [pow_one, pow_one, pow_zero, mul_one] at this
        exact small this (by have := norm_nonneg (x i); linarith) (by linarith))
      rw [mul_one, one_mul, hq'] at this
      rwa [pow_one, pow_one, pow_zero, mul_one]
    · exact near_zero (by linarith) (one 1 0 1)
  have nFA : ∀ k < 2 ^ b, NearP (fun y => (IC.pt y : IC f).std)
      (ditGn (stdArith f (twiddleI f cos sin)) b .forward (valA f cos sin n dir (fun i => (point (x i) : IC f).std)) k)
      (specDft .forward (2 ^ b) XA k) S (κ ^ 1 * g ^ 1 * q ^ 1) := by
    intro k hk
    have e : κ ^ 1 * g ^ 0 * q ^ 1 * f.stageGrowth κ ^ b = κ ^ 1 * g ^ 1 * q ^ 1 := by rw [hg']; ring
    have := ditStd_near hf hb a1 htw (one 1 0 1) nA (fun i _ => hη.trans (hm0 i)) (by
      rw [e, ← hS]
      exact small (hle 1 1 1 (by norm_num) (by norm_num) (by norm_num)) hS0.le (by linarith)) .forward hk
    rwa [e, ← hS] at this
  -- the transform of the symmetric chirp
  have hone : f.minNormal ≤ 1 := minNormal_le_one hf
  have h16 : 16 * (2 : ℝ) ^ b ≤ (2 : ℝ) ^ f.emax := by
    have : (2 : ℝ) ^ ((b : ℤ) + 4) ≤ (2 : ℝ) ^ f.emax := zpow_le_zpow_right₀ (by norm_num) hbe
    rw [zpow_add₀ (by norm_num), zpow_natCast] at this
    norm_num at this ⊢
    linarith
  have nFB : ∀ k < 2 ^ b, NearP (fun y => (IC.pt y : IC f).std)
      (ditGn (stdArith f (twiddleI f cos sin)) b .forward (symI f cos sin n (2 ^ b) dir) k)
      (specDft .forward (2 ^ b) (chirpSym n (2 ^ b) dir) k) (2 ^ b) (κ * g) := by
    intro k hk
    have e1 : ∑ _i ∈ range (2 ^ b), (1 : ℝ) = 2 ^ b := by simp
    have hkg : κ * g ≤ 2 := by
      have := hle 1 1 0 (by norm_num) (by norm_num) (by norm_num)
      rw [pow_one, pow_one, pow_zero, mul_one] at this
      linarith
    have := ditStd_near hf hb a1 htw (x := symI f cos sin n (2 ^ b) dir) (m := fun _ => 1) a1
      (fun i _ => hs i) (fun _ _ => hone) (by
      rw [hg', e1]
      exact lt_of_le_of_lt (mul_le_mul_of_nonneg_right hkg (by linarith)) (by linarith)) .forward hk
    rwa [e1, hg'] at this
  -- the product of the spectra
  let XP : ℕ → ℂ := fun k => specDft .forward (2 ^ b) XA k * specDft .forward (2 ^ b) (chirpSym n (2 ^ b) dir) k
  have nP : ∀ k < 2 ^ b, NearP (fun y => (IC.pt y : IC f).std)
      (valP f cos sin n b dir (fun i => (point (x i) : IC f).std) k) (XP k) (S * 2 ^ b) (κ ^ 2 * g ^ 2 * q ^ 2) := by
    intro k hk
    have e : κ ^ 1 * g ^ 1 * q ^ 1 * (κ * g) * q = κ ^ 2 * g ^ 2 * q ^ 2 := by ring
    have := R.mul (nFA k hk) (nFB k hk) (one 1 1 1) (one_le_mul_of_one_le_of_one_le a1 hg) (by rw [mul_comm]; linarith) (by
      rw [hq', e]
      exact small (hle 2 2 2 (by norm_num) (by norm_num) (by norm_num)) (by positivity) (by rw [mul_comm]; exact hSSS))
    rwa [hq', e] at this
  have nI : NearP (fun y => (IC.pt y : IC f).std)
      (ditGn (stdArith f (twiddleI f cos sin)) b .backward (valP f cos sin n b dir (fun i => (point (x i) : IC f).std)) k)
      (specDft .backward (2 ^ b) XP k) (2 ^ b * (2 ^ b * S)) (κ ^ 2 * g ^ 3 * q ^ 2) := by
    have e : κ ^ 2 * g ^ 2 * q ^ 2 * f.stageGrowth κ ^ b = κ ^ 2 * g ^ 3 * q ^ 2 := by rw [hg']; ring
    have e1 : ∑ _i ∈ range (2 ^ b), S * (2 : ℝ) ^ b = 2 ^ b * (2 ^ b * S) := by
      rw [sum_const, card_range, nsmul_eq_mul]; push_cast; ring
    have := ditStd_near hf hb a1 htw (one 2 2 2) nP (fun _ _ => by rw [mul_comm]; linarith) (by
      rw [e, e1]
      exact small (hle 2 3 2 (by norm_num) (by norm_num) (by norm_num)) (by positivity) le_rfl) .backward (k := k) (by omega)
    rwa [e, e1] at this
  -- the scaling
  have hinv : f.round ((FVal.fin 1).div (ofNat f (2 ^ b))) = .fin (1 / (2 : ℝ) ^ b) :=
    congrArg IR.val (invSize_ieee hf (twiddleI f cos sin) (b := b) (by omega))
  have hM0 : (0 : ℝ) < 2 ^ b := by positivity
  have eM : 2 ^ b * (2 ^ b * S) * (1 / (2 : ℝ) ^ b) = 2 ^ b * S := by field_simp
  have nC := scaleBy_std_real hf (c := 1 / (2 : ℝ) ^ b) (ρ := 1 / (2 : ℝ) ^ b) (K := 1 / (2 : ℝ) ^ b) (κ := 1) (b := q)
    (by rw [abs_of_nonneg (by positivity)]) (by simp) le_rfl (by rw [hq', one_mul]) nI (one 2 3 2) (by
      rw [eM]; linarith) (by
      rw [eM, show κ ^ 2 * g ^ 3 * q ^ 2 * q = κ ^ 2 * g ^ 3 * q ^ 3 by ring]
      exact small (hle 2 3 3 (by norm_num) (by norm_num) (by norm_num)) (by positivity) hSSS)
  rw [eM, show κ ^ 2 * g ^ 3 * q ^ 2 * q = κ ^ 2 * g ^ 3 * q ^ 3 by ring, ← hinv] at nC
  -- the chirp again
  have e2 : κ ^ 2 * g ^ 3 * q ^ 3 * κ * q = Γ := by rw [eG]; ring
  have := R.mul nC (hc' k) (one 2 3 3) a1 (by linarith) (by
    rw [hq', e2, mul_one]
    exact small le_rfl (by positivity) hSSS)
  rw [hq', e2, mul_one] at this
  have e3 : specDft .backward (2 ^ b) XP k * ((1 / (2 : ℝ) ^ b : ℝ) : ℂ) * chirp n dir k = specDft dir n x k := by
    rw [← bluestein_sum hn hm dir x hk]
    congr 1
    have e4 : specDft .backward (2 ^ b) XP k = Spec.idft (2 ^ b) (fun k => Spec.dft (2 ^ b) XA k
        * Spec.dft (2 ^ b) (chirpSym n (2 ^ b) dir) k) k := rfl
    rw [e4, idft_mul_dft _ _ (by omega)]
    push_cast
    have : (2 : ℂ) ^ b ≠ 0 := pow_ne_zero _ two_ne_zero
    field_simp
    rfl
  rwa [e3] at this

end near

/-- **C115** (accuracy).  Let `m = 2^b` be the length of the inner transforms, the least power of two with `2 n + 1 ≤ m`, `ε`
the error of the chirp and of the twiddles, `η` a number that is at least the least normal one, and `S = Σ |x_i| + m η`.  If the
growth of the errors is at most two and `growth · m² S` stays below the overflow threshold, then every call of every plan that
has been constructed and used before returns finite results, the `k`-th within `(growth − 1) m S` of
`Σ_i x_i exp(∓2πi i k / n)`.  Sizes, inputs, directions and earlier calls are arbitrary. -/
theorem C115_dft (hw : TwiddleFmt f) {cos sin : FVal → FVal} {κ : ℝ} (hκ : 0 ≤ κ) (hc : CosOk f cos κ) (hs : SinOk f sin κ)
    {n b : ℕ} (h1 : 1 ≤ n) (h2 : n * 2 + 1 ≤ 2 ^ 27) (hb : b = Nat.clog 2 (n * 2 + 1)) (hbe : (b : ℤ) + 4 ≤ f.emax)
    (dir : Direction) (x : List ℂ) (hx : x.length = n) {η S : ℝ} (hη : f.minNormal ≤ η)
    (hS : S = ∑ i ∈ range n, ‖x.getD i 0‖ + 2 ^ b * η) (hG : bluesteinGrowth f (44 * f.u + 3 / 2 * κ) b ≤ 2)
    (ho : bluesteinGrowth f (44 * f.u + 3 / 2 * κ) b * (2 ^ b * (2 ^ b * S)) < (2 : ℝ) ^ f.emax) :
    ∃ y : List ℂ, y.length = n ∧
      (∀ p, BluesteinReachableI f cos sin n p → ∃ p', p.call (x.map fun v => (point v).std) dir
        = .ok (p', y.map fun v => (point v).std)) ∧
      ∀ k < n, ‖y.getD k 0 - fourier dir n x k‖ ≤ (bluesteinGrowth f (44 * f.u + 3 / 2 * κ) b - 1) * (2 ^ b * S) := by
  have hf := hw.1
  have hu := u_pos f
  have hb1 : 1 ≤ b := by rw [hb]; exact Nat.clog_pos (by norm_num) (by omega)
  have hm : n * 2 + 1 ≤ 2 ^ b := by rw [hb]; exact Nat.le_pow_clog (by norm_num) _
  have h16 : 16 * (((2 ^ b : ℕ) : ℝ)) ≤ (2 : ℝ) ^ f.emax := by
    have : (2 : ℝ) ^ ((b : ℤ) + 4) ≤ (2 : ℝ) ^ f.emax := zpow_le_zpow_right₀ (by norm_num) hbe
    rw [zpow_add₀ (by norm_num), zpow_natCast] at this
    push_cast
    norm_num at this ⊢
    linarith
  have hnm : (n : ℝ) ≤ ((2 ^ b : ℕ) : ℝ) := by exact_mod_cast (by omega : n ≤ 2 ^ b)
  have htw := tw_near hb1 (C113_tables hw hc hs (N := 2 ^ b) (by omega) h16).2
  have hch : ChirpNear f cos sin n dir (44 * f.u + 3 / 2 * κ) := fun i => by
    obtain ⟨c, s, e, -, -, h⟩ := C115_chirp hw hc hs h1 (by linarith) i dir
    refine ⟨⟨c, s⟩, e, (norm_chirp n dir i).le, ?_⟩
    have e : Complex.exp ((if dir = .forward then -1 else 1) * (Real.pi * Complex.I * i ^ 2 / n)) = chirp n dir i := by
      rw [chirp_eq (by omega), root_pow_eq]
      congr 1
      have : (n : ℂ) ≠ 0 := by exact_mod_cast (by omega : n ≠ 0)
      cases dir <;> simp <;> field_simp
    rw [e] at h
    rwa [mul_one, add_sub_cancel_left]
  have hS' : S = ∑ i ∈ range (2 ^ b), ((if i < n then ‖x.getD i 0‖ else 0) + η) := by
    rw [hS, sum_add_distrib, sum_const, card_range, nsmul_eq_mul]
    push_cast
    congr 1
    rw [← sum_filter]
    apply sum_congr _ fun _ _ => rfl
    ext i
    simp only [mem_range, mem_filter]
    omega
  have near := fun k (hk : k < n) => bluestein_near hf hch (by positivity) h1 hb1 hm hbe htw (fun i => x.getD i 0) hη hS' hG ho hk
  choose y ey _ hy using near
  refine ⟨vec n fun k => if hk : k < n then y k hk else 0, length_vec _ _, fun p hp => ?_, fun k hk => ?_⟩
  · obtain ⟨g, h, rfl⟩ := reachable_form h1 h2 hp
    obtain ⟨g', h', e⟩ := call_vec cos sin h1 g h (fun i => (point (x.getD i 0) : IC f).std) dir
    refine ⟨planIOf f cos sin n g' h', ?_⟩
    rw [show (x.map fun v => (point v : IC f).std) = vec n fun i => (point (x.getD i 0) : IC f).std by
      conv_lhs => rw [list_eq_vec 0 hx, map_vec], e, map_vec]
    refine congrArg Except.ok (Prod.ext rfl (vec_ext fun k hk => ?_))
    rw [← hb, ey k hk, dif_pos hk]
    rfl
  · rw [getD_vec _ _ _ _ hk, dif_pos hk]
    have : fourier dir n x k = specDft dir n (fun i => x.getD i 0) k := by
      unfold fourier specDft
      split
      · unfold Spec.dft
        refine sum_congr rfl fun n _ => ?_
        congr 2
        push_cast
        ring
      · unfold Spec.idft
        refine sum_congr rfl fun n _ => ?_
        congr 2
        push_cast
        ring
    rw [this]
    exact hy k hk

/-- **C115** (accuracy, in plain terms).  If the cosine and sine of the library are within one unit roundoff and
`636 b u ≤ 1`, where `2^b` is the length of the inner transforms, and `2 · 4^b S` stays below the threshold, all results are
finite and within `636 b u 2^b S` of the transform; `2^b` is at most `4 n`. -/
theorem C115_dft_explicit (hw : TwiddleFmt f) {cos sin : FVal → FVal} (hc : CosOk f cos f.u) (hs : SinOk f sin f.u)
    {n b : ℕ} (h1 : 1 ≤ n) (h2 : n * 2 + 1 ≤ 2 ^ 27) (hb : b = Nat.clog 2 (n * 2 + 1)) (hbe : (b : ℤ) + 4 ≤ f.emax)
    (hbu : 636 * b * f.u ≤ 1) (dir : Direction) (x : List ℂ) (hx : x.length = n) {η S : ℝ} (hη : f.minNormal ≤ η)
    (hS : S = ∑ i ∈ range n, ‖x.getD i 0‖ + 2 ^ b * η) (ho : 2 * (2 ^ b * (2 ^ b * S)) < (2 : ℝ) ^ f.emax) :
    2 ^ b ≤ 4 * n ∧ ∃ y : List ℂ, y.length = n ∧
      (∀ p, BluesteinReachableI f cos sin n p → ∃ p', p.call (x.map fun v => (point v).std) dir
        = .ok (p', y.map fun v => (point v).std)) ∧
      ∀ k < n, ‖y.getD k 0 - fourier dir n x k‖ ≤ 636 * b * f.u * (2 ^ b * S) := by
  have hu := u_pos f
  have hν := minNormal_pos f
  have hb2 : 2 ≤ b := by
    rw [hb]
    exact (Nat.lt_clog_iff_pow_lt (by norm_num)).2 (by omega)
  have hb2' : (2 : ℝ) ≤ b := by exact_mod_cast hb2
  have hbu2 : 2 * f.u ≤ b * f.u := mul_le_mul_of_nonneg_right hb2' hu.le
  have hS0 : 0 ≤ S := by
    rw [hS]
    exact add_nonneg (sum_nonneg fun _ _ => norm_nonneg _) (mul_nonneg (by positivity) (by linarith))
  have hM0 : 0 ≤ 2 ^ b * (2 ^ b * S) := by positivity
  have hM1 : 0 ≤ 2 ^ b * S := by positivity
  have hg : bluesteinGrowth f (44 * f.u + 3 / 2 * f.u) b ≤ 1 + 636 * b * f.u := by
    have l1 : bluesteinGrowth f (44 * f.u + 3 / 2 * f.u) b
        ≤ Real.exp ((3 : ℕ) * (44 * f.u + 3 / 2 * f.u) + (3 : ℕ) * (b * ((44 * f.u + 3 / 2 * f.u) + 5 * f.u + 2 * f.u))
          + (4 : ℕ) * (5 * f.u)) := by
      have hε : 0 ≤ 44 * f.u + 3 / 2 * f.u := by positivity
      generalize 44 * f.u + 3 / 2 * f.u = ε at hε ⊢
      unfold bluesteinGrowth fftGrowth
      rw [Real.exp_add, Real.exp_add, Real.exp_nat_mul, Real.exp_nat_mul, Real.exp_nat_mul, Real.exp_nat_mul, Real.exp_add,
        Real.exp_add]
      gcongr <;> exact le_exp _
    have e : ((3 : ℕ) : ℝ) * (44 * f.u + 3 / 2 * f.u) + (3 : ℕ) * (b * ((44 * f.u + 3 / 2 * f.u) + 5 * f.u + 2 * f.u))
          + (4 : ℕ) * (5 * f.u) = 156.5 * f.u + 157.5 * (b * f.u) := by push_cast; ring
    rw [e] at l1
    have l2 := exp_le (t := 156.5 * f.u + 157.5 * (b * f.u)) (by positivity) (by linarith)
    linarith
  have hg2 : bluesteinGrowth f (44 * f.u + 3 / 2 * f.u) b ≤ 2 := by linarith
  obtain ⟨y, a1, a2, a3⟩ := C115_dft hw hu.le hc hs h1 h2 hb hbe dir x hx hη hS hg2
    (lt_of_le_of_lt (mul_le_mul_of_nonneg_right hg2 hM0) ho)
  refine ⟨?_, y, a1, a2, fun k hk => (a3 k hk).trans (mul_le_mul_of_nonneg_right (by linarith) hM1)⟩
  have : 2 ^ (b - 1) < n * 2 + 1 := by
    rw [hb]
    exact Nat.pow_pred_clog_lt_self (by norm_num) (by omega)
  have e : 2 ^ b = 2 * 2 ^ (b - 1) := by rw [← pow_succ']; congr 1; omega
  omega

/-- In double precision, a plan for 1000 samples, new or used, and any input whose magnitudes add to at most one: the results
are finite and within `1e-7` of the transform. -/
example (x : List ℂ) (hx : x.length = 1000) (h1 : ∑ n ∈ range 1000, ‖x.getD n 0‖ ≤ 1) (dir : Direction) :
    ∃ y : List ℂ, y.length = 1000 ∧
      (∀ p, BluesteinReachableI binary64 (cosR binary64) (sinR binary64) 1000 p →
        ∃ p', p.call (x.map fun v => (point v : IC binary64).std) dir = .ok (p', y.map fun v => (point v).std)) ∧
      ∀ k < 1000, ‖y.getD k 0 - fourier dir 1000 x k‖ ≤ 1e-7 := by
  have hf : binary64.Ieee := by unfold Fmt.Ieee binary64; norm_num
  have hu : binary64.u = 1 / 2 ^ 53 := by
    show (2 : ℝ) ^ (-((53 : ℕ) : ℤ)) = _
    norm_num
  have hν : binary64.minNormal ≤ 1 / 2 ^ 100 := by
    have : (2 : ℝ) ^ ((-1074 : ℤ) + ((53 : ℕ) : ℤ) - 1) ≤ (2 : ℝ) ^ (-100 : ℤ) :=
      zpow_le_zpow_right₀ (by norm_num) (by norm_num)
    refine this.trans ?_
    norm_num
  have hm : (2 : ℝ) ^ 30 ≤ (2 : ℝ) ^ binary64.emax := by
    rw [← zpow_natCast]
    exact zpow_le_zpow_right₀ (by norm_num) (by norm_num [binary64])
  have hb : 11 = Nat.clog 2 (1000 * 2 + 1) := by decide +kernel
  have hS : ∑ n ∈ range 1000, ‖x.getD n 0‖ + 2 ^ 11 * (1 / 2 ^ 100) ≤ 1.0001 := by
    have : (2 : ℝ) ^ 11 * (1 / 2 ^ 100) ≤ 0.0001 := by norm_num
    exact (add_le_add h1 this).trans (by norm_num)
  have hS0 : 0 ≤ ∑ n ∈ range 1000, ‖x.getD n 0‖ + 2 ^ 11 * (1 / 2 ^ 100) :=
    add_nonneg (sum_nonneg fun _ _ => norm_nonneg _) (by norm_num)
  have h30 : (2 : ℝ) * (2 ^ 11 * (2 ^ 11 * 1.0001)) < 2 ^ 30 := by norm_num
  obtain ⟨-, y, a1, a2, a3⟩ := C115_dft_explicit ⟨hf, by norm_num [binary64], by norm_num [binary64]⟩ (cosR_ok hf)
    (sinR_ok hf) (n := 1000) (by norm_num) (by norm_num) hb (by norm_num [binary64]) (by rw [hu]; norm_num) dir x hx hν rfl
    (lt_of_le_of_lt (mul_le_mul_of_nonneg_left (mul_le_mul_of_nonneg_left (mul_le_mul_of_nonneg_left hS (by norm_num))
      (by norm_num)) (by norm_num)) (h30.trans_le hm))
  refine ⟨y, a1, a2, fun k hk => (a3 k hk).trans ?_⟩
  have k1 : 636 * ((11 : ℕ) : ℝ) * binary64.u ≤ 1e-11 := by rw [hu]; norm_num
  exact (mul_le_mul k1 (mul_le_mul_of_nonneg_left hS (by norm_num)) (mul_nonneg (by norm_num) hS0) (by norm_num)).trans
    (by norm_num)

end Neo.Props
