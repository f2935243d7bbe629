import Verif.Lemmas.SnippetFft
import Verif.Props.Radix4

/-! # Properties of the transforms of `extra/snippet/radix4.cpp` and `stockham.cpp`: C79 -/

namespace Neo.Props

open Finset

/-! ## `c2c_stockham` -/

/-- **C79** for `c2c_stockham`: for all orders, inputs and contents of the work buffer, `sign = -1` leaves
the DFT in the caller's `x` and `sign = 1` the unnormalised inverse DFT; both buffers keep their length. -/
theorem C79_stockham (order : ℕ) (x work : List ℂ) (hx : x.length = 2 ^ order)
    (hw : work.length = 2 ^ order) :
    (∃ y work', snipStockham x work order (-1) = .ok (y, work') ∧
      y.length = 2 ^ order ∧ work'.length = 2 ^ order ∧ ∀ k < 2 ^ order,
        y[k]? = some (Spec.dft (2 ^ order) (fun n => x.getD n 0) k)) ∧
    (∃ y work', snipStockham x work order 1 = .ok (y, work') ∧
      y.length = 2 ^ order ∧ work'.length = 2 ^ order ∧ ∀ k < 2 ^ order,
        y[k]? = some (Spec.idft (2 ^ order) (fun n => x.getD n 0) k)) := by
  have hf := snipStockham_vec order .forward (fun n => x.getD n 0) (fun n => work.getD n 0)
  have hb := snipStockham_vec order .backward (fun n => x.getD n 0) (fun n => work.getD n 0)
  rw [← list_eq_vec 0 hx, ← list_eq_vec 0 hw] at hf hb
  obtain ⟨W, hf⟩ := hf
  obtain ⟨W', hb⟩ := hb
  exact ⟨⟨_, _, hf, by simp, by simp, fun k hk => by rw [getElem?_vec, if_pos hk]; rfl⟩,
    ⟨_, _, hb, by simp, by simp, fun k hk => by rw [getElem?_vec, if_pos hk]; rfl⟩⟩

/-! ## `c2c_dit4` -/

/-- **C79** (partial) for `c2c_dit4`: for all orders the call succeeds, but bin `k` is the DFT of the input
with the sign of sample `n` flipped wherever `Spec.digitDot order k n` is odd.  Missing: the DFT itself,
which is false (`C79_dit4_false`). -/
theorem C79_dit4_partial (order : ℕ) (x : List ℂ) (hx : x.length = 4 ^ order) :
    (∃ y, snipDit4 x order (-1) = .ok y ∧ y.length = 4 ^ order ∧ ∀ k < 4 ^ order,
      y[k]? = some (Spec.dft (4 ^ order) (Spec.digitSigned order k (fun n => x.getD n 0)) k)) ∧
    (∃ y, snipDit4 x order 1 = .ok y ∧ y.length = 4 ^ order ∧ ∀ k < 4 ^ order,
      y[k]? = some (Spec.idft (4 ^ order) (Spec.digitSigned order k (fun n => x.getD n 0)) k)) := by
  have hf := snipDit4_vec order .forward (fun n => x.getD n 0)
  have hb := snipDit4_vec order .backward (fun n => x.getD n 0)
  rw [← list_eq_vec 0 hx] at hf hb
  exact ⟨⟨_, hf, by simp, fun k hk => by rw [getElem?_vec, if_pos hk, r4Dit_last _ _ _ hk]; rfl⟩,
    ⟨_, hb, by simp, fun k hk => by rw [getElem?_vec, if_pos hk, r4Dit_last _ _ _ hk]; rfl⟩⟩

/-- **C79 is false** of `c2c_dit4` at every order from 1 on: bin 1 of the forward transform of a unit
impulse at sample `4 ^ (order - 1)` has the wrong sign. -/
theorem C79_dit4_false (order : ℕ) (h1 : 1 ≤ order) :
    ∃ x y : List ℂ, x.length = 4 ^ order ∧ snipDit4 x order (-1) = .ok y ∧
      y[1]? ≠ some (Spec.dft (4 ^ order) (fun n => x.getD n 0) 1) := by
  obtain ⟨⟨y, e, -, hv⟩, -⟩ := C79_dit4_partial order (impulse4 order) (by simp [impulse4])
  refine ⟨impulse4 order, y, by simp [impulse4], e, ?_⟩
  rw [hv 1 (Nat.one_lt_pow (by omega) (by norm_num))]
  exact fun e => impulse4_signed_ne h1 (Option.some.inj e)

/-- What the program prints: forward then backward gives `4 ^ order` times the input, for all orders, so
that the error does not show. -/
theorem C79_dit4_roundtrip (order : ℕ) (x : List ℂ) (hx : x.length = 4 ^ order) :
    ∃ y z, snipDit4 x order (-1) = .ok y ∧ snipDit4 y order 1 = .ok z ∧ z.length = 4 ^ order ∧
      ∀ k < 4 ^ order, z[k]? = some (4 ^ order * x.getD k 0) := by
  obtain ⟨⟨y, e, hyl, hv⟩, -⟩ := C79_dit4_partial order x hx
  obtain ⟨-, ⟨z, e', hzl, hz⟩⟩ := C79_dit4_partial order y hyl
  exact ⟨y, z, e, e', hzl, fun k hk => by rw [hz k hk, r4_roundtrip hk hv]⟩

/-- The version with a table agrees with the other one at orders 1 and 2 when it gets the tables of `main`
(the stages after the first and before the last read the wrong entries). -/
theorem C79_table_partial (order : ℕ) (h1 : 1 ≤ order) (h2 : order ≤ 2) (x : List ℂ)
    (hx : x.length = 4 ^ order) (sign : ℝ) (hs : sign = -1 ∨ sign = 1) :
    snipDit4Table x (snipDit4Lut (4 ^ order) sign) order sign = snipDit4 x order sign := by
  have key : ∀ dir, vec (4 ^ order) (r4Tab dir order (fun n => x.getD n 0) order)
      = vec (4 ^ order) (r4Dit dir order order (fun n => x.getD n 0)) := by
    intro dir
    have step1 : r4Tab dir order (fun n => x.getD n 0) 1 = r4Dit dir order 1 (fun n => x.getD n 0) := by
      funext i
      rw [← r4Dit_succ (s := 0) (by omega) dir]
      unfold r4Tab ditF
      apply sum_congr rfl
      intro v _
      have e : i % 4 ^ 0 = 0 := by simp [Nat.mod_one]
      rw [e, pow_zero, pow_zero, r4Dit_zero]
      rfl
    rcases (show order = 1 ∨ order = 2 by omega) with rfl | rfl
    · rw [step1]
    · apply vec_ext
      intro i _
      rw [← r4Dit_succ (s := 1) (by omega) dir, ← step1]
      rfl
  have hv : ∀ dir, snipDit4Table x (snipDit4Lut (4 ^ order) (snipSign dir)) order (snipSign dir)
      = snipDit4 x order (snipSign dir) := by
    intro dir
    conv_lhs => rw [list_eq_vec 0 hx]
    conv_rhs => rw [list_eq_vec 0 hx]
    rw [snipDit4Table_vec, snipDit4_vec, key]
  rcases hs with rfl | rfl
  · exact hv .forward
  · exact hv .backward

/-- Stages with arbitrary twiddles, applied to an impulse that digit reversal puts at index 4: bin 1 is the
twiddle of the second stage. -/
private theorem chain_bin_one {b : ℕ} (hb : 2 ≤ b) (ω : ℕ → ℂ) (ζ : ℂ) (f : ℕ → ℕ → ℂ)
    (h0 : ∀ i < 4 ^ b, f 0 i = if i = 4 then 1 else 0)
    (hstep : ∀ s < b, ∀ i < 4 ^ b, f (s + 1) i = ditF 4 (4 ^ s) (ω s) ζ (f s) i) :
    f b 1 = ω 1 := by
  have h16 : 16 ≤ 4 ^ b := by
    calc 16 = 4 ^ 2 := by norm_num
      _ ≤ 4 ^ b := Nat.pow_le_pow_right (by norm_num) hb
  -- positions read by a stage stay in the buffer
  have hbound : ∀ s < b, ∀ t < 4 ^ b, ∀ v < 4, t / (4 * 4 ^ s) * (4 * 4 ^ s) + t % 4 ^ s + v * 4 ^ s < 4 ^ b := by
    intro s hs t ht v hv
    exact block_bound (Nat.mod_lt t (by positivity)) (four_block hs (four_div_lt hs t ht)) hv
  have f1 : ∀ i < 4 ^ b, f 1 i = if i / 4 = 1 then 1 else 0 := by
    intro i hi
    rw [hstep 0 (by omega) i hi]
    unfold ditF
    have hv : ∀ v ∈ range 4, f 0 (i / (4 * 4 ^ 0) * (4 * 4 ^ 0) + i % 4 ^ 0 + v * 4 ^ 0)
        * ((ω 0) ^ (i % 4 ^ 0)) ^ v * ζ ^ (v * (i / 4 ^ 0 % 4))
        = if v = 0 then (if i / 4 = 1 then 1 else 0) else 0 := by
      intro v hv
      have hv := mem_range.1 hv
      rw [h0 _ (hbound 0 (by omega) i hi v hv)]
      simp only [pow_zero, mul_one, Nat.mod_one, add_zero, one_pow]
      by_cases h : v = 0
      · subst h
        rw [if_pos rfl]
        by_cases h4 : i / 4 = 1
        · simp [h4]
        · rw [if_neg h4, if_neg (by omega), zero_mul]
      · rw [if_neg h, if_neg (by omega), zero_mul]
    rw [sum_congr rfl hv]
    simp
  have key : ∀ s, 2 ≤ s → s ≤ b → f s 1 = ω 1 ∧ ∀ i < 4 ^ b, 4 ^ s ≤ i → f s i = 0 := by
    intro s h2
    induction s, h2 using Nat.le_induction with
    | base =>
      intro _
      constructor
      · rw [hstep 1 (by omega) 1 (by omega)]
        unfold ditF
        rw [sum_range_succ, sum_range_succ, sum_range_succ, sum_range_succ, sum_range_zero]
        norm_num
        rw [f1 1 (by omega), f1 5 (by omega), f1 9 (by omega), f1 13 (by omega)]
        norm_num
      · intro i hi h
        rw [hstep 1 (by omega) i hi]
        unfold ditF
        apply sum_eq_zero
        intro v hv
        have hv := mem_range.1 hv
        rw [f1 _ (hbound 1 (by omega) i hi v hv), if_neg, zero_mul, zero_mul]
        norm_num
        norm_num at h
        have : 1 ≤ i / 16 := by omega
        omega
    | succ s hs ih =>
      intro hsb
      obtain ⟨i1, i2⟩ := ih (by omega)
      have hL : 4 ^ s < 4 ^ b := Nat.pow_lt_pow_right (by norm_num) (by omega)
      have h4s : 16 ≤ 4 ^ s := by
        calc 16 = 4 ^ 2 := by norm_num
          _ ≤ 4 ^ s := Nat.pow_le_pow_right (by norm_num) hs
      constructor
      · rw [hstep s (by omega) 1 (by omega)]
        unfold ditF
        rw [sum_eq_single_of_mem 0 (by simp)]
        · rw [Nat.div_eq_of_lt (by omega), Nat.mod_eq_of_lt (by omega)]
          simpa using i1
        · intro v hv hv0
          have hv := mem_range.1 hv
          rw [i2 _ (hbound s (by omega) 1 (by omega) v hv), zero_mul, zero_mul]
          have : 4 ^ s ≤ v * 4 ^ s := Nat.le_mul_of_pos_left _ (by omega)
          omega
      · intro i hi h
        rw [hstep s (by omega) i hi]
        unfold ditF
        apply sum_eq_zero
        intro v hv
        have hv := mem_range.1 hv
        rw [i2 _ (hbound s (by omega) i hi v hv), zero_mul, zero_mul]
        have h1 : 1 ≤ i / (4 * 4 ^ s) := by
          rw [Nat.one_le_div_iff (by positivity), ← pow_succ']; exact h
        have : 4 * 4 ^ s ≤ i / (4 * 4 ^ s) * (4 * 4 ^ s) := Nat.le_mul_of_pos_left _ (by omega)
        omega
  exact (key b hb le_rfl).1

private theorem digitRev_four {b : ℕ} (hb : 2 ≤ b) : digitRev 4 b 4 = 4 ^ (b - 2) := by
  obtain ⟨c, rfl⟩ : ∃ c, b = c + 2 := ⟨b - 2, by omega⟩
  have hz : digitRev 4 c 0 = 0 := by
    induction c with
    | zero => rfl
    | succ b ih => simp [digitRev, ih (by omega)]
  simp [digitRev, hz]

/-- At every order from 3 on the two versions of `c2c_dit4` differ: for the impulse at sample
`4 ^ (order - 2)` bin 1 is `e^(-2 π i / 4^order)` instead of `e^(-2 π i / 16)`. -/
theorem C79_table_false (order : ℕ) (h : 3 ≤ order) :
    ∃ x y z : List ℂ, x.length = 4 ^ order ∧
      snipDit4Table x (snipDit4Lut (4 ^ order) (-1)) order (-1) = .ok y ∧ snipDit4 x order (-1) = .ok z ∧
      y[1]? = some (Complex.exp (-(2 * Real.pi * Complex.I / (4 ^ order : ℕ)))) ∧
      z[1]? = some (Complex.exp (-(2 * Real.pi * Complex.I / 16))) ∧ y[1]? ≠ z[1]? := by
  obtain ⟨X, hX⟩ : ∃ X : ℕ → ℂ, X = fun n => if n = 4 ^ (order - 2) then 1 else 0 := ⟨_, rfl⟩
  have hlt : 1 < 4 ^ order := Nat.one_lt_pow (by omega) (by norm_num)
  have h4 : 4 < 4 ^ order := by
    calc 4 < 4 ^ 2 := by norm_num
      _ ≤ 4 ^ order := Nat.pow_le_pow_right (by norm_num) (by omega)
  have h0 : ∀ i < 4 ^ order, X (digitRev 4 order i) = if i = 4 then 1 else 0 := by
    intro i hi
    rw [hX]
    dsimp only
    rw [← digitRev_four (by omega)]
    by_cases h : i = 4
    · subst h; simp
    · rw [if_neg h, if_neg]
      intro e
      apply h
      rw [← digitRev_invol (R := 4) (by norm_num) hi, e, digitRev_invol (by norm_num) h4]
  have e1 : r4Tab .forward order X order 1 = root (4 ^ order) .forward :=
    chain_bin_one (by omega) (fun _ => root (4 ^ order) .forward) _ (r4Tab .forward order X) h0
      (fun s _ i _ => rfl)
  have e2 : r4Dit .forward order order X 1 = root 16 .forward :=
    chain_bin_one (by omega) (fun s => root (4 ^ (s + 1)) .forward) _ (fun s => r4Dit .forward order s X)
      (fun i hi => by rw [r4Dit_zero]; exact h0 i hi) (fun s hs i _ => (r4Dit_succ hs .forward X i).symm)
  have r : ∀ N, root N .forward = Complex.exp (-(2 * Real.pi * Complex.I / N)) := by
    intro N; unfold root; simp
  have r16 := r 16
  push_cast at r16
  refine ⟨vec (4 ^ order) X, _, _, by simp, snipDit4Table_vec order .forward X, snipDit4_vec order .forward X,
    ?_, ?_, ?_⟩
  · rw [getElem?_vec, if_pos hlt, e1, r]
  · rw [getElem?_vec, if_pos hlt, e2, r16]
  · rw [getElem?_vec, if_pos hlt, e1, getElem?_vec, if_pos hlt, e2]
    intro e
    have e := Option.some.inj e
    have hp : root (4 ^ order) .forward ^ 16 = 1 := by rw [e]; exact root_pow_self (by norm_num) .forward
    have hd := (root_primitive (N := 4 ^ order) (by positivity) .forward).dvd_of_pow_eq_one 16 hp
    have h64 : 4 ^ 3 ≤ 4 ^ order := Nat.pow_le_pow_right (by norm_num) h
    have := Nat.le_of_dvd (by norm_num) hd
    omega

/-! ## `stockham.cpp` -/

private theorem stockSnip_run {order : ℕ} {p : StockSnipPlan}
    (hp : p.w = (StockSnipPlan.make (2 ^ order)).w) (hl : p.work.length = 2 ^ order) (X : ℕ → ℂ) :
    ∃ W : ℕ → ℂ, fft0 p.w (p.work.length + 1) p.work.length 1 false (vec (2 ^ order) X) p.work
      = .ok (vec (2 ^ order) (Spec.idft (2 ^ order) X), vec (2 ^ order) W) := by
  have hfuel : order < 2 ^ order + 1 := by
    have := Nat.lt_two_pow_self (n := order)
    omega
  obtain ⟨f, g, e, hfin⟩ := fft0_vec (p := order) .backward X order 0 (2 ^ order + 1) (by omega) hfuel
    false (fun n => p.work.getD n 0)
  rw [← list_eq_vec 0 hl, pow_zero,
    vec_ext (fun i _ => stockPartial_zero 2 order (root (2 ^ order) .backward) X i)] at e
  rw [hl, hp, stockSnip_make_eq]
  refine ⟨g, ?_⟩
  dsimp only
  rw [e]
  simp only [Bool.false_eq_true, if_false] at hfin
  rw [hfin, vec_ext (fun i (hi : i < 2 ^ order) =>
    (stockPartial_last 2 order (root (2 ^ order) .backward) X hi).trans
      (dftRoot_dir (2 ^ order) .backward X i))]
  rfl

/-- **C79** (partial) for the plan of `stockham.cpp`: for all orders, in every state of the plan with the
constructor's table and a work buffer of the constructor's length, which all calls preserve, `fft` computes
the inverse transform and `ifft` the forward one.  Missing: that `fft` is the forward transform, which is
false (`C79_stockham_plan_false`). -/
theorem C79_stockham_plan_partial (order : ℕ) (p : StockSnipPlan)
    (hp : p.w = (StockSnipPlan.make (2 ^ order)).w) (hl : p.work.length = 2 ^ order) (x : List ℂ)
    (hx : x.length = 2 ^ order) :
    (∃ y q, p.fft x = .ok (y, q) ∧ q.w = p.w ∧ q.work.length = 2 ^ order ∧ y.length = 2 ^ order ∧
      ∀ k < 2 ^ order, y[k]? = some (Spec.idft (2 ^ order) (fun n => x.getD n 0) k)) ∧
    (∃ y q, p.ifft x = .ok (y, q) ∧ q.w = p.w ∧ q.work.length = 2 ^ order ∧ y.length = 2 ^ order ∧
      ∀ k < 2 ^ order, y[k]? = some (Spec.dft (2 ^ order) (fun n => x.getD n 0) k)) := by
  constructor
  · obtain ⟨W, e⟩ := stockSnip_run hp hl (fun n => x.getD n 0)
    rw [← list_eq_vec 0 hx] at e
    refine ⟨_, { p with work := vec (2 ^ order) W }, by unfold StockSnipPlan.fft; rw [e]; rfl, rfl,
      by simp, length_vec _ _, fun k hk => by rw [getElem?_vec, if_pos hk]⟩
  · obtain ⟨W, e⟩ := stockSnip_run hp hl (fun n => (starRingEnd ℂ) (x.getD n 0))
    have hc := conjugateVec_vec (2 ^ order) (fun n => x.getD n 0)
    rw [← list_eq_vec 0 hx] at hc
    refine ⟨vec (2 ^ order) (Spec.dft (2 ^ order) (fun n => x.getD n 0)),
      { p with work := vec (2 ^ order) W }, ?_, rfl,
      by simp, length_vec _ _, fun k hk => by rw [getElem?_vec, if_pos hk]⟩
    unfold StockSnipPlan.ifft
    rw [hl] at e ⊢
    rw [hc, bind_ok, e, bind_ok]
    dsimp only
    rw [conjugateVec_vec, bind_ok, pure_eq_ok]
    congr 2
    apply vec_ext
    intro k _
    rw [conj_idft]
    simp

/-- **C79 is false** of `stockham.cpp` at every order from 2 on: for the impulse at sample 1, bin 1 of `fft`
is `e^(2 π i / N)`, not `e^(-2 π i / N)`. -/
theorem C79_stockham_plan_false (order : ℕ) (h : 2 ≤ order) :
    ∃ x y q, x.length = 2 ^ order ∧ (StockSnipPlan.make (2 ^ order)).fft x = .ok (y, q) ∧
      y[1]? ≠ some (Spec.dft (2 ^ order) (fun n => x.getD n 0) 1) := by
  have h4 : 4 ≤ 2 ^ order := by
    calc 4 = 2 ^ 2 := by norm_num
      _ ≤ 2 ^ order := Nat.pow_le_pow_right (by norm_num) h
  obtain ⟨X, hX⟩ : ∃ X : ℕ → ℂ, X = fun n => if n = 1 then 1 else 0 := ⟨_, rfl⟩
  obtain ⟨⟨y, q, e, -, -, -, hv⟩, -⟩ := C79_stockham_plan_partial order (StockSnipPlan.make (2 ^ order)) rfl
    (by simp [StockSnipPlan.make]) (vec (2 ^ order) X) (by simp)
  refine ⟨_, y, q, length_vec _ _, e, ?_⟩
  rw [hv 1 (by omega)]
  intro he
  have he := Option.some.inj he
  have hval : ∀ dir, specDft dir (2 ^ order) (fun n => (vec (2 ^ order) X).getD n 0) 1
      = root (2 ^ order) dir := by
    intro dir
    rw [← dftRoot_dir]
    unfold Spec.dftRoot
    rw [sum_eq_single_of_mem 1 (mem_range.2 (by omega))]
    · dsimp only
      rw [getD_vec _ _ _ _ (by omega), hX]; simp
    · intro n hn hne
      dsimp only
      rw [getD_vec _ _ _ _ (mem_range.1 hn), hX]; simp [hne]
  have h1 := hval .forward
  have h2 := hval .backward
  change Spec.dft _ _ 1 = _ at h1
  change Spec.idft _ _ 1 = _ at h2
  rw [h1, h2] at he
  have hsq : root (2 ^ order) .backward ^ 2 = 1 := by
    rw [sq]
    nth_rw 1 [he]
    exact root_forward_mul_backward _
  have hd := (root_primitive (N := 2 ^ order) (by positivity) .backward).dvd_of_pow_eq_one 2 hsq
  have := Nat.le_of_dvd (by norm_num) hd
  omega

/-- What the program prints: `fft` then `ifft` on a fresh plan gives `N` times the input. -/
theorem C79_stockham_plan_roundtrip (order : ℕ) (x : List ℂ) (hx : x.length = 2 ^ order) :
    ∃ y q z q', (StockSnipPlan.make (2 ^ order)).fft x = .ok (y, q) ∧ q.ifft y = .ok (z, q') ∧
      z.length = 2 ^ order ∧ ∀ k < 2 ^ order, z[k]? = some (2 ^ order * x.getD k 0) := by
  obtain ⟨⟨y, q, e, hw, hl, hyl, hv⟩, -⟩ := C79_stockham_plan_partial order (StockSnipPlan.make (2 ^ order)) rfl
    (by simp [StockSnipPlan.make]) x hx
  obtain ⟨-, ⟨z, q', e', -, -, hzl, hz⟩⟩ := C79_stockham_plan_partial order q hw hl y hyl
  refine ⟨y, q, z, q', e, e', hzl, fun k hk => ?_⟩
  rw [hz k hk]
  have hy : ∀ n < 2 ^ order, y.getD n 0 = Spec.idft (2 ^ order) (fun n => x.getD n 0) n := by
    intro n hn
    rw [List.getD_eq_getElem?_getD, hv n hn, Option.getD_some]
  have hcongr : Spec.dft (2 ^ order) (fun n => y.getD n 0) k
      = Spec.dft (2 ^ order) (Spec.idft (2 ^ order) (fun n => x.getD n 0)) k := by
    unfold Spec.dft
    exact sum_congr rfl (fun n hn => by dsimp only; rw [hy n (mem_range.1 hn)])
  rw [hcongr, dft_idft _ hk]
  push_cast
  rfl

/-- A plan of size 0 never returns. -/
theorem C79_stockham_plan_size_zero (x : List ℂ) :
    (StockSnipPlan.make 0).fft x = .error .diverge := by
  simp [StockSnipPlan.make, StockSnipPlan.fft, fft0, fft0Pass]

/-- The hypotheses can be met: the four-point transform of an impulse. -/
example : ∃ y w, snipStockham [0, 1, 0, 0] [7, 7, 7, 7] 2 (-1) = .ok (y, w) ∧ y[1]? = some (-Complex.I) := by
  obtain ⟨⟨y, w, e, -, -, hv⟩, -⟩ := C79_stockham 2 [0, 1, 0, 0] [7, 7, 7, 7] rfl rfl
  refine ⟨y, w, e, ?_⟩
  rw [hv 1 (by norm_num), ← dftRoot_forward]
  have hr : root 4 .forward = -Complex.I := by
    rw [root4_eq]
    apply Complex.ext <;> simp [signedI]
  simp [Spec.dftRoot, sum_range_succ, hr]

end Neo.Props
