import Verif.Lemmas.ExpPlan

/-! # Properties of the experimental real transform: C62 -/

namespace Neo.Props

open Finset ComplexConjugate

/-- A real buffer of even length as interleaved complex numbers. -/
private theorem list_interC {x : List ℝ} {M : ℕ} (h : x.length = 2 * M) :
    x = interC M (pairUp (fun n => x.getD n 0)) := by
  have e := list_eq_vec 0 h
  conv_lhs => rw [e]
  unfold interC pairVec
  apply vec_ext
  intro m _
  rcases Nat.mod_two_eq_zero_or_one m with h0 | h0
  · rw [h0]
    show _ = x.getD (2 * (m / 2)) 0
    rw [show 2 * (m / 2) = m by omega]
  · rw [h0]
    show _ = x.getD (2 * (m / 2) + 1) 0
    rw [show 2 * (m / 2) + 1 = m by omega]

private theorem getElem_interC {M k : ℕ} (f : ℕ → ℂ) (hk : k < M) :
    (interC M f)[2 * k]? = some (f k).re ∧ (interC M f)[2 * k + 1]? = some (f k).im := by
  unfold interC pairVec
  rw [getElem?_vec, if_pos (by omega), getElem?_vec, if_pos (by omega)]
  simp [show 2 * k / 2 = k by omega, show (2 * k + 1) / 2 = k by omega,
    show (2 * k + 1) % 2 = 1 by omega]

private theorem interC_inj {M : ℕ} {f g : ℕ → ℂ} (h : interC M f = interC M g) {k : ℕ} (hk : k < M) :
    f k = g k := by
  have h1 := (getElem_interC f hk).1
  have h2 := (getElem_interC f hk).2
  rw [h] at h1 h2
  rw [(getElem_interC g hk).1] at h1
  rw [(getElem_interC g hk).2] at h2
  exact Complex.ext (Option.some.inj h1).symm (Option.some.inj h2).symm

private theorem two_pow_pred {b : ℕ} (hb : 1 ≤ b) : 2 ^ b = 2 * 2 ^ (b - 1) := by
  rw [← pow_succ']; congr 1; omega

/-- **C62**, inner transform: for every order from 1 to 29 the experimental complex plan exists and turns
an interleaved buffer of `2^order` complex numbers into its DFT (forward) or its unnormalised inverse
DFT (backward), with nothing out of bounds. -/
theorem C62_inner_is_dft (order : ℕ) (h1 : 1 ≤ order) (h2 : order ≤ 29) :
    ∃ p, ExpC2cPlan.make order = .ok p ∧
    ∀ x : List ℝ, x.length = 2 * 2 ^ order →
      (∃ y, p.call x .forward = .ok y ∧ y.length = 2 * 2 ^ order ∧ ∀ k < 2 ^ order,
        y[2 * k]? = some (Spec.dft (2 ^ order)
          (fun m => ⟨x.getD (2 * m) 0, x.getD (2 * m + 1) 0⟩) k).re ∧
        y[2 * k + 1]? = some (Spec.dft (2 ^ order)
          (fun m => ⟨x.getD (2 * m) 0, x.getD (2 * m + 1) 0⟩) k).im) ∧
      (∃ y, p.call x .backward = .ok y ∧ y.length = 2 * 2 ^ order ∧ ∀ k < 2 ^ order,
        y[2 * k]? = some (Spec.idft (2 ^ order)
          (fun m => ⟨x.getD (2 * m) 0, x.getD (2 * m + 1) 0⟩) k).re ∧
        y[2 * k + 1]? = some (Spec.idft (2 ^ order)
          (fun m => ⟨x.getD (2 * m) 0, x.getD (2 * m + 1) 0⟩) k).im) := by
  refine ⟨_, expC2c_make_eq order, fun x hx => ?_⟩
  have hf := expC2c_call h1 h2 (pairUp (fun n => x.getD n 0)) .forward
  have hb := expC2c_call h1 h2 (pairUp (fun n => x.getD n 0)) .backward
  rw [← list_interC hx] at hf hb
  exact ⟨⟨_, hf, length_interC _ _, fun k hk => getElem_interC _ hk⟩,
    ⟨_, hb, length_interC _ _, fun k hk => getElem_interC _ hk⟩⟩

private theorem packed_oddEarly {M : ℕ} (hM : 1 ≤ M) (x : ℕ → ℝ) :
    Spec.IsPacked (2 * M) (Spec.oddEarly (2 * M) x)
      (interC M (packZ M (Spec.dft M (pairUp x)))) := by
  have e0 : recomb M (-0.5) (halfRoot M) (Spec.dft M (pairUp x)) 0
      = Spec.oddEarly (2 * M) x 0 := by
    rw [recomb_dft _ _ _ (by omega), oddEarly_even_odd hM]
    push_cast; ring
  have hz : Spec.dft M (pairUp x) 0 = (∑ m ∈ range M, (x (2 * m) : ℂ))
      + Complex.I * ∑ m ∈ range M, (x (2 * m + 1) : ℂ) := by
    have : pairUp x = fun m => (x (2 * m) : ℂ) + Complex.I * (x (2 * m + 1) : ℂ) := by
      funext m; apply Complex.ext <;> simp [pairUp]
    rw [this]
    unfold Spec.dft
    rw [mul_sum, ← sum_add_distrib]
    apply sum_congr rfl
    intro m _
    simp
  have hre : ∑ m ∈ range M, (x (2 * m) : ℂ) = ((∑ m ∈ range M, x (2 * m) : ℝ) : ℂ) := by push_cast; rfl
  have him : ∑ m ∈ range M, (x (2 * m + 1) : ℂ) = ((∑ m ∈ range M, x (2 * m + 1) : ℝ) : ℂ) := by
    push_cast; rfl
  have hE : ∀ k, (k = 0 ∨ k = M) → Spec.dft M (fun m => (x (2 * m) : ℂ)) k
      = ((∑ m ∈ range M, x (2 * m) : ℝ) : ℂ) ∧ Spec.dft M (fun m => (x (2 * m + 1) : ℂ)) k
      = ((∑ m ∈ range M, x (2 * m + 1) : ℝ) : ℂ) := by
    intro k hk
    have h0 : ∀ y : ℕ → ℂ, Spec.dft M y k = ∑ m ∈ range M, y m := by
      intro y
      rcases hk with rfl | rfl
      · unfold Spec.dft; apply sum_congr rfl; intro m _; simp
      · rw [dft_self (by omega)]
        unfold Spec.dft; apply sum_congr rfl; intro m _; simp
    rw [h0, h0, hre, him]
    exact ⟨rfl, rfl⟩
  refine ⟨length_interC _ _, ?_, ?_, fun k h1 h2 => ?_⟩
  · rw [show (0 : ℕ) = 2 * 0 from rfl, (getElem_interC _ (by omega)).1]
    unfold packZ
    rw [if_pos rfl, hz, oddEarly_even_odd hM, (hE 0 (Or.inl rfl)).1, (hE 0 (Or.inl rfl)).2, hre, him]
    simp
  · rw [show (1 : ℕ) = 2 * 0 + 1 from rfl, (getElem_interC _ (by omega)).2,
      show 2 * M / 2 = M by omega]
    unfold packZ
    rw [if_pos rfl, hz, oddEarly_even_odd hM, (hE M (Or.inr rfl)).1, (hE M (Or.inr rfl)).2, hre, him,
      halfRoot_half hM]
    simp
    ring
  · rw [show 2 * M / 2 = M by omega] at h2
    have e : packZ M (Spec.dft M (pairUp x)) k = Spec.oddEarly (2 * M) x k := by
      unfold packZ
      rw [if_neg (by omega), recomb_dft _ _ _ (by omega), oddEarly_even_odd hM]
      push_cast; ring
    rw [← e]
    exact getElem_interC _ (by omega)

/-- **C62** (partial), what the forward call computes for every order from 2 to 30: the packed half
spectrum, but with every odd-numbered sample entering two positions too early. -/
theorem C62_forward_value_partial (order : ℕ) (h1 : 2 ≤ order) (h2 : order ≤ 30) :
    ∃ p, ExpRfftPlan.make order = .ok p ∧ p.size = 2 ^ order ∧
    ∀ x : List ℝ, x.length = 2 ^ order →
      ∃ y, p.call x .forward = .ok y ∧
        Spec.IsPacked (2 ^ order) (Spec.oddEarly (2 ^ order) (fun n => x.getD n 0)) y := by
  refine ⟨_, expRfft_make_eq (by omega), Nat.one_shiftLeft order, fun x hx => ?_⟩
  rw [two_pow_pred (by omega)] at hx
  have hf := expRfft_forward h1 h2 (pairUp (fun n => x.getD n 0))
  rw [← list_interC hx] at hf
  refine ⟨_, hf, ?_⟩
  rw [two_pow_pred (b := order) (by omega)]
  exact packed_oddEarly Nat.one_le_two_pow _

/-- **C62** (partial), round trip: backward after forward, and forward after backward, are both
multiplication by half the length, for every order from 2 to 30. -/
theorem C62_roundtrip_partial (order : ℕ) (h1 : 2 ≤ order) (h2 : order ≤ 30) :
    ∃ p, ExpRfftPlan.make order = .ok p ∧
    ∀ x : List ℝ, x.length = 2 ^ order →
      (∃ y, p.call x .forward = .ok y ∧
        p.call y .backward = .ok (x.map (fun v => 2 ^ (order - 1) * v))) ∧
      (∃ y, p.call x .backward = .ok y ∧
        p.call y .forward = .ok (x.map (fun v => 2 ^ (order - 1) * v))) := by
  refine ⟨_, expRfft_make_eq (by omega), fun x hx => ?_⟩
  have hM : 1 ≤ 2 ^ (order - 1) := Nat.one_le_two_pow
  rw [two_pow_pred (by omega)] at hx
  have ex := list_interC hx
  have em : x.map (fun v => 2 ^ (order - 1) * v) = interC (2 ^ (order - 1))
      (fun k => (2 ^ (order - 1) : ℕ) * pairUp (fun n => x.getD n 0) k) := by
    conv_lhs => rw [list_eq_vec 0 hx]
    rw [map_vec]
    unfold interC pairVec
    apply vec_ext
    intro m _
    rcases Nat.mod_two_eq_zero_or_one m with h0 | h0
    · rw [h0]
      beta_reduce
      rw [if_pos rfl]
      simp only [pairUp, Complex.mul_re, Complex.natCast_re, Complex.natCast_im, zero_mul, sub_zero]
      rw [show 2 * (m / 2) = m by omega]; push_cast; rfl
    · rw [h0]
      beta_reduce
      rw [if_neg (by decide)]
      simp only [pairUp, Complex.mul_im, Complex.natCast_re, Complex.natCast_im, zero_mul, add_zero]
      rw [show 2 * (m / 2) + 1 = m by omega]; push_cast; rfl
  have hf := expRfft_forward h1 h2 (pairUp (fun n => x.getD n 0))
  have hb := expRfft_backward h1 h2 (pairUp (fun n => x.getD n 0))
  rw [← ex] at hf hb
  refine ⟨⟨_, hf, ?_⟩, ⟨_, hb, ?_⟩⟩
  · rw [expRfft_backward h1 h2, em]
    congr 1
    apply interC_ext
    intro k hk
    rw [idft_congr (fun n hn => unpackZ_packZ hM _ hn), idft_dft _ hk]
  · rw [expRfft_forward h1 h2, em]
    congr 1
    apply interC_ext
    intro k hk
    have e : ∀ n < 2 ^ (order - 1), Spec.dft (2 ^ (order - 1)) (Spec.idft (2 ^ (order - 1))
        (unpackZ (2 ^ (order - 1)) (pairUp (fun n => x.getD n 0)))) n
        = ((2 ^ (order - 1) : ℕ) : ℂ) * unpackZ (2 ^ (order - 1)) (pairUp (fun n => x.getD n 0)) n :=
      fun n hn => dft_idft _ hn
    have hlin : ∀ (a : ℝ) (Z Z' : ℕ → ℂ) (M k : ℕ), k < M → (∀ n < M, Z n = (a : ℂ) * Z' n) →
        packZ M Z k = (a : ℂ) * packZ M Z' k := by
      intro a Z Z' M k hk h
      unfold packZ
      by_cases h0 : k = 0
      · rw [if_pos h0, if_pos h0, h 0 (by omega)]
        apply Complex.ext <;> simp <;> ring
      · rw [if_neg h0, if_neg h0]
        unfold recomb
        rw [h k hk, h (M - k) (by omega), map_mul, Complex.conj_ofReal]
        ring
    have := hlin ((2 ^ (order - 1) : ℕ) : ℝ) (Spec.dft (2 ^ (order - 1))
      (Spec.idft (2 ^ (order - 1)) (unpackZ (2 ^ (order - 1)) (pairUp (fun n => x.getD n 0)))))
      (unpackZ (2 ^ (order - 1)) (pairUp (fun n => x.getD n 0))) _ k hk (fun n hn => by
      rw [e n hn]; push_cast; rfl)
    rw [this, packZ_unpackZ hM _ hk]
    push_cast
    rfl

/-- **C62** (negation), exactly when the forward call returns the packed half spectrum of its input: if
and only if all odd-numbered samples are equal. -/
theorem C62_forward_correct_iff (order : ℕ) (h1 : 2 ≤ order) (h2 : order ≤ 30) :
    ∃ p, ExpRfftPlan.make order = .ok p ∧
    ∀ x : List ℝ, x.length = 2 ^ order →
      ∃ y, p.call x .forward = .ok y ∧
        (Spec.IsPacked (2 ^ order) (Spec.dft (2 ^ order) (fun n => (x.getD n 0 : ℂ))) y ↔
          ∀ m < 2 ^ (order - 1), x.getD (2 * m + 1) 0 = x.getD 1 0) := by
  obtain ⟨p, hp, -, h⟩ := C62_forward_value_partial order h1 h2
  refine ⟨p, hp, fun x hx => ?_⟩
  obtain ⟨y, hy, hpk⟩ := h x hx
  refine ⟨y, hy, ?_⟩
  have hM : 1 ≤ 2 ^ (order - 1) := Nat.one_le_two_pow
  rw [two_pow_pred (b := order) (by omega)] at hpk ⊢
  generalize hMe : 2 ^ (order - 1) = M at *
  generalize hxe : (fun n => x.getD n 0) = f at *
  have hxf : ∀ n, x.getD n 0 = f n := fun n => by rw [← hxe]
  simp only [hxf]
  have hMC : (M : ℂ) ≠ 0 := by exact_mod_cast (by omega : M ≠ 0)
  -- the two transforms agree on bin `k` iff the odd part vanishes there
  have hbin : ∀ k, 1 ≤ k → k < M → (Spec.oddEarly (2 * M) f k = Spec.dft (2 * M) (fun n => (f n : ℂ)) k
      ↔ Spec.dft M (fun m => (f (2 * m + 1) : ℂ)) k = 0) := by
    intro k hk1 hk2
    rw [oddEarly_even_odd hM, dft_even_odd hM]
    have hne : halfRoot M ^ k ≠ conj (halfRoot M) ^ k := by
      intro he
      have hu := unit_pow_conj (halfRoot_unit M) k
      rw [map_pow, ← he, ← pow_add, halfRoot_pow] at hu
      rw [Complex.exp_eq_one_iff] at hu
      obtain ⟨n, hn⟩ := hu
      have hpi : (Real.pi : ℂ) * Complex.I ≠ 0 :=
        mul_ne_zero (by exact_mod_cast Real.pi_ne_zero) Complex.I_ne_zero
      have hn' : ((k + k : ℕ) : ℂ) / M = 2 * n := by
        have : (Real.pi : ℂ) * Complex.I * (((k + k : ℕ) : ℂ) / M)
            = (Real.pi : ℂ) * Complex.I * (2 * n) := by
          linear_combination hn
        exact mul_left_cancel₀ hpi this
      rw [div_eq_iff hMC] at hn'
      have hz : ((k + k : ℕ) : ℤ) = 2 * n * M := by exact_mod_cast hn'
      have hn1 : n < 1 := by
        by_contra hc
        have : (M : ℤ) ≤ n * M := by nlinarith [(by omega : 1 ≤ n), (by positivity : (0:ℤ) ≤ M)]
        have : 2 * n * (M : ℤ) = 2 * (n * M) := by ring
        omega
      have hn0 : 0 < n := by
        by_contra hc
        have : n * (M : ℤ) ≤ 0 := by nlinarith [(by omega : n ≤ 0), (by positivity : (0:ℤ) ≤ M)]
        have : 2 * n * (M : ℤ) = 2 * (n * M) := by ring
        omega
      omega
    constructor
    · intro he
      have : (halfRoot M ^ k - conj (halfRoot M) ^ k)
          * Spec.dft M (fun m => (f (2 * m + 1) : ℂ)) k = 0 := by linear_combination he
      rcases mul_eq_zero.1 this with h | h
      · exact absurd (sub_eq_zero.1 h) hne
      · exact h
    · intro he; rw [he]; ring
  have h0 : Spec.oddEarly (2 * M) f 0 = Spec.dft (2 * M) (fun n => (f n : ℂ)) 0 := by
    rw [oddEarly_even_odd hM, dft_even_odd hM]; simp
  have hh : Spec.oddEarly (2 * M) f M = Spec.dft (2 * M) (fun n => (f n : ℂ)) M := by
    rw [oddEarly_even_odd hM, dft_even_odd hM, ← map_pow, halfRoot_half hM]; simp
  have hmid : 2 * M / 2 = M := by omega
  have hiff : Spec.IsPacked (2 * M) (Spec.dft (2 * M) (fun n => (f n : ℂ))) y ↔
      ∀ k, 1 ≤ k → k < M → Spec.dft M (fun m => (f (2 * m + 1) : ℂ)) k = 0 := by
    constructor
    · intro hq k hk1 hk2
      rw [← hbin k hk1 hk2]
      have a := hpk.2.2.2 k hk1 (by omega)
      have b := hq.2.2.2 k hk1 (by omega)
      exact Complex.ext (Option.some.inj (a.1.symm.trans b.1)) (Option.some.inj (a.2.symm.trans b.2))
    · intro hq
      refine ⟨hpk.1, ?_, ?_, fun k hk1 hk2 => ?_⟩
      · rw [← h0]; exact hpk.2.1
      · rw [hmid, ← hh]; have := hpk.2.2.1; rwa [hmid] at this
      · have e := (hbin k hk1 (by omega)).2 (hq k hk1 (by omega))
        rw [← e]
        exact hpk.2.2.2 k hk1 hk2
  rw [hiff]
  constructor
  · intro hq
    have hconst : ∀ m < M, (M : ℂ) * (f (2 * m + 1) : ℂ)
        = Spec.dft M (fun m => (f (2 * m + 1) : ℂ)) 0 := by
      intro m hm
      rw [← idft_dft (fun m => (f (2 * m + 1) : ℂ)) hm]
      unfold Spec.idft
      rw [sum_eq_single 0]
      · simp
      · intro k hk hk0
        rw [hq k (by omega) (mem_range.1 hk), zero_mul]
      · intro hc; exact absurd (mem_range.2 (by omega)) hc
    intro m hm
    have := (hconst m hm).trans (hconst 0 (by omega)).symm
    have := mul_left_cancel₀ hMC this
    exact_mod_cast this
  · intro hq k hk1 hk2
    have e : Spec.dft M (fun m => (f (2 * m + 1) : ℂ)) k = f 1 * Spec.dft M (fun _ => 1) k := by
      rw [← dft_smul]
      apply dft_congr
      intro m hm
      rw [hq m hm, mul_one]
    -- the transform of a constant vanishes away from bin 0
    have e1 : Spec.dft M (fun _ => (1 : ℂ)) k = 0 := by
      have hd : ∀ n < M, Spec.idft M (fun j => if j = 0 then (1 : ℂ) else 0) n = 1 := by
        intro n _
        unfold Spec.idft
        rw [sum_eq_single 0]
        · simp
        · intro j _ hj; beta_reduce; rw [if_neg hj, zero_mul]
        · intro hc; exact absurd (mem_range.2 (by omega)) hc
      rw [← dft_congr hd, dft_idft _ hk2]
      beta_reduce
      rw [if_neg (by omega), mul_zero]
    rw [e, e1, mul_zero]

/-- **C62** (negation): the forward call is not the half spectrum of its input; already the unit impulse at
position 1 of a length-4 buffer comes out wrong. -/
theorem C62_forward_not_dft :
    ∃ p y, ExpRfftPlan.make 2 = .ok p ∧ p.call [0, 1, 0, 0] .forward = .ok y ∧
      ¬ Spec.IsPacked 4 (Spec.dft 4 (fun n => (([0, 1, 0, 0] : List ℝ).getD n 0 : ℂ))) y := by
  obtain ⟨p, hp, h⟩ := C62_forward_correct_iff 2 le_rfl (by norm_num)
  obtain ⟨y, hy, hiff⟩ := h [0, 1, 0, 0] rfl
  refine ⟨p, y, hp, hy, fun hc => ?_⟩
  have := hiff.1 hc 1 (by norm_num)
  simp at this

private theorem order_one_call (a b : ℝ) (dir : Direction) :
    (expRfftPlanOf 1).fft.call [a, b] dir = .error .oob := by
  have hf : (expRfftPlanOf 1).fft = expC2cPlanOf 0 := rfl
  rw [hf]
  unfold ExpC2cPlan.call
  have hr : bitrevApplyInterleaved (expC2cPlanOf 0).rev [a, b] = .ok [a, b] := rfl
  have hk : ∀ tw, expKernel [a, b] tw = .error .oob := by
    intro tw
    unfold expKernel forStep
    rw [show ([a, b] : List ℝ).length / 2 = 1 from by simp]
    dsimp only
    rw [forN_error (e := .oob) rfl (by norm_num)]
    rfl
  rw [check_decide_ok (by simp [ExpC2cPlan.size, expC2cPlanOf]), bind_ok, hr, bind_ok, hk, hk]
  split <;> rfl

/-- **C62**: orders 0 and 1 fault: order 0 shifts by `2^64 - 1` while building the plan, order 1 reads
behind the buffer. -/
theorem C62_small_orders (a b : ℝ) :
    ExpRfftPlan.make 0 = .error .overflow ∧
    ∃ p, ExpRfftPlan.make 1 = .ok p ∧ p.call [a, b] .forward = .error .oob ∧
      p.call [a, b] .backward = .error .oob := by
  refine ⟨rfl, _, expRfft_make_eq le_rfl, ?_, ?_⟩
  · unfold ExpRfftPlan.call
    dsimp only
    rw [if_pos rfl, if_pos rfl, if_pos rfl, order_one_call]
    rfl
  · unfold ExpRfftPlan.call
    dsimp only
    rw [if_neg (by decide), if_neg (by decide), if_neg (by decide)]
    have hl : ∀ c1 c2 θ, expLoop 2 c1 c2 θ [a, b] = .ok [a, b] := fun _ _ _ => rfl
    rw [show ([a, b] : List ℝ).length = 2 from rfl, hl, bind_ok]
    exact order_one_call _ _ _

/-- Hypotheses of the C62 theorems are met, e.g. by a ramp of length 8; its odd-numbered samples
differ, so the forward call does not return its half spectrum. -/
example : ∃ x : List ℝ, x.length = 2 ^ 3 ∧ (2 : ℕ) ≤ 3 ∧ 3 ≤ 30 ∧
    ¬ ∀ m < 2 ^ (3 - 1), x.getD (2 * m + 1) 0 = x.getD 1 0 :=
  ⟨[0, 1, 2, 3, 4, 5, 6, 7], rfl, by norm_num, by norm_num, fun h => by
    have := h 1 (by norm_num); simp at this⟩

end Neo.Props
