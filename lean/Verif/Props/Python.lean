import Verif.Model.Python
import Verif.Lemmas.Root
import Verif.Lemmas.Out
import Verif.Lemmas.Algo
import Verif.Lemmas.DftLaws
import Verif.Props.Bits
import Verif.Props.Fft

/-! # C59: normalisation modes of the Python bindings -/

namespace Neo.Props

open Neo

theorem hasSingleBit_pow (k : ℕ) : hasSingleBit (2 ^ k) = true := by
  unfold hasSingleBit
  rw [decide_eq_true_iff]
  exact ⟨by positivity, Nat.and_two_pow_sub_one_eq_mod (2 ^ k) k ▸ by simp⟩

theorem hasSingleBit_iff (n : ℕ) : hasSingleBit n = true ↔ ∃ k, n = 2 ^ k := by
  constructor
  · intro h
    unfold hasSingleBit at h
    rw [decide_eq_true_iff] at h
    obtain ⟨h0, h1⟩ := h
    refine ⟨Nat.log 2 n, ?_⟩
    by_contra hne
    have hle : 2 ^ Nat.log 2 n ≤ n := Nat.pow_log_le_self 2 h0
    have hlt : n < 2 ^ (Nat.log 2 n + 1) := Nat.lt_pow_succ_log_self (by norm_num) n
    have hb : ∀ m, 2 ^ Nat.log 2 n ≤ m → m < 2 ^ (Nat.log 2 n + 1) →
        m.testBit (Nat.log 2 n) = true := by
      intro m h1 h2
      rw [Nat.testBit_eq_decide_div_mod_eq, decide_eq_true_iff]
      have : m / 2 ^ Nat.log 2 n = 1 := by
        apply Nat.div_eq_of_lt_le <;> rw [pow_succ] at * <;> omega
      rw [this]
    have := congrArg (fun z => z.testBit (Nat.log 2 n)) h1
    simp only [Nat.testBit_and, Nat.zero_testBit] at this
    rw [hb n hle hlt, hb (n - 1) (by omega) (by omega)] at this
    simp at this
  · rintro ⟨k, rfl⟩
    exact hasSingleBit_pow k

/-- The factor NumPy's documentation prescribes for a transform of `N` points. -/
noncomputable def npFactor (dir : Direction) (norm : Norm) (N : ℕ) : ℝ :=
  match dir, norm with
  | .forward, .forward => 1 / N
  | .backward, .backward => 1 / N
  | _, .ortho => 1 / Real.sqrt N
  | _, _ => 1

theorem pyFft_eq {b : ℕ} (h1 : 1 ≤ b) (h2 : b ≤ 27) (dir : Direction) (norm : Norm) (f : ℕ → ℂ)
    (n : Option ℕ) (hn : n.getD (2 ^ b) = 2 ^ b) :
    pyFft dir (vec (2 ^ b) f) n norm
      = .ok (vec (2 ^ b) (fun k => specDft dir (2 ^ b) f k * (npFactor dir norm (2 ^ b) : ℂ))) := by
  have hord : nextOrderT false ⟨false, 64⟩ ((2 ^ b : ℕ) : ℤ) = .ok (b : ℤ) := by
    have := C38_size_t false (2 ^ b) Nat.one_le_two_pow
      (Nat.pow_le_pow_right (by norm_num) (by omega))
    rw [nextOrder_eq, Nat.clog_pow 2 _ (by norm_num)] at this
    exact this
  have hrep : List.replicate (2 ^ b) (0 : ℂ) = vec (2 ^ b) (fun _ => 0) := by
    rw [eq_vec_iff]; simp +contextual
  have hf : fftOut (dit2PlanOf b) (vec (2 ^ b) f) (vec (2 ^ b) (fun _ => 0))
      = .ok (vec (2 ^ b) (specDft .forward (2 ^ b) f)) := by
    unfold fftOut
    rw [copyVec_vec, bind_ok]
    exact dit2_call h1 f .forward
  have hi : ifftOut (dit2PlanOf b) (vec (2 ^ b) f) (vec (2 ^ b) (fun _ => 0))
      = .ok (vec (2 ^ b) (specDft .backward (2 ^ b) f)) := by
    unfold ifftOut
    rw [copyVec_vec, bind_ok]
    exact dit2_call h1 f .backward
  unfold pyFft
  rw [length_vec, hn]
  dsimp only
  rw [hord, bind_ok, hasSingleBit_pow, if_neg (by simp), Int.toNat_natCast, dit2Plan_make_eq h2,
    bind_ok, hrep]
  cases dir <;> cases norm <;> simp [hf, hi, scaleVec_vec, npFactor]

/-- **C59**, what the bindings compute: for every length `2^order`, `1 ≤ order ≤ 27`, the result is the
DFT (forward `exp(-2πi nk/N)`, backward `exp(+2πi nk/N)`) times the factor of the chosen mode. -/
theorem C59_values (order : ℕ) (h1 : 1 ≤ order) (h2 : order ≤ 27) (norm : Norm) (x : List ℂ)
    (hx : x.length = 2 ^ order) (n : Option ℕ) (hn : n = none ∨ n = some (2 ^ order)) :
    Produces (pyFft .forward x n norm) (2 ^ order) (fun k =>
        Spec.dft (2 ^ order) (fun i => x.getD i 0) k * (npFactor .forward norm (2 ^ order) : ℂ)) ∧
    Produces (pyFft .backward x n norm) (2 ^ order) (fun k =>
        Spec.idft (2 ^ order) (fun i => x.getD i 0) k * (npFactor .backward norm (2 ^ order) : ℂ)) := by
  have hn' : n.getD (2 ^ order) = 2 ^ order := by rcases hn with rfl | rfl <;> rfl
  rw [produces_iff, produces_iff]
  constructor
  · conv_lhs => rw [list_eq_vec 0 hx]
    exact pyFft_eq h1 h2 .forward norm _ n hn'
  · conv_lhs => rw [list_eq_vec 0 hx]
    exact pyFft_eq h1 h2 .backward norm _ n hn'

/-- **C59**, round trip: for every length `2^order`, `1 ≤ order ≤ 27`, and each of the three modes
Python can name, `ifft(fft(x)) = x` and `fft(ifft(x)) = x`. -/
theorem C59_roundtrip (order : ℕ) (h1 : 1 ≤ order) (h2 : order ≤ 27) (norm : Norm)
    (hnorm : norm = .backward ∨ norm = .ortho ∨ norm = .forward) (x : List ℂ)
    (hx : x.length = 2 ^ order) :
    (∃ y, pyFft .forward x none norm = .ok y ∧ y.length = x.length ∧
      pyFft .backward y none norm = .ok x) ∧
    (∃ y, pyFft .backward x none norm = .ok y ∧ y.length = x.length ∧
      pyFft .forward y none norm = .ok x) := by
  have e := list_eq_vec 0 hx
  have hc : ((npFactor .forward norm (2 ^ order) : ℂ)) * (npFactor .backward norm (2 ^ order) : ℂ)
      * 2 ^ order = 1 := by
    rcases hnorm with rfl | rfl | rfl
    · simp [npFactor]
    · have hs : Real.sqrt (2 ^ order) * Real.sqrt (2 ^ order) = 2 ^ order :=
        Real.mul_self_sqrt (by positivity)
      have : (1 / Real.sqrt ((2 ^ order : ℕ) : ℝ)) * (1 / Real.sqrt ((2 ^ order : ℕ) : ℝ)) * 2 ^ order = 1 := by
        push_cast
        have h0 : Real.sqrt (2 ^ order) ≠ 0 := Real.sqrt_ne_zero'.2 (by positivity)
        field_simp
        rw [sq]; exact hs.symm
      have := congrArg (fun r : ℝ => (r : ℂ)) this
      push_cast at this
      unfold npFactor
      push_cast
      exact this
    · simp [npFactor]
  constructor
  · refine ⟨_, by conv_lhs => rw [e]
                  exact pyFft_eq h1 h2 .forward norm _ none rfl, by simp [hx], ?_⟩
    rw [pyFft_eq h1 h2 .backward norm _ none rfl]
    conv_rhs => rw [e]
    congr 1
    apply vec_ext
    intro k hk
    show Spec.idft (2 ^ order) (fun k => Spec.dft (2 ^ order) (fun i => x.getD i 0) k *
      (npFactor .forward norm (2 ^ order) : ℂ)) k * _ = _
    have : Spec.idft (2 ^ order) (fun k => Spec.dft (2 ^ order) (fun i => x.getD i 0) k *
        (npFactor .forward norm (2 ^ order) : ℂ)) k
        = (npFactor .forward norm (2 ^ order) : ℂ) * ((2 : ℂ) ^ order * x.getD k 0) := by
      rw [show (fun k => Spec.dft (2 ^ order) (fun i => x.getD i 0) k *
        (npFactor .forward norm (2 ^ order) : ℂ)) = (fun k => (npFactor .forward norm (2 ^ order) : ℂ) *
          Spec.dft (2 ^ order) (fun i => x.getD i 0) k) from funext fun k => mul_comm _ _,
        idft_smul, idft_dft _ hk]
      push_cast; rfl
    rw [this]
    linear_combination (x.getD k 0) * hc
  · refine ⟨_, by conv_lhs => rw [e]
                  exact pyFft_eq h1 h2 .backward norm _ none rfl, by simp [hx], ?_⟩
    rw [pyFft_eq h1 h2 .forward norm _ none rfl]
    conv_rhs => rw [e]
    congr 1
    apply vec_ext
    intro k hk
    show Spec.dft (2 ^ order) (fun k => Spec.idft (2 ^ order) (fun i => x.getD i 0) k *
      (npFactor .backward norm (2 ^ order) : ℂ)) k * _ = _
    have : Spec.dft (2 ^ order) (fun k => Spec.idft (2 ^ order) (fun i => x.getD i 0) k *
        (npFactor .backward norm (2 ^ order) : ℂ)) k
        = (npFactor .backward norm (2 ^ order) : ℂ) * ((2 : ℂ) ^ order * x.getD k 0) := by
      rw [show (fun k => Spec.idft (2 ^ order) (fun i => x.getD i 0) k *
        (npFactor .backward norm (2 ^ order) : ℂ)) = (fun k => (npFactor .backward norm (2 ^ order) : ℂ) *
          Spec.idft (2 ^ order) (fun i => x.getD i 0) k) from funext fun k => mul_comm _ _,
        dft_smul, dft_idft _ hk]
      push_cast; rfl
    rw [this]
    linear_combination (x.getD k 0) * hc

/-- A length-8 ramp with the `ortho` mode meets the hypotheses. -/
example : ∃ y, pyFft .forward [0, 1, 2, 3, 4, 5, 6, 7] none .ortho = .ok y ∧
    pyFft .backward y none .ortho = .ok [0, 1, 2, 3, 4, 5, 6, 7] := by
  obtain ⟨⟨y, h, -, h'⟩, -⟩ := C59_roundtrip 3 (by norm_num) (by norm_num) .ortho (by simp)
    [0, 1, 2, 3, 4, 5, 6, 7] rfl
  exact ⟨y, h, h'⟩

/-- **C59**, rejection: every length up to `2^63` that is not a power of two raises the exception,
whatever the direction and mode; powers of two above `2^27` are rejected by the plan. -/
theorem C59_rejects (dir : Direction) (norm : Norm) (x : List ℂ) (n : Option ℕ) :
    (n.getD x.length ≤ 2 ^ 63 → (∀ k, n.getD x.length ≠ 2 ^ k) →
      pyFft dir x n norm = .error .exception) ∧
    (∀ k, 28 ≤ k → k ≤ 63 → n.getD x.length = 2 ^ k → pyFft dir x n norm = .error .exception) := by
  constructor
  · intro hle hp
    unfold pyFft
    dsimp only
    have hb : hasSingleBit (n.getD x.length) = false := by
      rw [Bool.eq_false_iff]
      intro h
      obtain ⟨k, hk⟩ := (hasSingleBit_iff _).1 h
      exact hp k hk
    rcases Nat.eq_zero_or_pos (n.getD x.length) with h0 | h0
    · rw [hb, h0]
      have : nextOrderT false ⟨false, 64⟩ ((0 : ℕ) : ℤ) = .ok 0 := by decide +kernel
      rw [this]; rfl
    · rw [C38_size_t false _ h0 hle, bind_ok, hb]; rfl
  · intro k h1 h2 hk
    unfold pyFft
    dsimp only
    rw [hk, C38_size_t false _ Nat.one_le_two_pow (Nat.pow_le_pow_right (by norm_num) h2), bind_ok,
      hasSingleBit_pow, if_neg (by simp), Int.toNat_natCast, nextOrder_eq, Nat.clog_pow 2 _ (by norm_num),
      (C05_plan_orders k).1.2 (by unfold dit2MaxOrder; omega)]
    rfl

example : pyFft .forward [1, 2, 3] none .backward = .error .exception :=
  (C59_rejects .forward .backward [1, 2, 3] none).1 (by norm_num) (fun k => by
    show 3 ≠ 2 ^ k
    intro h
    rcases k with _ | k
    · simp at h
    · rw [pow_succ] at h; omega)

/-- Length 1 is a power of two but not transformed: the order-0 plan reads past the single element. -/
theorem C59_length_one (dir : Direction) (norm : Norm) (a : ℂ) :
    pyFft dir [a] none norm = .error .oob := by
  have hord : nextOrderT false ⟨false, 64⟩ ((1 : ℕ) : ℤ) = .ok 0 := by decide +kernel
  have key : ∀ d, (dit2PlanOf 0).call [a] d = .error .oob := by
    intro d
    obtain ⟨p, hp, -, h⟩ := C04_order_zero_out_of_bounds .v3 a d
    rw [dit2Plan_make_eq (by norm_num)] at hp
    injection hp with hp
    rw [hp]
    exact h
  unfold pyFft
  simp only [Option.getD_none, List.length_singleton]
  rw [hord, bind_ok, show hasSingleBit 1 = true from by decide, if_neg (by simp), Int.toNat_zero,
    dit2Plan_make_eq (by norm_num), bind_ok]
  have h1 : fftOut (dit2PlanOf 0) [a] (List.replicate 1 0) = .error .oob := by
    unfold fftOut
    rw [show copyVec [a] (List.replicate 1 0) = .ok [a] from copyVec_eq rfl, bind_ok]
    exact key .forward
  have h2 : ifftOut (dit2PlanOf 0) [a] (List.replicate 1 0) = .error .oob := by
    unfold ifftOut
    rw [show copyVec [a] (List.replicate 1 0) = .ok [a] from copyVec_eq rfl, bind_ok]
    exact key .backward
  cases dir
  · simp only [h1, bind_error]
  · simp only [h2, bind_error]

/-- Asking for another power-of-two length than that of the array does not pad or crop: it violates
the precondition of `copy`. -/
theorem C59_length_argument (order : ℕ) (h2 : order ≤ 27) (dir : Direction) (norm : Norm) (x : List ℂ)
    (hx : x.length ≠ 2 ^ order) :
    pyFft dir x (some (2 ^ order)) norm = .error .assertion := by
  have hord := C38_size_t false (2 ^ order) Nat.one_le_two_pow
    (Nat.pow_le_pow_right (by norm_num) (by omega))
  rw [nextOrder_eq, Nat.clog_pow 2 _ (by norm_num)] at hord
  have hbad : x.length ≠ (List.replicate (2 ^ order) (0 : ℂ)).length := by simpa using hx
  unfold pyFft
  simp only [Option.getD_some]
  rw [hord, bind_ok, hasSingleBit_pow, if_neg (by simp), Int.toNat_natCast, dit2Plan_make_eq h2,
    bind_ok]
  have h1 := ((C01_out_of_place (dit2PlanOf order) x (List.replicate (2 ^ order) 0)).2 hbad).1
  have h2 := ((C01_out_of_place (dit2PlanOf order) x (List.replicate (2 ^ order) 0)).2 hbad).2
  cases dir
  · simp only [h1, bind_error]
  · simp only [h2, bind_error]

end Neo.Props
