import Verif.Lemmas.Dit2
import Mathlib.RingTheory.RootsOfUnity.Complex
import Mathlib.Tactic.FieldSimp

/-! # Roots of unity in `ℂ`, twiddle tables, orthogonality -/

namespace Neo

open Finset Complex

/-- `exp(∓2πi/N)`. -/
noncomputable def root (N : ℕ) (dir : Direction) : ℂ :=
  exp ((if dir = .forward then -1 else 1) * (2 * Real.pi * I / N))

theorem polar_eq_exp (θ : ℝ) : polar 1 θ = exp (θ * I) := by
  unfold polar
  apply Complex.ext
  · rw [Complex.exp_ofReal_mul_I_re]; simp
  · rw [Complex.exp_ofReal_mul_I_im]; simp

theorem twiddle_eq (N i : ℕ) (dir : Direction) : twiddle N i dir = root N dir ^ i := by
  unfold twiddle root
  simp only []
  rw [polar_eq_exp, ← Complex.exp_nat_mul]
  congr 1
  cases dir <;> simp <;> ring

theorem root_pow_eq (N k : ℕ) (dir : Direction) : root N dir ^ k =
    exp ((if dir = .forward then -1 else 1) * (2 * Real.pi * I * k / N)) := by
  unfold root
  rw [← Complex.exp_nat_mul]
  congr 1
  ring

theorem root_forward_mul_backward (N : ℕ) : root N .forward * root N .backward = 1 := by
  unfold root
  rw [← Complex.exp_add]
  simp

theorem root_backward_primitive {N : ℕ} (h : N ≠ 0) : IsPrimitiveRoot (root N .backward) N := by
  have := Complex.isPrimitiveRoot_exp N h
  simpa [root] using this

theorem root_forward_eq_inv (N : ℕ) : root N .forward = (root N .backward)⁻¹ :=
  eq_inv_of_mul_eq_one_left (root_forward_mul_backward N)

theorem root_primitive {N : ℕ} (h : N ≠ 0) (dir : Direction) : IsPrimitiveRoot (root N dir) N := by
  cases dir
  · rw [root_forward_eq_inv]; exact (root_backward_primitive h).inv
  · exact root_backward_primitive h

theorem root_pow_self {N : ℕ} (h : N ≠ 0) (dir : Direction) : root N dir ^ N = 1 :=
  (root_primitive h dir).pow_eq_one

theorem root_half {N : ℕ} (h : N ≠ 0) (dir : Direction) : root (2 * N) dir ^ N = -1 := by
  have hp := root_primitive (N := 2 * N) (by omega) dir
  have h2 : IsPrimitiveRoot (root (2 * N) dir ^ N) 2 :=
    hp.pow (by omega) (by ring)
  exact h2.eq_neg_one_of_two_right

theorem root_two_pow {b : ℕ} (hb : 1 ≤ b) (dir : Direction) :
    root (2 ^ b) dir ^ 2 ^ (b - 1) = -1 := by
  have : 2 ^ b = 2 * 2 ^ (b - 1) := by rw [← pow_succ']; congr 1; omega
  rw [this]
  exact root_half (by positivity) dir

theorem dftRoot_forward (N : ℕ) (x : ℕ → ℂ) (k : ℕ) :
    Spec.dftRoot N (root N .forward) x k = Spec.dft N x k := by
  unfold Spec.dftRoot Spec.dft
  apply sum_congr rfl
  intro n _
  rw [root_pow_eq]
  congr 2
  push_cast
  simp
  ring

theorem dftRoot_backward (N : ℕ) (x : ℕ → ℂ) (k : ℕ) :
    Spec.dftRoot N (root N .backward) x k = Spec.idft N x k := by
  unfold Spec.dftRoot Spec.idft
  apply sum_congr rfl
  intro n _
  rw [root_pow_eq]
  congr 2
  push_cast
  simp
  ring

/-- The specification transform for a direction. -/
noncomputable def specDft (dir : Direction) (N : ℕ) (x : ℕ → ℂ) (k : ℕ) : ℂ :=
  if dir = .forward then Spec.dft N x k else Spec.idft N x k

theorem dftRoot_dir (N : ℕ) (dir : Direction) (x : ℕ → ℂ) (k : ℕ) :
    Spec.dftRoot N (root N dir) x k = specDft dir N x k := by
  cases dir
  · simp [specDft, dftRoot_forward]
  · simp [specDft, dftRoot_backward]

theorem makeTwiddleLutRadix2_eq {b : ℕ} (hb : 1 ≤ b) (dir : Direction) :
    makeTwiddleLutRadix2 (2 ^ b) dir = twVec b (root (2 ^ b) dir) := by
  unfold makeTwiddleLutRadix2 fillTwiddleLutRadix2 twVec vec
  have h1 : 2 ^ b / 2 = 2 ^ (b - 1) := by
    have : 2 ^ b = 2 * 2 ^ (b - 1) := by rw [← pow_succ']; congr 1; omega
    omega
  have h2 : 2 ^ (b - 1) * 2 = 2 ^ b := by rw [← pow_succ]; congr 1; omega
  rw [h1]
  apply List.map_congr_left
  intro i _
  rw [h2, twiddle_eq]

/-- Orthogonality: two transforms with mutually inverse primitive roots give `N x`. -/
theorem dftRoot_inverse {A : Type} [CommRing A] [IsDomain A] {N : ℕ} {ω ζ : A}
    (hζ : IsPrimitiveRoot ζ N) (hinv : ω * ζ = 1) (x : ℕ → A) {k : ℕ} (hk : k < N) :
    Spec.dftRoot N ζ (Spec.dftRoot N ω x) k = N * x k := by
  unfold Spec.dftRoot
  have hN : 0 < N := by omega
  simp only [sum_mul]
  rw [sum_comm]
  have hterm : ∀ n ∈ range N, ∑ m ∈ range N, x n * ω ^ (n * m) * ζ ^ (m * k)
      = if n = k then (N : A) * x k else 0 := by
    intro n hn
    have hn := mem_range.1 hn
    by_cases h : n = k
    · subst h
      rw [if_pos rfl]
      have : ∀ m ∈ range N, x n * ω ^ (n * m) * ζ ^ (m * n) = x n := by
        intro m _
        rw [mul_assoc, mul_comm m n, ← mul_pow, hinv, one_pow, mul_one]
      rw [sum_congr rfl this]
      simp
    · rw [if_neg h]
      -- `ω^n ζ^k = ζ^(k + (N - n))`
      have hω : ω = ζ ^ (N - 1) := by
        have h1 : ζ ^ (N - 1) * ζ = 1 := by
          rw [← pow_succ]; rw [show N - 1 + 1 = N by omega]; exact hζ.pow_eq_one
        calc ω = ω * (ζ ^ (N - 1) * ζ) := by rw [h1, mul_one]
          _ = (ω * ζ) * ζ ^ (N - 1) := by ring
          _ = ζ ^ (N - 1) := by rw [hinv, one_mul]
      have hmod : ∀ m ∈ range N, x n * ω ^ (n * m) * ζ ^ (m * k)
          = x n * (ζ ^ (N - n + k)) ^ m := by
        intro m _
        have : ω ^ n = ζ ^ (N - n) := by
          have h1 : ω ^ n * ζ ^ n = 1 := by rw [← mul_pow, hinv, one_pow]
          have h2 : ζ ^ (N - n) * ζ ^ n = 1 := by
            rw [← pow_add, Nat.sub_add_cancel hn.le]; exact hζ.pow_eq_one
          calc ω ^ n = ω ^ n * (ζ ^ (N - n) * ζ ^ n) := by rw [h2, mul_one]
            _ = (ω ^ n * ζ ^ n) * ζ ^ (N - n) := by ring
            _ = ζ ^ (N - n) := by rw [h1, one_mul]
        rw [pow_mul, this, mul_comm m k, pow_mul, pow_add, mul_pow]
        ring
      rw [sum_congr rfl hmod, ← mul_sum]
      set z := ζ ^ (N - n + k) with hz
      have hz1 : z ^ N = 1 := by
        rw [hz, ← pow_mul, mul_comm, pow_mul, hζ.pow_eq_one, one_pow]
      have hzne : z ≠ 1 := by
        intro h1
        have := (hζ.pow_eq_one_iff_dvd _).1 h1
        obtain ⟨c, hc⟩ := this
        have hc1 : c = 1 := by
          have hlo : 0 < N - n + k := by omega
          have hhi : N - n + k < 2 * N := by omega
          rcases c with _ | _ | c
          · omega
          · rfl
          · exfalso
            have : N * (c + 1 + 1) = 2 * N + N * c := by ring
            omega
        subst hc1
        omega
      have hgeom : (∑ m ∈ range N, z ^ m) * (z - 1) = 0 := by
        rw [geom_sum_mul, hz1, sub_self]
      rcases mul_eq_zero.1 hgeom with h0 | h0
      · rw [h0, mul_zero]
      · exact absurd (sub_eq_zero.1 h0) hzne
  rw [sum_congr rfl hterm, sum_ite_eq' (range N) k]
  simp [hk]

theorem dftRoot_congr {A : Type} [CommRing A] {N : ℕ} {ω : A} {x y : ℕ → A}
    (h : ∀ n < N, x n = y n) (k : ℕ) : Spec.dftRoot N ω x k = Spec.dftRoot N ω y k :=
  sum_congr rfl (fun n hn => by rw [h n (mem_range.1 hn)])

theorem specDft_congr {N : ℕ} {dir : Direction} {x y : ℕ → ℂ}
    (h : ∀ n < N, x n = y n) (k : ℕ) : specDft dir N x k = specDft dir N y k := by
  rw [← dftRoot_dir, ← dftRoot_dir]; exact dftRoot_congr h k

theorem idft_dft {N : ℕ} (x : ℕ → ℂ) {k : ℕ} (hk : k < N) :
    Spec.idft N (Spec.dft N x) k = N * x k := by
  rw [← dftRoot_backward]
  have : Spec.dft N x = Spec.dftRoot N (root N .forward) x :=
    funext (fun k => (dftRoot_forward N x k).symm)
  rw [this]
  exact dftRoot_inverse (root_primitive (by omega) _) (root_forward_mul_backward N) x hk

theorem dft_idft {N : ℕ} (x : ℕ → ℂ) {k : ℕ} (hk : k < N) :
    Spec.dft N (Spec.idft N x) k = N * x k := by
  rw [← dftRoot_forward]
  have : Spec.idft N x = Spec.dftRoot N (root N .backward) x :=
    funext (fun k => (dftRoot_backward N x k).symm)
  rw [this]
  exact dftRoot_inverse (root_primitive (by omega) _)
    (by rw [mul_comm]; exact root_forward_mul_backward N) x hk

/-! ## The plan -/

/-- The plan built for order `b`. -/
noncomputable def dit2PlanOf (b : ℕ) : Dit2Plan where
  order := b
  size := 2 ^ b
  reorder := vec (2 ^ b) (digitRev 2 b)
  wf := makeTwiddleLutRadix2 (2 ^ b) .forward
  wb := makeTwiddleLutRadix2 (2 ^ b) .backward

theorem dit2Plan_make_eq {b : ℕ} (hb : b ≤ 27) : Dit2Plan.make b = .ok (dit2PlanOf b) := by
  unfold Dit2Plan.make dit2CheckOrder dit2MaxOrder
  rw [if_neg (by omega)]
  simp only [bind_ok, Nat.one_shiftLeft, bitrevMake_eq, pure_eq_ok, fftSize_eq]
  rfl

/-- A kernel that turns bit-reversed data into the DFT. -/
def KernelOk (b : ℕ) (kernel : List ℂ → List ℂ → Res (List ℂ)) : Prop :=
  ∀ (ω : ℂ) (X : ℕ → ℂ), ω ^ 2 ^ (b - 1) = -1 →
    kernel (vec (2 ^ b) (fun i => X (digitRev 2 b i))) (twVec b ω)
      = .ok (vec (2 ^ b) (Spec.dftRoot (2 ^ b) ω X))

theorem dit2_callWith {b : ℕ} (hb : 1 ≤ b) {kernel : List ℂ → List ℂ → Res (List ℂ)}
    (hk : KernelOk b kernel) (f : ℕ → ℂ) (dir : Direction) :
    (dit2PlanOf b).callWith kernel (vec (2 ^ b) f) dir
      = .ok (vec (2 ^ b) (specDft dir (2 ^ b) f)) := by
  unfold Dit2Plan.callWith dit2PlanOf
  have e : vec (2 ^ b) (specDft dir (2 ^ b) f)
      = vec (2 ^ b) (Spec.dftRoot (2 ^ b) (root (2 ^ b) dir) f) :=
    vec_ext (fun i _ => (dftRoot_dir _ _ _ _).symm)
  simp only [length_vec, decide_true, check_true, bind_ok, bitrevApply_digitRev,
    makeTwiddleLutRadix2_eq hb]
  rw [e]
  cases dir
  · rw [if_pos rfl]; exact hk _ f (root_two_pow hb .forward)
  · rw [if_neg (by decide)]; exact hk _ f (root_two_pow hb .backward)

theorem kernelOk_v3 {b : ℕ} (hb : 1 ≤ b) : KernelOk b dit2V3 := fun _ X h => dit2V3_vec hb h X

theorem dit2_call {b : ℕ} (hb : 1 ≤ b) (f : ℕ → ℂ) (dir : Direction) :
    (dit2PlanOf b).call (vec (2 ^ b) f) dir = .ok (vec (2 ^ b) (specDft dir (2 ^ b) f)) :=
  dit2_callWith hb (kernelOk_v3 hb) f dir

end Neo
