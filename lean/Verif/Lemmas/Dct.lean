import Verif.Model.Dct
import Verif.Spec.Dct
import Verif.Lemmas.Root
import Verif.Lemmas.Algo
import Verif.Lemmas.Out
import Mathlib.Algebra.BigOperators.Intervals

/-! # The DCT plan -/

namespace Neo

open Finset

/-- The plan of order `b` with buffer content `f`. -/
noncomputable def dct2PlanOf (b : ℕ) (f : ℕ → ℂ) : Dct2Plan :=
  { fft := dit2PlanOf b, buffer := vec (2 ^ b) f }

theorem dct2Plan_make_eq {b : ℕ} (hb : b ≤ 27) :
    Dct2Plan.make b = .ok (dct2PlanOf b (fun _ => 0)) := by
  unfold Dct2Plan.make
  rw [dit2Plan_make_eq hb]; rfl

/-- Makhoul's reordering: even samples ascending, odd samples descending. -/
def makhoul (N : ℕ) (x : ℕ → ℝ) (i : ℕ) : ℝ := if i < N / 2 then x (2 * i) else x (2 * (N - 1 - i) + 1)

theorem makhoul_loop {H : ℕ} (x : ℕ → ℝ) (f : ℕ → ℂ) :
    forN H (fun i buf => do
      let src := i * 2
      let top := 2 * H - i - 1
      let a ← rd (vec (2 * H) x) src
      let buf ← wr buf i (a : ℂ)
      let b ← rd (vec (2 * H) x) (src + 1)
      wr buf top (b : ℂ)) (vec (2 * H) f) = .ok (vec (2 * H) (fun i => (makhoul (2 * H) x i : ℂ))) := by
  apply forN_eq' (fun t => vec (2 * H) (fun i =>
    if i < t ∨ 2 * H - 1 - i < t then (makhoul (2 * H) x i : ℂ) else f i))
  · exact vec_ext (fun i _ => by simp)
  · apply vec_ext
    intro i hi
    rw [if_pos (by omega)]
  · intro t ht
    dsimp only
    rw [rd_vec_ok (by omega), bind_ok, wr_vec_ok (by omega), bind_ok, rd_vec_ok (by omega), bind_ok,
      wr_vec_ok (by omega)]
    congr 1
    apply vec_ext
    intro i hi
    by_cases h1 : i = 2 * H - t - 1
    · subst h1
      rw [Function.update_self, if_pos (by omega)]
      unfold makhoul
      rw [if_neg (by omega)]
      congr 2; omega
    · rw [Function.update_of_ne h1]
      by_cases h2 : i = t
      · subst h2
        rw [Function.update_self, if_pos (by omega)]
        unfold makhoul
        rw [if_pos (by omega), Nat.mul_comm]
      · rw [Function.update_of_ne h2]
        by_cases h3 : i < t ∨ 2 * H - 1 - i < t
        · rw [if_pos h3, if_pos (by omega)]
        · rw [if_neg h3, if_neg (by omega)]

theorem sum_two_mul (H : ℕ) (g : ℕ → ℝ) :
    ∑ n ∈ range (2 * H), g n = ∑ m ∈ range H, (g (2 * m) + g (2 * m + 1)) := by
  rw [Nat.mul_comm, sum_range_mul']
  apply sum_congr rfl
  intro m _
  rw [sum_range_succ, sum_range_succ, sum_range_zero, zero_add, Nat.mul_comm]; rfl

theorem sum_ends (H : ℕ) (g : ℕ → ℝ) :
    ∑ n ∈ range (2 * H), g n = ∑ m ∈ range H, (g m + g (2 * H - 1 - m)) := by
  rw [two_mul, sum_range_add, sum_add_distrib]
  congr 1
  rw [← sum_range_reflect]
  apply sum_congr rfl
  intro m hm
  have := mem_range.1 hm
  congr 1; omega

theorem makhoul_dct {H : ℕ} (hH : 0 < H) (x : ℕ → ℝ) (k : ℕ) :
    (Spec.dft (2 * H) (fun i => (makhoul (2 * H) x i : ℂ)) k * dct2Scale (2 * H) k).re
      = Spec.dct2 (2 * H) x k := by
  have hH' : (H : ℝ) ≠ 0 := by positivity
  have hHc : (H : ℂ) ≠ 0 := by exact_mod_cast hH'
  have term : ∀ m : ℕ, ((makhoul (2 * H) x m : ℂ) *
      Complex.exp (-(2 * Real.pi * Complex.I * m * k / (2 * H : ℕ))) * dct2Scale (2 * H) k).re
      = 2 * (makhoul (2 * H) x m * Real.cos (Real.pi * k * (4 * m + 1) / (2 * (2 * H)))) := by
    intro m
    unfold dct2Scale
    have e : (makhoul (2 * H) x m : ℂ) *
        Complex.exp (-(2 * Real.pi * Complex.I * m * k / (2 * H : ℕ))) *
        (2 * Complex.exp ((⟨0, -1⟩ : ℂ) * (Real.pi : ℂ) * (k : ℂ) / (2 * ((2 * H : ℕ) : ℂ))))
        = ((2 * makhoul (2 * H) x m : ℝ) : ℂ) *
          Complex.exp (((-(Real.pi * k * (4 * m + 1) / (2 * (2 * H))) : ℝ) : ℂ) * Complex.I) := by
      have h1 : (⟨0, -1⟩ : ℂ) = -Complex.I := by apply Complex.ext <;> simp
      rw [h1]
      have : Complex.exp (((-(Real.pi * k * (4 * m + 1) / (2 * (2 * H))) : ℝ) : ℂ) * Complex.I)
          = Complex.exp (-(2 * Real.pi * Complex.I * m * k / (2 * H : ℕ))) *
            Complex.exp ((-Complex.I) * (Real.pi : ℂ) * (k : ℂ) / (2 * ((2 * H : ℕ) : ℂ))) := by
        rw [← Complex.exp_add]
        congr 1
        push_cast
        field_simp
        ring
      rw [this]
      push_cast
      ring
    dsimp only
    rw [e, Complex.re_ofReal_mul, Complex.exp_ofReal_mul_I_re, Real.cos_neg]
    ring
  unfold Spec.dft Spec.dct2
  rw [sum_mul, Complex.re_sum, sum_congr rfl (fun m _ => term m), ← mul_sum, sum_ends, sum_two_mul]
  congr 1
  apply sum_congr rfl
  intro m hm
  have hm := mem_range.1 hm
  congr 1
  · unfold makhoul
    rw [if_pos (by omega)]
    congr 2
    push_cast
    ring
  · unfold makhoul
    rw [if_neg (by omega), show 2 * H - 1 - (2 * H - 1 - m) = m by omega]
    congr 1
    have hc : ((2 * H - 1 - m : ℕ) : ℝ) = 2 * H - 1 - m := by
      rw [Nat.cast_sub (by omega), Nat.cast_sub (by omega)]; push_cast; ring
    rw [hc, ← Real.cos_neg, ← Real.cos_add_nat_mul_two_pi _ k]
    congr 1
    push_cast
    field_simp
    ring

theorem dct2_call_vec {b : ℕ} (hb : 1 ≤ b) (f : ℕ → ℂ) (x : ℕ → ℝ) :
    ∃ f', (dct2PlanOf b f).call (vec (2 ^ b) x)
      = .ok (dct2PlanOf b f', vec (2 ^ b) (Spec.dct2 (2 ^ b) x)) := by
  obtain ⟨c, rfl⟩ : ∃ c, b = c + 1 := ⟨b - 1, by omega⟩
  have h2 : 2 ^ (c + 1) = 2 * 2 ^ c := pow_succ' 2 c
  have hl := makhoul_loop (H := 2 ^ c) x f
  refine ⟨specDft .forward (2 ^ (c + 1)) (fun i => (makhoul (2 ^ (c + 1)) x i : ℂ)), ?_⟩
  unfold Dct2Plan.call
  simp only [length_vec]
  rw [check_decide_ok (show 2 ^ (c + 1) = (dct2PlanOf (c + 1) f).size from rfl), bind_ok]
  rw [show (dct2PlanOf (c + 1) f).buffer = vec (2 ^ (c + 1)) f from rfl,
    show (dct2PlanOf (c + 1) f).fft = dit2PlanOf (c + 1) from rfl,
    show 2 ^ (c + 1) / 2 = 2 ^ c by omega]
  rw [← h2] at hl
  rw [hl, bind_ok, dit2_call hb, bind_ok]
  rw [forN_map x (fun i _ => (specDft .forward (2 ^ (c + 1))
    (fun i => (makhoul (2 ^ (c + 1)) x i : ℂ)) i * dct2Scale (2 ^ (c + 1)) i).re) _
    (fun i hi h _ => by rw [rd_vec_ok hi, bind_ok, wr_vec_ok hi]), bind_ok, pure_eq_ok]
  congr 1
  refine Prod.ext rfl ?_
  apply vec_ext
  intro i hi
  have := makhoul_dct (H := 2 ^ c) (by positivity) x i
  rw [← h2] at this
  exact this

/-- Plans that can occur: freshly constructed, or after any number of successful calls. -/
inductive Dct2Reachable (order : ℕ) : Dct2Plan → Prop
  | make {p} : Dct2Plan.make order = .ok p → Dct2Reachable order p
  | call {p p' x y} : Dct2Reachable order p → p.call x = .ok (p', y) → Dct2Reachable order p'

theorem dct2Reachable_form {b : ℕ} (h1 : 1 ≤ b) (h2 : b ≤ 27) {p : Dct2Plan}
    (h : Dct2Reachable b p) : ∃ f, p = dct2PlanOf b f := by
  induction h with
  | make h =>
    rw [dct2Plan_make_eq h2] at h
    injection h with h
    exact ⟨_, h.symm⟩
  | @call p p' x y _ h ih =>
    obtain ⟨f, rfl⟩ := ih
    by_cases hx : x.length = 2 ^ b
    · obtain ⟨f', e⟩ := dct2_call_vec h1 f (fun i => x.getD i 0)
      rw [← list_eq_vec 0 hx, h] at e
      injection e with e
      exact ⟨f', (Prod.ext_iff.1 e).1⟩
    · unfold Dct2Plan.call at h
      have : check (decide (x.length = (dct2PlanOf b f).size)) = .error .assertion := by
        rw [decide_eq_false (show ¬ x.length = (dct2PlanOf b f).size from hx)]; rfl
      simp only [this, bind_error] at h
      simp at h

end Neo
