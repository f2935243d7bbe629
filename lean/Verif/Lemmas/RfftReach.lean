import Verif.Lemmas.Rfft
import Verif.Lemmas.Out

/-! # Reachable states of an rfft plan -/

namespace Neo

open Finset ComplexConjugate

/-- Plans that can occur: freshly constructed, or after any number of successful calls. -/
inductive RfftReachable (order : ℕ) : RfftPlan → Prop
  | make {p} : RfftPlan.make order = .ok p → RfftReachable order p
  | rfft {p p' x o y} : RfftReachable order p → p.rfft x o = .ok (p', y) → RfftReachable order p'
  | irfft {p p' x o y} : RfftReachable order p → p.irfft x o = .ok (p', y) → RfftReachable order p'

theorem copyRealToComplex_bad {x : List ℝ} {y : List ℂ} (h : x.length ≠ y.length) :
    copyRealToComplex x y = .error .assertion := by
  unfold copyRealToComplex
  rw [decide_eq_false h]; rfl

theorem rfft_plan {b : ℕ} (hb : 1 ≤ b) {f : ℕ → ℂ} {x : List ℝ} {o y : List ℂ} {p' : RfftPlan}
    (h : (rfftPlanOf b f).rfft x o = .ok (p', y)) : ∃ f', p' = rfftPlanOf b f' := by
  unfold RfftPlan.rfft at h
  have h1 : (rfftPlanOf b f).buffer = vec (2 ^ b) f := rfl
  have h2 : (rfftPlanOf b f).fft = dit2PlanOf b := rfl
  simp only [rfftPlanOf_size, h1, h2] at h
  by_cases hx : x.length = 2 ^ b
  · rw [list_eq_vec 0 hx, copyRealToComplex_vec, bind_ok, dit2_call hb, bind_ok] at h
    rw [rdSpan_vec (Nat.zero_le _) (half_lt hb), bind_ok] at h
    cases hc : copyInto (vec (2 ^ b / 2 + 1 - 0) fun i => specDft Direction.forward (2 ^ b)
        (fun i => ((x.getD i 0 : ℝ) : ℂ)) (0 + i)) o 0 (2 ^ b / 2 + 1) with
    | error e => rw [hc] at h; simp at h
    | ok v =>
      rw [hc, bind_ok, pure_eq_ok] at h
      injection h with h
      injection h with h3 h4
      exact ⟨_, h3.symm⟩
  · rw [copyRealToComplex_bad (by simpa using hx), bind_error] at h
    simp at h

theorem irfft_plan {b : ℕ} (hb : 1 ≤ b) {f : ℕ → ℂ} {x : List ℂ} {o y : List ℝ} {p' : RfftPlan}
    (h : (rfftPlanOf b f).irfft x o = .ok (p', y)) : ∃ f', p' = rfftPlanOf b f' := by
  unfold RfftPlan.irfft at h
  have h1 : (rfftPlanOf b f).buffer = vec (2 ^ b) f := rfl
  have h2 : (rfftPlanOf b f).fft = dit2PlanOf b := rfl
  simp only [rfftPlanOf_size, h1, h2] at h
  by_cases hx : x.length ≤ 2 ^ b
  · rw [list_eq_vec 0 (rfl : x.length = x.length), length_vec, copyInto_vec _ _ (by omega),
      bind_ok] at h
    generalize hg : (fun i => if 0 ≤ i ∧ i < 0 + x.length then x.getD (i - 0) 0 else f i) = g at h
    have key : ∃ g', forR (2 ^ b / 2 + 1) (2 ^ b) (fun i buf => do
        let v ← rd buf (2 ^ b - i)
        wr buf i (conj v)) (vec (2 ^ b) g) = .ok (vec (2 ^ b) g') := by
      unfold forR
      have := forN_inv (n := 2 ^ b - (2 ^ b / 2 + 1)) (body := fun i buf => do
        let v ← rd buf (2 ^ b - (2 ^ b / 2 + 1 + i))
        wr buf (2 ^ b / 2 + 1 + i) (conj v)) (s := vec (2 ^ b) g)
        (fun _ s => ∃ g', s = vec (2 ^ b) g') ⟨g, rfl⟩ (by
          rintro i hi s ⟨g', rfl⟩
          refine ⟨vec (2 ^ b) (Function.update g' (2 ^ b / 2 + 1 + i)
            (conj (g' (2 ^ b - (2 ^ b / 2 + 1 + i))))), ?_, _, rfl⟩
          rw [rd_vec_ok (by omega), bind_ok, wr_vec_ok (by omega)])
      obtain ⟨s', hs, g', rfl⟩ := this
      exact ⟨g', hs⟩
    obtain ⟨g', hg'⟩ := key
    rw [hg', bind_ok, dit2_call hb, bind_ok] at h
    generalize forN (2 ^ b) _ o = r at h
    cases r with
    | error e => simp at h
    | ok v =>
      rw [bind_ok, pure_eq_ok] at h
      injection h with h
      injection h with h3 h4
      exact ⟨_, h3.symm⟩
  · unfold copyInto rdSpan at h
    rw [if_neg (by rw [length_vec]; omega)] at h
    simp at h

theorem rfftReachable_form {b : ℕ} (h1 : 1 ≤ b) (h2 : b ≤ 27) {p : RfftPlan}
    (h : RfftReachable b p) : ∃ f, p = rfftPlanOf b f := by
  induction h with
  | make h =>
    rw [rfftPlan_make_eq h2] at h
    injection h with h
    exact ⟨_, h.symm⟩
  | rfft _ h ih =>
    obtain ⟨f, rfl⟩ := ih
    exact rfft_plan h1 h
  | irfft _ h ih =>
    obtain ⟨f, rfl⟩ := ih
    exact irfft_plan h1 h

end Neo
