import Verif.Lemmas.Radix
import Verif.Lemmas.Out

/-! # Properties of the in-place reference plans of radix 3 and 5: C17 -/

namespace Neo.Props

open Finset

/-- **C17**, radix 3: for every order up to 18 (the plan's `max_order()` is 17) and both directions the
plan leaves the DFT of the `3 ^ order` samples in the buffer; no access is out of bounds and no `int`
overflows. -/
theorem C17_radix3 (order : ℕ) (h : order ≤ 18) :
    ∃ p, RadixPlan.make 3 order = .ok p ∧ ∀ x : List ℂ, x.length = 3 ^ order →
      (∃ y, p.dif3 x .forward = .ok y ∧ y.length = 3 ^ order ∧
        ∀ k < 3 ^ order, y[k]? = some (Spec.dft (3 ^ order) (fun n => x.getD n 0) k)) ∧
      (∃ y, p.dif3 x .backward = .ok y ∧ y.length = 3 ^ order ∧
        ∀ k < 3 ^ order, y[k]? = some (Spec.idft (3 ^ order) (fun n => x.getD n 0) k)) := by
  refine ⟨_, radixPlan_make_eq (by norm_num) order, fun x hx => ?_⟩
  have ef := dif3_call h .forward (fun i => x.getD i 0)
  have eb := dif3_call h .backward (fun i => x.getD i 0)
  rw [← list_eq_vec 0 hx] at ef eb
  exact ⟨⟨_, ef, by simp, fun k hk => by rw [getElem?_vec, if_pos hk]; rfl⟩,
    ⟨_, eb, by simp, fun k hk => by rw [getElem?_vec, if_pos hk]; rfl⟩⟩

/-- **C17**, radix 5: for every order up to 12 (the plan's `max_order()` is 11) and both directions. -/
theorem C17_radix5 (order : ℕ) (h : order ≤ 12) :
    ∃ p, RadixPlan.make 5 order = .ok p ∧ ∀ x : List ℂ, x.length = 5 ^ order →
      (∃ y, p.dif5 x .forward = .ok y ∧ y.length = 5 ^ order ∧
        ∀ k < 5 ^ order, y[k]? = some (Spec.dft (5 ^ order) (fun n => x.getD n 0) k)) ∧
      (∃ y, p.dif5 x .backward = .ok y ∧ y.length = 5 ^ order ∧
        ∀ k < 5 ^ order, y[k]? = some (Spec.idft (5 ^ order) (fun n => x.getD n 0) k)) := by
  refine ⟨_, radixPlan_make_eq (by norm_num) order, fun x hx => ?_⟩
  have ef := dif5_call h .forward (fun i => x.getD i 0)
  have eb := dif5_call h .backward (fun i => x.getD i 0)
  rw [← list_eq_vec 0 hx] at ef eb
  exact ⟨⟨_, ef, by simp, fun k hk => by rw [getElem?_vec, if_pos hk]; rfl⟩,
    ⟨_, eb, by simp, fun k hk => by rw [getElem?_vec, if_pos hk]; rfl⟩⟩

/-- Outside the property: at order 19 the radix-3 plan overflows an `int` after its last stage. -/
theorem C17_radix3_order_19_overflow (x : List ℂ) (hx : x.length = 3 ^ 19) (dir : Direction) :
    ∃ p, RadixPlan.make 3 19 = .ok p ∧ p.dif3 x dir = .error .overflow := by
  refine ⟨_, radixPlan_make_eq (by norm_num) 19, ?_⟩
  generalize hb : (19 : ℕ) = b at *
  have h0 : 3 ^ b < 2 ^ 31 := by rw [← hb]; norm_num
  unfold RadixPlan.dif3 RadixPlan.dif3G
  dsimp only
  rw [hx, intBound_eq h0, list_eq_vec 0 hx]
  exact radix_call_overflow (by norm_num) (by omega) h0 (by rw [← hb]; norm_num) dir _
    (fun s _ => dif3_butterfly dir) _

/-- Outside the property: at order 13 the radix-5 plan overflows an `int` after its last stage. -/
theorem C17_radix5_order_13_overflow (x : List ℂ) (hx : x.length = 5 ^ 13) (dir : Direction) :
    ∃ p, RadixPlan.make 5 13 = .ok p ∧ p.dif5 x dir = .error .overflow := by
  refine ⟨_, radixPlan_make_eq (by norm_num) 13, ?_⟩
  generalize hb : (13 : ℕ) = b at *
  have h0 : 5 ^ b < 2 ^ 31 := by rw [← hb]; norm_num
  unfold RadixPlan.dif5 RadixPlan.dif5G
  dsimp only
  rw [hx, intBound_eq h0, list_eq_vec 0 hx]
  exact radix_call_overflow (by norm_num) (by omega) h0 (by rw [← hb]; norm_num) dir _
    (fun s _ => dif5_butterfly dir) _

/-- The hypotheses are met: `(1, 0, 0)` at order 1 has the flat spectrum. -/
example : ∃ (p : RadixPlan) (y : List ℂ), RadixPlan.make 3 1 = .ok p ∧
    p.dif3 [1, 0, 0] .forward = .ok y ∧ y[2]? = some (1 : ℂ) := by
  obtain ⟨p, hp, h⟩ := C17_radix3 1 (by norm_num)
  obtain ⟨⟨y, e, -, hv⟩, -⟩ := h [1, 0, 0] rfl
  refine ⟨p, y, hp, e, ?_⟩
  rw [hv 2 (by norm_num)]
  simp [Spec.dft, sum_range_succ]

end Neo.Props
