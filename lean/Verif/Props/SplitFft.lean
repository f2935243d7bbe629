import Verif.Lemmas.SplitFft
import Verif.Lemmas.Out

/-! # Properties of the split-complex FFT plan: C13 -/

namespace Neo.Props

open Finset

/-- The complex signal whose real and imaginary parts are the two buffers. -/
def signalOf (re im : List ℝ) (n : ℕ) : ℂ := ⟨re.getD n 0, im.getD n 0⟩

/-- **C13**: for every order `1 ≤ order ≤ 30`, the plan exists and transforms the two buffers into the
real and imaginary parts of the DFT (forward) and of the unnormalised inverse DFT (backward) of the
complex signal they represent. -/
theorem C13_split (order : ℕ) (h1 : 1 ≤ order) (h2 : order ≤ 30) :
    ∃ p, SplitFftPlan.make order = .ok p ∧
    ∀ re im : List ℝ, re.length = 2 ^ order → im.length = 2 ^ order →
      (∃ re' im', p.call (re, im) .forward = .ok (re', im') ∧
        re'.length = 2 ^ order ∧ im'.length = 2 ^ order ∧ ∀ k < 2 ^ order,
          re'[k]? = some (Spec.dft (2 ^ order) (signalOf re im) k).re ∧
          im'[k]? = some (Spec.dft (2 ^ order) (signalOf re im) k).im) ∧
      (∃ re' im', p.call (re, im) .backward = .ok (re', im') ∧
        re'.length = 2 ^ order ∧ im'.length = 2 ^ order ∧ ∀ k < 2 ^ order,
          re'[k]? = some (Spec.idft (2 ^ order) (signalOf re im) k).re ∧
          im'[k]? = some (Spec.idft (2 ^ order) (signalOf re im) k).im) := by
  refine ⟨_, splitPlan_make_eq order, ?_⟩
  intro re im hre him
  have ef := split_call_vec h1 h2 (fun i => re.getD i 0) (fun i => im.getD i 0) .forward
  have eb := split_call_vec h1 h2 (fun i => re.getD i 0) (fun i => im.getD i 0) .backward
  rw [← list_eq_vec 0 hre, ← list_eq_vec 0 him] at ef eb
  refine ⟨⟨_, _, ef, by simp, by simp, fun k hk => ?_⟩, ⟨_, _, eb, by simp, by simp, fun k hk => ?_⟩⟩
  · rw [getElem?_vec, if_pos hk, getElem?_vec, if_pos hk]; exact ⟨rfl, rfl⟩
  · rw [getElem?_vec, if_pos hk, getElem?_vec, if_pos hk]; exact ⟨rfl, rfl⟩

/-- **C13**: on the same data the split plan and the interleaved plan compute the same transform, in
both directions. -/
theorem C13_equals_interleaved (order : ℕ) (h1 : 1 ≤ order) (h2 : order ≤ 27) (x : List ℂ)
    (hx : x.length = 2 ^ order) (dir : Direction) :
    ∃ ps pi y, SplitFftPlan.make order = .ok ps ∧ Dit2Plan.make order = .ok pi ∧
      pi.call x dir = .ok y ∧
      ps.call (x.map Complex.re, x.map Complex.im) dir
        = .ok (y.map Complex.re, y.map Complex.im) := by
  have ei := dit2_call h1 (fun i => x.getD i 0) dir
  rw [← list_eq_vec 0 hx] at ei
  refine ⟨_, _, _, splitPlan_make_eq order, dit2Plan_make_eq h2, ei, ?_⟩
  have es := split_call_vec h1 (by omega) (fun i => (x.getD i 0).re) (fun i => (x.getD i 0).im) dir
  rw [← map_vec (g := Complex.re), ← map_vec (g := Complex.im), ← list_eq_vec 0 hx] at es
  rw [es, map_vec, map_vec]
  rfl

/-- **C13**: the out-of-place call gives the same result as the in-place call on a copy, whatever the
output buffers held. -/
theorem C13_out_of_place (order : ℕ) (h2 : order ≤ 30) (p : SplitFftPlan)
    (hp : SplitFftPlan.make order = .ok p) (re im re0 im0 : List ℝ) (hre : re.length = 2 ^ order)
    (him : im.length = 2 ^ order) (hre0 : re0.length = 2 ^ order) (him0 : im0.length = 2 ^ order)
    (dir : Direction) : p.callOut (re, im) (re0, im0) dir = p.call (re, im) dir := by
  rw [splitPlan_make_eq] at hp
  injection hp with hp
  subst hp
  have hs : (splitPlanOf order).size = 2 ^ order := by
    simp [SplitFftPlan.size, splitPlanOf, fftSize, ipow, Nat.shiftLeft_eq]
  unfold SplitFftPlan.callOut
  simp only [hre, him, hre0, him0, hs, and_self, decide_true, check_true, bind_ok]
  rw [copyVec_eq (by omega), bind_ok, copyVec_eq (by omega), bind_ok]

/-- Order 31 for a symbolic order, so that nothing has to compute with `2 ^ 31`. -/
private theorem order_31 {b : ℕ} (hb : b = 31) (re im : List ℝ) (hre : re.length = 2 ^ b)
    (him : im.length = 2 ^ b) :
    (splitPlanOf b).call (re, im) .forward = .ok (vec (2 ^ b) (fun i => re.getD (digitRev 2 b i) 0),
      vec (2 ^ b) (fun i => im.getD (digitRev 2 b i) 0)) := by
  have hs : (splitPlanOf b).size = 2 ^ b := by
    simp [SplitFftPlan.size, splitPlanOf, fftSize, ipow, Nat.shiftLeft_eq]
  have hr : (splitPlanOf b).reorder = vec (2 ^ b) (digitRev 2 b) := rfl
  have ho : (splitPlanOf b).order = b := rfl
  have hlt : ∀ i < 2 ^ b, digitRev 2 b i < 2 ^ b := fun i _ => digitRev_lt (by norm_num) b i
  have hinv : ∀ i < 2 ^ b, digitRev 2 b (digitRev 2 b i) = i :=
    fun _ hi => digitRev_invol (by norm_num) hi
  unfold SplitFftPlan.call
  rw [hs, hr, ho]
  simp only [hre, him, decide_true, check_true, bind_ok]
  conv_lhs => rw [list_eq_vec 0 hre, list_eq_vec 0 him]
  rw [bitrevApplySplit_vec hlt hinv, bind_ok, if_pos trivial]
  have hz : ∀ (st : ℕ) (body : ℕ → List ℝ × List ℝ → Res (List ℝ × List ℝ)) (x : List ℝ × List ℝ),
      0 < st → forStep 0 st body x = .ok x := by
    intro st body x h
    unfold forStep
    rw [show (0 + st - 1) / st = 0 from Nat.div_eq_of_lt (by omega), forN_zero]
  unfold splitStage0
  dsimp only
  rw [if_pos (by omega), hz _ _ _ (by norm_num), bind_ok]
  unfold splitStageN
  rw [if_neg (by omega), if_pos hb]
  apply forR_eq' (fun _ => _) (by omega) rfl rfl
  intro i hi1 hi2
  dsimp only
  rw [hz _ _ _ (by simp [ipow, Nat.shiftLeft_eq])]

/-- Outside the property: at order 31 the `int` loop bound becomes negative, no butterfly is executed
and the call only permutes the buffers. -/
theorem C13_order_31_no_transform (p : SplitFftPlan) (hp : SplitFftPlan.make 31 = .ok p)
    (re im : List ℝ) (hre : re.length = 2 ^ 31) (him : im.length = 2 ^ 31) :
    ∃ re' im', p.call (re, im) .forward = .ok (re', im') ∧ re'.Perm re ∧ im'.Perm im := by
  rw [splitPlan_make_eq] at hp
  injection hp with hp
  subst hp
  generalize hb : (31 : ℕ) = b at *
  have hlt : ∀ i < 2 ^ b, digitRev 2 b i < 2 ^ b := fun i _ => digitRev_lt (by norm_num) b i
  have hinv : ∀ i < 2 ^ b, digitRev 2 b (digitRev 2 b i) = i :=
    fun _ hi => digitRev_invol (by norm_num) hi
  refine ⟨_, _, order_31 hb.symm re im hre him, ?_, ?_⟩
  · have := perm_vec_comp hlt hinv (fun i => re.getD i 0)
    rwa [← list_eq_vec 0 hre] at this
  · have := perm_vec_comp hlt hinv (fun i => im.getD i 0)
    rwa [← list_eq_vec 0 him] at this

/-- Outside the property: at order 0 the first butterfly accesses element 1 of a one-element buffer. -/
theorem C13_order_zero_out_of_bounds (p : SplitFftPlan) (hp : SplitFftPlan.make 0 = .ok p) (a b : ℝ)
    (dir : Direction) : p.call ([a], [b]) dir = .error .oob := by
  rw [splitPlan_make_eq] at hp
  injection hp with hp
  subst hp
  have hs : (splitPlanOf 0).size = 1 := by
    simp [SplitFftPlan.size, splitPlanOf, fftSize, ipow]
  have hr : (splitPlanOf 0).reorder = vec (2 ^ 0) (digitRev 2 0) := rfl
  have e := bitrevApplySplit_vec (n := 2 ^ 0) (fun i _ => digitRev_lt (by norm_num : 0 < 2) 0 i)
    (fun _ hi => digitRev_invol (by norm_num) hi) (fun _ => a) (fun _ => b)
  have ho : (splitPlanOf 0).order = 0 := rfl
  have hv : ∀ c : ℝ, vec (2 ^ 0) (fun _ => c) = [c] := fun c => rfl
  rw [hv, hv] at e
  unfold SplitFftPlan.call
  rw [hs, hr, ho]
  simp only [List.length_cons, List.length_nil, zero_add, decide_true, check_true, bind_ok]
  rw [e, bind_ok]
  cases dir with
  | forward => rfl
  | backward => rfl

/-- **C04** is false of the split-complex plan too: it can be built for order 0, and every call with
one-element buffers is out of bounds. -/
theorem C04_split_out_of_bounds (a b : ℝ) (dir : Direction) :
    ∃ p, SplitFftPlan.make 0 = .ok p ∧ p.call ([a], [b]) dir = .error .oob := by
  have hp : SplitFftPlan.make 0 = .ok (splitPlanOf 0) := splitPlan_make_eq 0
  exact ⟨_, hp, C13_order_zero_out_of_bounds _ hp a b dir⟩

/-- The hypotheses are met: order 1, buffers `(3, 1)` and `(0, 2)`. -/
example : ∃ (p : SplitFftPlan) (re' im' : List ℝ), SplitFftPlan.make 1 = .ok p ∧ p.call ([3, 1], [0, 2]) .forward = .ok (re', im') ∧
    re'[1]? = some (2 : ℝ) ∧ im'[1]? = some (-2 : ℝ) := by
  obtain ⟨p, hp, h⟩ := C13_split 1 le_rfl (by norm_num)
  obtain ⟨⟨re', im', e, -, -, hv⟩, -⟩ := h [3, 1] [0, 2] rfl rfl
  refine ⟨p, re', im', hp, e, ?_, ?_⟩
  · rw [(hv 1 (by norm_num)).1, ← dftRoot_forward]
    have : root 2 .forward = -1 := by simpa using root_half one_ne_zero .forward
    simp [Spec.dftRoot, sum_range_succ, this, signalOf]
    norm_num
  · rw [(hv 1 (by norm_num)).2, ← dftRoot_forward]
    have : root 2 .forward = -1 := by simpa using root_half one_ne_zero .forward
    simp [Spec.dftRoot, sum_range_succ, this, signalOf]

end Neo.Props
