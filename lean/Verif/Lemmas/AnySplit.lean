import Verif.Lemmas.AnySparse
import Verif.Lemmas.UpcRel
import Verif.Lemmas.SplitFft

/-! # Split-complex code over any arithmetic -/

namespace Neo

section any
variable {R C : Type} [Zero R] [Add R] [Mul R] [Zero C] [AddCommMagma C] [Sub C] [Mul C]

theorem olaG_param (A : Arith R C) : OverlapParam (olaOpsG A) := by
  intro σ₁ σ₂ R o block cb₁ cb₂ s₁ s₂ hR hcb
  simp only [olaOpsG]
  unfold OverlapAddG.call
  simp only []
  repeat' (apply resRel_bind_same; intro _)
  apply resRel_bind (hcb _ _ _ hR)
  intro sp t₁ t₂ hR
  simp only []
  repeat' (apply resRel_bind_same; intro _)
  exact ⟨rfl, rfl, hR⟩

theorem olsG_param (A : Arith R C) : OverlapParam (olsOpsG A) := by
  intro σ₁ σ₂ R o block cb₁ cb₂ s₁ s₂ hR hcb
  simp only [olsOpsG]
  unfold OverlapSaveG.call
  simp only []
  repeat' (apply resRel_bind_same; intro _)
  apply resRel_bind (hcb _ _ _ hR)
  intro sp t₁ t₂ hR
  simp only []
  repeat' (apply resRel_bind_same; intro _)
  exact ⟨rfl, rfl, hR⟩

variable [Sub R] [CplxParts R C]

/-- The plan of order `b`. -/
def splitPlanGOf (A : Arith R C) (b : ℕ) : SplitFftPlan R :=
  { order := b
    reorder := vec (2 ^ b) (digitRev 2 b)
    twRe := (planesOf (makeTwiddleLutRadix2G A (2 ^ b) .forward)).1
    twIm := (planesOf (makeTwiddleLutRadix2G A (2 ^ b) .forward)).2 }

theorem splitPlan_makeG_eq (A : Arith R C) (b : ℕ) : SplitFftPlan.makeG A b = .ok (splitPlanGOf A b) := by
  unfold SplitFftPlan.makeG
  rw [show 1 <<< b = 2 ^ b by rw [Nat.shiftLeft_eq, one_mul], bitrevMake_eq, bind_ok, fftSize_eq]
  dsimp only
  unfold splitPlanGOf
  generalize makeTwiddleLutRadix2G A (2 ^ b) .forward = tw
  obtain ⟨n, f, rfl⟩ : ∃ n f, tw = vec n f := ⟨_, _, eq_vec_getD tw 0⟩
  rw [length_vec, copyToSplit_parts, bind_ok, pure_eq_ok, planesOf_vec]

theorem splitG_wrong (A : Arith R C) {b : ℕ} (x : List R × List R) (dir : Direction)
    (h : ¬ (x.1.length = 2 ^ b ∧ x.2.length = 2 ^ b)) :
    (splitPlanGOf A b).call x dir = .error .assertion := by
  unfold SplitFftPlan.call
  have hs : (splitPlanGOf A b).size = 2 ^ b := fftSize_eq b
  rw [hs]
  by_cases h1 : x.1.length = 2 ^ b
  · have h2 : ¬ (x.1.length = x.2.length) := fun e => h ⟨h1, by omega⟩
    simp only [h1, decide_true, check_true, bind_ok]
    rw [h1] at h2
    simp only [h2, decide_false]
    rfl
  · simp only [h1, decide_false]
    rfl

theorem splitG_call [SplitArith R C] (A : Arith R C) {b : ℕ} (h2 : b ≤ 30) (x : ℕ → C) :
    (splitPlanGOf A b).call (planesOf (vec (2 ^ b) x)) .forward
      = ((dit2PlanGOf A b).call (vec (2 ^ b) x) .forward).map planesOf := by
  unfold SplitFftPlan.call Dit2Plan.call Dit2Plan.callWith
  have hs : (splitPlanGOf A b).size = 2 ^ b := fftSize_eq b
  have hr : (splitPlanGOf A b).reorder = vec (2 ^ b) (digitRev 2 b) := rfl
  have ho : (splitPlanGOf A b).order = b := rfl
  have hs' : (dit2PlanGOf A b).size = 2 ^ b := rfl
  have hr' : (dit2PlanGOf A b).reorder = vec (2 ^ b) (digitRev 2 b) := rfl
  rw [planesOf_vec]
  simp only [length_vec, hs, hr, ho, hs', hr', decide_true, check_true, bind_ok, bitrevApply_digitRev]
  rw [bitrevApplySplit_vec (fun i _ => digitRev_lt (by norm_num) b i)
        (fun _ hi => digitRev_invol (by norm_num) hi), bind_ok]
  rw [if_pos trivial, if_pos trivial]
  have e := splitStage0_planes h2 (makeTwiddleLutRadix2G A (2 ^ b) .forward)
    (vec (2 ^ b) (fun i => x (digitRev 2 b i))) (length_vec _ _)
  rw [planesOf_vec (2 ^ b)] at e
  exact e

theorem splitG_backward (A : Arith R C) {b : ℕ} (re im : List R) (hr : re.length = 2 ^ b) (hi : im.length = 2 ^ b) :
    (splitPlanGOf A b).call (re, im) .backward
      = ((splitPlanGOf A b).call (im, re) .forward).map Prod.swap := by
  obtain ⟨f, rfl⟩ : ∃ f, re = vec (2 ^ b) f := ⟨_, list_eq_vec 0 hr⟩
  obtain ⟨g, rfl⟩ : ∃ f, im = vec (2 ^ b) f := ⟨_, list_eq_vec 0 hi⟩
  unfold SplitFftPlan.call
  have hs : (splitPlanGOf A b).size = 2 ^ b := fftSize_eq b
  have hr : (splitPlanGOf A b).reorder = vec (2 ^ b) (digitRev 2 b) := rfl
  simp only [length_vec, hs, hr, decide_true, check_true, bind_ok]
  rw [bitrevApplySplit_vec (fun i _ => digitRev_lt (by norm_num) b i)
        (fun _ hi => digitRev_invol (by norm_num) hi), bind_ok,
      bitrevApplySplit_vec (fun i _ => digitRev_lt (by norm_num) b i)
        (fun _ hi => digitRev_invol (by norm_num) hi), bind_ok]
  rw [if_neg (by simp), if_pos trivial]
  simp only []
  cases splitStage0 (splitPlanGOf A b).order (splitPlanGOf A b).twRe (splitPlanGOf A b).twIm
      (vec (2 ^ b) fun i => g (digitRev 2 b i), vec (2 ^ b) fun i => f (digitRev 2 b i)) <;> rfl

end any

/-! ## IEEE arithmetic -/

open Spec

variable {f : Fmt}

theorem FVal.add_comm (a b : FVal) : a.add b = b.add a := by
  cases a <;> cases b <;> simp only [FVal.add] <;> try rfl
  · rw [_root_.add_comm]
  · rename_i s t
    by_cases h : s = t
    · subst h; rfl
    · rw [if_neg h, if_neg (Ne.symm h)]

instance : LawfulParts (IR f) (IC f) where
  mk_re_im _ := rfl
  re_zero := rfl
  im_zero := rfl
  re_mac a x y := by
    show IR.mk (f.round (a.re.add (x * y).re)) = IR.mk (f.round ((x * y).re.add a.re))
    rw [FVal.add_comm]
  im_mac a x y := by
    show IR.mk (f.round (a.im.add (x * y).im)) = IR.mk (f.round ((x * y).im.add a.im))
    rw [FVal.add_comm]

instance : SplitArith (IR f) (IC f) :=
  ⟨fun _ _ => rfl, fun _ _ => rfl, fun _ _ => rfl, fun _ _ => rfl, fun _ _ => rfl, fun _ _ => rfl⟩

theorem FVal.neg_neg (a : FVal) : a.neg.neg = a := by
  cases a <;> simp [FVal.neg]

theorem FVal.neg_mul (a b : FVal) : a.neg.mul b = (a.mul b).neg := by
  cases a with
  | nan => cases b <;> rfl
  | inf s =>
    cases b with
    | nan => rfl
    | inf t => cases s <;> cases t <;> rfl
    | fin y =>
      simp only [FVal.neg, FVal.mul]
      split
      · rfl
      · simp only [FVal.neg]
        cases s <;> cases decide (y < 0) <;> rfl
  | fin x =>
    cases b with
    | nan => rfl
    | fin y => simp only [FVal.neg, FVal.mul, _root_.neg_mul]
    | inf t =>
      simp only [FVal.neg, FVal.mul, neg_eq_zero]
      by_cases h : x = 0
      · rw [if_pos h, if_pos h]
      · rw [if_neg h, if_neg h]
        simp only [FVal.neg]
        by_cases h2 : x < 0
        · have : ¬ (-x < 0) := by linarith
          simp [h2, this]
        · have : -x < 0 := by
            have : 0 < x := lt_of_le_of_ne (not_lt.1 h2) (Ne.symm h)
            linarith
          simp [h2, this]

/-- Rounding treats `x` and `-x` alike. -/
theorem Fmt.round_neg (a : FVal) : f.round a.neg = (f.round a).neg := by
  cases a with
  | nan => rfl
  | inf s => rfl
  | fin x =>
    simp only [FVal.neg, Fmt.round, rndInf_neg, abs_neg]
    split
    · rfl
    · rename_i h
      have h0 : f.rndInf x ≠ 0 := by
        intro e
        rw [e, abs_zero] at h
        exact h (by positivity)
      simp only [FVal.neg]
      congr 1
      rcases lt_or_gt_of_ne h0 with h1 | h1
      · have : ¬ (-f.rndInf x < 0) := by linarith
        simp [h1, this]
      · have h2 : -f.rndInf x < 0 := by linarith
        have h3 : ¬ (f.rndInf x < 0) := by linarith
        simp [h2, h3]

/-- Exchanged parts. -/
def IC.swap (z : IC f) : IC f := ⟨z.im, z.re⟩

theorem IC.swap_add (a b : IC f) : (a + b).swap = a.swap + b.swap := rfl

theorem IC.swap_sub (a b : IC f) : (a - b).swap = a.swap - b.swap := rfl

theorem IC.swap_mul (w z : IC f) : (w * z).swap = ⟨w.re, w.im.neg⟩ * z.swap := by
  show IC.mk (f.round ((f.round (w.re.mul z.im)).add (f.round (w.im.mul z.re))))
      (f.round ((f.round (w.re.mul z.re)).sub (f.round (w.im.mul z.im))))
    = IC.mk (f.round ((f.round (w.re.mul z.im)).sub (f.round (w.im.neg.mul z.re))))
      (f.round ((f.round (w.re.mul z.re)).add (f.round (w.im.neg.mul z.im))))
  unfold FVal.sub
  rw [FVal.neg_mul, FVal.neg_mul, Fmt.round_neg, Fmt.round_neg, FVal.neg_neg]

/-- The backward entry is the conjugate of the forward entry. -/
def ConjTables (tw : ℕ → ℕ → Direction → IC f) : Prop :=
  ∀ n i, tw n i .forward = ⟨(tw n i .backward).re, (tw n i .backward).im.neg⟩

theorem ditRun_swapG {tw : ℕ → ℕ → Direction → IC f} (htw : ConjTables tw) (b N : ℕ) (x : ℕ → IC f) (s n : ℕ) :
    ditRun b (fun i => tw N i .forward) (fun i => (x i).swap) s n
      = (ditRun b (fun i => tw N i .backward) x s n).swap := by
  induction s generalizing n with
  | zero => rfl
  | succ s ih =>
    unfold ditRun
    by_cases hs : s = 0
    · rw [if_pos hs, if_pos hs]
      unfold pairStage
      split <;> rfl
    · rw [if_neg hs, if_neg hs]
      unfold pairStage
      split
      · rw [ih, ih, IC.swap_add, IC.swap_mul, ← htw]
      · rw [ih, ih, IC.swap_sub, IC.swap_mul, ← htw]

theorem splitG_call_backward {tw : ℕ → ℕ → Direction → IC f} (htw : ConjTables tw) {b : ℕ} (h1 : 1 ≤ b) (h2 : b ≤ 30)
    (x : ℕ → IC f) :
    (splitPlanGOf (ieeeArith f tw) b).call (planesOf (vec (2 ^ b) x)) .backward
      = ((dit2PlanGOf (ieeeArith f tw) b).call (vec (2 ^ b) x) .backward).map planesOf := by
  rw [planesOf_vec, splitG_backward _ _ _ (length_vec _ _) (length_vec _ _)]
  have e := splitG_call (ieeeArith f tw) h2 (fun i => (x i).swap)
  rw [planesOf_vec] at e
  refine (congrArg (Except.map Prod.swap) e).trans ?_
  unfold Dit2Plan.call Dit2Plan.callWith
  have hs' : (dit2PlanGOf (ieeeArith f tw) b).size = 2 ^ b := rfl
  have hr' : (dit2PlanGOf (ieeeArith f tw) b).reorder = vec (2 ^ b) (digitRev 2 b) := rfl
  have hf : (dit2PlanGOf (ieeeArith f tw) b).wf = vec (2 ^ (b - 1)) (fun i => tw (2 ^ b) i .forward) :=
    makeTwiddleLutRadix2G_eq _ h1 .forward
  have hb : (dit2PlanGOf (ieeeArith f tw) b).wb = vec (2 ^ (b - 1)) (fun i => tw (2 ^ b) i .backward) :=
    makeTwiddleLutRadix2G_eq _ h1 .backward
  simp only [length_vec, hs', hr', decide_true, check_true, bind_ok, bitrevApply_digitRev, hf, hb]
  rw [if_pos trivial, if_neg (by simp), dit2V3_run h1, dit2V3_run h1]
  show Except.ok (planesOf _).swap = Except.ok (planesOf _)
  rw [planesOf_vec, planesOf_vec]
  congr 1
  refine Prod.ext ?_ ?_
  · exact vec_ext fun n _ => by rw [ditRun_swapG htw]; rfl
  · exact vec_ext fun n _ => by rw [ditRun_swapG htw]; rfl

end Neo
