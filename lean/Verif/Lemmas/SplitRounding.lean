import Verif.Model.SplitRounding
import Verif.Lemmas.UpcRounding
import Verif.Lemmas.UpcRel
import Verif.Lemmas.SplitFft

/-! # Split-complex and sparse code in rounded arithmetic -/

namespace Neo

open Finset

variable {F : Rounding}

instance : LawfulParts (FR F) (FC F) where
  mk_re_im _ := rfl
  re_zero := rfl
  im_zero := rfl
  re_mac a x y := by
    show FR.mk (F.rnd (a.re + (x * y).re)) = FR.mk (F.rnd ((x * y).re + a.re))
    rw [add_comm]
  im_mac a x y := by
    show FR.mk (F.rnd (a.im + (x * y).im)) = FR.mk (F.rnd ((x * y).im + a.im))
    rw [add_comm]

instance : SplitArith (FR F) (FC F) :=
  ⟨fun _ _ => rfl, fun _ _ => rfl, fun _ _ => rfl, fun _ _ => rfl, fun _ _ => rfl, fun _ _ => rfl⟩

theorem olaF_param : OverlapParam (olaOpsF F) := by
  intro σ₁ σ₂ R o block cb₁ cb₂ s₁ s₂ hR hcb
  simp only [olaOpsF]
  unfold OverlapAddF.call
  simp only []
  repeat' (apply resRel_bind_same; intro _)
  apply resRel_bind (hcb _ _ _ hR)
  intro sp t₁ t₂ hR
  simp only []
  repeat' (apply resRel_bind_same; intro _)
  exact ⟨rfl, rfl, hR⟩

theorem olsF_param : OverlapParam (olsOpsF F) := by
  intro σ₁ σ₂ R o block cb₁ cb₂ s₁ s₂ hR hcb
  simp only [olsOpsF]
  unfold OverlapSaveF.call
  simp only []
  repeat' (apply resRel_bind_same; intro _)
  apply resRel_bind (hcb _ _ _ hR)
  intro sp t₁ t₂ hR
  simp only []
  repeat' (apply resRel_bind_same; intro _)
  exact ⟨rfl, rfl, hR⟩

theorem rnd_zero (F : Rounding) : F.rnd 0 = 0 := by
  have := F.rnd_err 0
  rw [abs_zero, mul_zero, sub_zero] at this
  exact abs_eq_zero.1 (le_antisymm this (abs_nonneg _))

/-- Both parts are numbers of the format. -/
def FC.Rep (z : FC F) : Prop := F.rnd z.re = z.re ∧ F.rnd z.im = z.im

theorem FC.rep_zero : FC.Rep (0 : FC F) := ⟨rnd_zero F, rnd_zero F⟩

theorem FC.rep_add (hidem : ∀ x, F.rnd (F.rnd x) = F.rnd x) (a b : FC F) : FC.Rep (a + b) := ⟨hidem _, hidem _⟩

theorem FC.add_mul_zero {a : FC F} (ha : FC.Rep a) (x : FC F) : a + x * 0 = a := by
  have hx : x * 0 = 0 := by
    show FC.mk (F.rnd (F.rnd (x.re * 0) - F.rnd (x.im * 0))) (F.rnd (F.rnd (x.re * 0) + F.rnd (x.im * 0))) = FC.mk 0 0
    simp only [mul_zero, rnd_zero, sub_zero, add_zero]
  rw [hx]
  show FC.mk (F.rnd (a.re + 0)) (F.rnd (a.im + 0)) = a
  rw [add_zero, add_zero, ha.1, ha.2]

theorem sparseFilterF_law (hidem : ∀ x, F.rnd (F.rnd x) = F.rnd x) {v : MatView} {data : List (FC F)}
    (hv : v.InRange data.length) (f0 : Csr (FC F)) (p : ℕ → ℕ → FC F → Bool) {H : ℕ → ℕ → FC F}
    (hH : ∀ r < v.rows, ∀ c < v.cols, sparsified p (matAt v data) r c = H r c) :
    ∃ filt, sparseFilterOps.load f0 v data p = .ok filt ∧
      FilterLaw sparseFilterOps v.rows v.cols (fun row f => row = vec v.cols f)
        (fun acc a => acc = vec v.cols a ∧ ∀ k < v.cols, FC.Rep (a k)) filt H := by
  obtain ⟨d, e, hd⟩ := copyMat_right hv
  obtain ⟨M, eM, -⟩ := CsrRep.ofDense v.rows v.cols
    (fun r c => (vec (v.rows * v.cols) d).getD (r * v.cols + c) 0) p
  refine ⟨M, ?_, ?_, ?_, ?_, ?_⟩
  · simp only [sparseFilterOps]
    rw [e, bind_ok, eM]
  · rintro _ f j _ a rfl hj ⟨rfl, ha⟩
    refine ⟨_, ?_, rfl, fun k _ => FC.rep_add hidem _ _⟩
    simp only [sparseFilterOps]
    rw [ofDense_macc_gen _ _ _ _ eM hj]
    congr 1
    apply vec_ext
    intro k hk
    have : j * v.cols + k < v.rows * v.cols := by
      have := row_end (C := v.cols) hj
      omega
    rw [getD_vec _ _ _ _ this, hd j hj k hk, ← hH j hj k hk, sparsified]
    split
    · exact add_comm _ _
    · exact (FC.add_mul_zero (ha k hk) _).symm
  · exact ⟨rfl, fun _ _ => FC.rep_zero⟩
  · rintro _ a ⟨rfl, -⟩
    exact ⟨_, fillVec_vec _ _, rfl, fun _ _ => FC.rep_zero⟩
  · rintro _ a g ⟨rfl, -⟩
    exact copyVec_vec _ _

/-! ## The split transform -/

/-- The plan of order `b`. -/
noncomputable def splitPlanFOf (F : Rounding) (b : ℕ) : SplitFftPlan (FR F) :=
  { order := b
    reorder := vec (2 ^ b) (digitRev 2 b)
    twRe := (planesOf (makeTwiddleLutRadix2F F (2 ^ b) .forward)).1
    twIm := (planesOf (makeTwiddleLutRadix2F F (2 ^ b) .forward)).2 }

theorem splitPlan_makeF_eq (F : Rounding) (b : ℕ) : SplitFftPlan.makeF F b = .ok (splitPlanFOf F b) := by
  unfold SplitFftPlan.makeF
  rw [show 1 <<< b = 2 ^ b by rw [Nat.shiftLeft_eq, one_mul], bitrevMake_eq, bind_ok, fftSize_eq]
  dsimp only
  unfold splitPlanFOf
  generalize makeTwiddleLutRadix2F F (2 ^ b) .forward = tw
  obtain ⟨n, f, rfl⟩ : ∃ n f, tw = vec n f := ⟨_, _, eq_vec_getD tw 0⟩
  rw [length_vec, copyToSplit_parts, bind_ok, pure_eq_ok, planesOf_vec]

theorem splitF_wrong {b : ℕ} (x : List (FR F) × List (FR F)) (dir : Direction)
    (h : ¬ (x.1.length = 2 ^ b ∧ x.2.length = 2 ^ b)) :
    (splitPlanFOf F b).call x dir = .error .assertion := by
  unfold SplitFftPlan.call
  have hs : (splitPlanFOf F b).size = 2 ^ b := fftSize_eq b
  rw [hs]
  by_cases h1 : x.1.length = 2 ^ b
  · have h2 : ¬ (x.1.length = x.2.length) := fun e => h ⟨h1, by omega⟩
    simp only [h1, decide_true, check_true, bind_ok]
    rw [h1] at h2
    simp only [h2, decide_false]
    rfl
  · simp only [h1, decide_false]
    rfl

/-- Forward: the interleaved plan on the planes; backward: the forward transform of the exchanged planes. -/
theorem splitF_call {b : ℕ} (h2 : b ≤ 30) (x : ℕ → FC F) :
    (splitPlanFOf F b).call (planesOf (vec (2 ^ b) x)) .forward
      = ((dit2PlanFOf F b).call (vec (2 ^ b) x) .forward).map planesOf := by
  unfold SplitFftPlan.call Dit2Plan.call Dit2Plan.callWith
  have hs : (splitPlanFOf F b).size = 2 ^ b := fftSize_eq b
  have hr : (splitPlanFOf F b).reorder = vec (2 ^ b) (digitRev 2 b) := rfl
  have ho : (splitPlanFOf F b).order = b := rfl
  have hs' : (dit2PlanFOf F b).size = 2 ^ b := rfl
  have hr' : (dit2PlanFOf F b).reorder = vec (2 ^ b) (digitRev 2 b) := rfl
  rw [planesOf_vec]
  simp only [length_vec, hs, hr, ho, hs', hr', decide_true, check_true, bind_ok, bitrevApply_digitRev]
  rw [bitrevApplySplit_vec (fun i _ => digitRev_lt (by norm_num) b i)
        (fun _ hi => digitRev_invol (by norm_num) hi), bind_ok]
  rw [if_pos trivial, if_pos trivial]
  have e := splitStage0_planes h2 (makeTwiddleLutRadix2F F (2 ^ b) .forward)
    (vec (2 ^ b) (fun i => x (digitRev 2 b i))) (length_vec _ _)
  rw [planesOf_vec (2 ^ b)] at e
  exact e

theorem splitF_backward {b : ℕ} (re im : List (FR F)) (hr : re.length = 2 ^ b) (hi : im.length = 2 ^ b) :
    (splitPlanFOf F b).call (re, im) .backward
      = ((splitPlanFOf F b).call (im, re) .forward).map Prod.swap := by
  obtain ⟨f, rfl⟩ : ∃ f, re = vec (2 ^ b) f := ⟨_, list_eq_vec 0 hr⟩
  obtain ⟨g, rfl⟩ : ∃ f, im = vec (2 ^ b) f := ⟨_, list_eq_vec 0 hi⟩
  unfold SplitFftPlan.call
  have hs : (splitPlanFOf F b).size = 2 ^ b := fftSize_eq b
  have hr : (splitPlanFOf F b).reorder = vec (2 ^ b) (digitRev 2 b) := rfl
  simp only [length_vec, hs, hr, decide_true, check_true, bind_ok]
  rw [bitrevApplySplit_vec (fun i _ => digitRev_lt (by norm_num) b i)
        (fun _ hi => digitRev_invol (by norm_num) hi), bind_ok,
      bitrevApplySplit_vec (fun i _ => digitRev_lt (by norm_num) b i)
        (fun _ hi => digitRev_invol (by norm_num) hi), bind_ok]
  rw [if_neg (by simp), if_pos trivial]
  simp only []
  cases splitStage0 (splitPlanFOf F b).order (splitPlanFOf F b).twRe (splitPlanFOf F b).twIm
      (vec (2 ^ b) fun i => g (digitRev 2 b i), vec (2 ^ b) fun i => f (digitRev 2 b i)) <;> rfl

/-! ## Formats symmetric about zero -/

/-- Rounding and the library functions treat `x` and `-x` alike. -/
structure Rounding.Symmetric (F : Rounding) : Prop where
  rnd_neg : ∀ x, F.rnd (-x) = -F.rnd x
  cos_neg : ∀ x, F.cos (-x) = F.cos x
  sin_neg : ∀ x, F.sin (-x) = -F.sin x

/-- Exchanged parts. -/
def FC.swap (z : FC F) : FC F := ⟨z.im, z.re⟩

theorem twiddleF_conj (hF : F.Symmetric) (N i : ℕ) :
    twiddleF F N i .forward = ⟨(twiddleF F N i .backward).re, -(twiddleF F N i .backward).im⟩ := by
  unfold twiddleF
  simp only [if_true, reduceCtorEq, if_false, one_mul, neg_mul, hF.rnd_neg, neg_div, hF.cos_neg, hF.sin_neg]

theorem FC.swap_add (a b : FC F) : (a + b).swap = a.swap + b.swap := rfl

theorem FC.swap_sub (a b : FC F) : (a - b).swap = a.swap - b.swap := rfl

theorem FC.swap_mul (hF : F.Symmetric) (w z : FC F) : (w * z).swap = ⟨w.re, -w.im⟩ * z.swap := by
  show FC.mk (F.rnd (F.rnd (w.re * z.im) + F.rnd (w.im * z.re))) (F.rnd (F.rnd (w.re * z.re) - F.rnd (w.im * z.im)))
    = FC.mk (F.rnd (F.rnd (w.re * z.im) - F.rnd (-w.im * z.re))) (F.rnd (F.rnd (w.re * z.re) + F.rnd (-w.im * z.im)))
  rw [neg_mul, neg_mul, hF.rnd_neg, hF.rnd_neg, sub_neg_eq_add, sub_eq_add_neg]

theorem ditRun_swap (hF : F.Symmetric) (b : ℕ) (N : ℕ) (f : ℕ → FC F) (s n : ℕ) :
    ditRun b (fun i => twiddleF F N i .forward) (fun i => (f i).swap) s n
      = (ditRun b (fun i => twiddleF F N i .backward) f s n).swap := by
  induction s generalizing n with
  | zero => rfl
  | succ s ih =>
    unfold ditRun
    by_cases hs : s = 0
    · rw [if_pos hs, if_pos hs]
      unfold pairStage
      split <;> rfl
    · rw [if_neg hs, if_neg hs]
      unfold pairStage
      split
      · rw [ih, ih, FC.swap_add, FC.swap_mul hF, ← twiddleF_conj hF]
      · rw [ih, ih, FC.swap_sub, FC.swap_mul hF, ← twiddleF_conj hF]

/-- In a symmetric format the backward transform is that of the interleaved plan. -/
theorem splitF_call_backward (hF : F.Symmetric) {b : ℕ} (h1 : 1 ≤ b) (h2 : b ≤ 30) (x : ℕ → FC F) :
    (splitPlanFOf F b).call (planesOf (vec (2 ^ b) x)) .backward
      = ((dit2PlanFOf F b).call (vec (2 ^ b) x) .backward).map planesOf := by
  rw [planesOf_vec, splitF_backward _ _ (length_vec _ _) (length_vec _ _)]
  have e := splitF_call h2 (fun i => (x i).swap)
  rw [planesOf_vec] at e
  refine (congrArg (Except.map Prod.swap) e).trans ?_
  unfold Dit2Plan.call Dit2Plan.callWith
  have hs' : (dit2PlanFOf F b).size = 2 ^ b := rfl
  have hr' : (dit2PlanFOf F b).reorder = vec (2 ^ b) (digitRev 2 b) := rfl
  have hf : (dit2PlanFOf F b).wf = vec (2 ^ (b - 1)) (fun i => twiddleF F (2 ^ b) i .forward) :=
    makeTwiddleLutRadix2F_eq F h1 .forward
  have hb : (dit2PlanFOf F b).wb = vec (2 ^ (b - 1)) (fun i => twiddleF F (2 ^ b) i .backward) :=
    makeTwiddleLutRadix2F_eq F h1 .backward
  simp only [length_vec, hs', hr', decide_true, check_true, bind_ok, bitrevApply_digitRev, hf, hb]
  rw [if_pos trivial, if_neg (by simp), dit2V3_run h1, dit2V3_run h1]
  show Except.ok (planesOf _).swap = Except.ok (planesOf _)
  rw [planesOf_vec, planesOf_vec]
  congr 1
  refine Prod.ext ?_ ?_
  · exact vec_ext fun n _ => by rw [ditRun_swap hF]; rfl
  · exact vec_ext fun n _ => by rw [ditRun_swap hF]; rfl

end Neo
