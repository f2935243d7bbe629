import Verif.Lemmas.SimdFft
import Verif.Props.Fft
import Verif.Props.SplitFft

/-! # Properties of the FFT plans on SIMD batches: C77 -/

namespace Neo.Props

open Finset

/-- The kernels instantiated with batches. -/
def Kernel.runLanes (w : ℕ) : Kernel → List (Lanes w ℂ) → List (Lanes w ℂ) → Res (List (Lanes w ℂ))
  | .v1 => dit2V1
  | .v2 => dit2V2
  | .v3 => dit2V3
  | .v4 => dit2V4

/-- The signal carried by one lane. -/
def lane {w : ℕ} {T : Type} [Zero T] (x : List (Lanes w T)) (l : Fin w) (n : ℕ) : T := x.getD n 0 l

private theorem simd_size (w b : ℕ) : (simdPlanOf w b).size = 2 ^ b := by
  simp [SimdFftPlan.size, simdPlanOf, fftSize, ipow, Nat.shiftLeft_eq]

private theorem twLanes {b : ℕ} (hb : 1 ≤ b) (w : ℕ) :
    (makeTwiddleLutRadix2 (2 ^ b) .forward).map (broadcast w)
      = twVec b (broadcast w (root (2 ^ b) .forward)) := by
  rw [makeTwiddleLutRadix2_eq hb]
  unfold twVec
  rw [map_vec]
  exact vec_ext (fun i _ => rfl)

private theorem kernelLanes {w b : ℕ} (hb : 1 ≤ b) (k : Kernel) (hk : k = .v4 → 2 ≤ b)
    (X : ℕ → Lanes w ℂ) :
    k.runLanes w (vec (2 ^ b) (fun i => X (digitRev 2 b i)))
      ((makeTwiddleLutRadix2 (2 ^ b) .forward).map (broadcast w))
      = .ok (vec (2 ^ b) (fun k l => Spec.dft (2 ^ b) (fun n => X n l) k)) := by
  rw [twLanes hb]
  have h : (broadcast w (root (2 ^ b) .forward)) ^ 2 ^ (b - 1) = -1 := by
    funext l
    exact root_two_pow hb .forward
  have e : Spec.dftRoot (2 ^ b) (broadcast w (root (2 ^ b) .forward)) X
      = fun k l => Spec.dft (2 ^ b) (fun n => X n l) k := by
    funext k l
    have := dftRoot_dir (2 ^ b) .forward (fun n => X n l) k
    rw [← show specDft .forward (2 ^ b) (fun n => X n l) k = Spec.dft (2 ^ b) (fun n => X n l) k from rfl,
      ← this]
    simp [Spec.dftRoot, Finset.sum_apply, broadcast]
  rw [← e]
  cases k
  · exact dit2V1_vec hb h X
  · exact dit2V2_vec hb h X
  · exact dit2V3_vec hb h X
  · exact dit2V4_vec (hk rfl) h X

/-- **C77** (the part that holds for `simd_fft_plan`): with each of the four kernels (v4 from order 2 on)
the forward transform succeeds and leaves in every lane the DFT of that lane's signal; the lanes do not
influence each other.  The backward direction is missing: see `C77_backward_only_permutes`. -/
theorem C77_forward_lanes_partial (w order : ℕ) (h1 : 1 ≤ order) (k : Kernel)
    (hk : k = .v4 → 2 ≤ order) :
    ∃ p, SimdFftPlan.make w order = .ok p ∧
      ∀ x : List (Lanes w ℂ), x.length = 2 ^ order →
        ∃ y, p.call (k.runLanes w) x .forward = .ok y ∧ y.length = 2 ^ order ∧
          ∀ l, ∀ i < 2 ^ order, ∃ v, y[i]? = some v ∧ v l = Spec.dft (2 ^ order) (lane x l) i := by
  refine ⟨_, simdPlan_make_eq w order, fun x hx => ?_⟩
  have e : (simdPlanOf w order).call (k.runLanes w) x .forward
      = .ok (vec (2 ^ order) (fun i l => Spec.dft (2 ^ order) (lane x l) i)) := by
    unfold SimdFftPlan.call
    simp only [hx, simd_size, decide_true, check_true, bind_ok]
    conv_lhs => rw [list_eq_vec 0 hx]
    rw [show (simdPlanOf w order).reorder = vec (2 ^ order) (digitRev 2 order) from rfl,
      bitrevApply_digitRev, bind_ok, if_pos trivial]
    exact kernelLanes h1 k hk (fun n => x.getD n 0)
  refine ⟨_, e, length_vec _ _, fun l i hi =>
    ⟨fun l => Spec.dft (2 ^ order) (lane x l) i, ?_, rfl⟩⟩
  rw [getElem?_vec, if_pos hi]

/-- C77 fails for the backward direction of `simd_fft_plan`: the kernel call is commented out, so that
the plan only permutes the elements, whatever the kernel. -/
theorem C77_backward_only_permutes (w order : ℕ) :
    ∃ p, SimdFftPlan.make w order = .ok p ∧
      ∀ (kernel : List (Lanes w ℂ) → List (Lanes w ℂ) → Res (List (Lanes w ℂ)))
        (x : List (Lanes w ℂ)), x.length = 2 ^ order →
        ∃ y, p.call kernel x .backward = .ok y ∧ y.Perm x ∧
          ∀ i r, i < 2 ^ order → Spec.IsDigitRev 2 order i r → y[i]? = x[r]? := by
  refine ⟨_, simdPlan_make_eq w order, fun kernel x hx => ?_⟩
  have e : (simdPlanOf w order).call kernel x .backward
      = .ok (vec (2 ^ order) (fun i => x.getD (digitRev 2 order i) 0)) := by
    unfold SimdFftPlan.call
    simp only [hx, simd_size, decide_true, check_true, bind_ok]
    conv_lhs => rw [list_eq_vec 0 hx]
    rw [show (simdPlanOf w order).reorder = vec (2 ^ order) (digitRev 2 order) from rfl,
      bitrevApply_digitRev, bind_ok, if_neg (by decide)]
    rfl
  have hlt : ∀ i < 2 ^ order, digitRev 2 order i < 2 ^ order :=
    fun i _ => digitRev_lt (by norm_num) order i
  refine ⟨_, e, ?_, ?_⟩
  · have := perm_vec_comp hlt (fun _ hi => digitRev_invol (by norm_num) hi) (fun i => x.getD i 0)
    rwa [← list_eq_vec 0 hx] at this
  · intro i r hi hr
    have hd : digitRev 2 order i = r := (digitRev_unique (by norm_num) hr).symm
    rw [getElem?_vec, if_pos hi, hd]
    conv_rhs => rw [list_eq_vec 0 hx, getElem?_vec, if_pos hr.1]

/-- C77 fails for the backward direction, concretely: for the constant signal 1, 1 no lane holds the
inverse DFT afterwards. -/
theorem C77_backward_not_idft (w : ℕ) (k : Kernel) (l : Fin w) :
    ∃ p y, SimdFftPlan.make w 1 = .ok p ∧
      p.call (k.runLanes w) [fun _ => 1, fun _ => 1] .backward = .ok y ∧
      ∃ v, y[0]? = some v ∧ v l ≠ Spec.idft 2 (lane [fun _ => 1, fun _ => 1] l) 0 := by
  obtain ⟨p, hp, h⟩ := C77_backward_only_permutes w 1
  obtain ⟨y, hy, -, hr⟩ := h (k.runLanes w) [fun _ => 1, fun _ => 1] rfl
  refine ⟨p, y, hp, hy, fun _ => 1, ?_, ?_⟩
  · rw [hr 0 0 (by norm_num) ⟨by norm_num, fun j hj => by simp⟩]
    rfl
  · simp [Spec.idft, lane, sum_range_succ]

/-- A buffer of the wrong length is reported by both plans. -/
theorem C77_wrong_length (w order : ℕ) (k : Kernel) (dir : Direction) :
    ∃ p q, SimdFftPlan.make w order = .ok p ∧ SimdSplitPlan.make w order = .ok q ∧
      (∀ x : List (Lanes w ℂ), x.length ≠ 2 ^ order →
        p.call (k.runLanes w) x dir = .error .assertion) ∧
      (∀ re im : List (Lanes w ℝ), re.length ≠ 2 ^ order ∨ im.length ≠ 2 ^ order →
        q.call (re, im) dir = .error .assertion) := by
  refine ⟨_, _, simdPlan_make_eq w order, simdSplitPlan_make_eq w order, ?_, ?_⟩
  · intro x hx
    unfold SimdFftPlan.call
    simp [simd_size, hx, check, bind_error]
  · intro re im h
    unfold SimdSplitPlan.call
    have hs : (simdSplitPlanOf w order).size = 2 ^ order := by
      simp [SimdSplitPlan.size, simdSplitPlanOf, fftSize, ipow, Nat.shiftLeft_eq]
    rw [hs]
    by_cases hre : re.length = 2 ^ order
    · have him : ¬ re.length = im.length := by omega
      simp [hre, check, bind_error, bind_ok]
      rw [hre] at him
      simp [him, bind_error]
    · simp [hre, check, bind_error]

private theorem ok_of_map_ok {α β : Type} {g : α → β} {x : Res α} {b : β} (h : x.map g = .ok b) :
    ∃ a, x = .ok a ∧ g a = b := by
  cases x with
  | error e => cases h
  | ok a => injection h with h; exact ⟨a, rfl, h⟩

private theorem splitLanes {w b : ℕ} (hw : 0 < w) (h1 : 1 ≤ b) (h2 : b ≤ 30) (re im : ℕ → Lanes w ℝ) :
    splitStage0 b (simdSplitPlanOf w b).twRe (simdSplitPlanOf w b).twIm
      (vec (2 ^ b) (fun i => re (digitRev 2 b i)), vec (2 ^ b) (fun i => im (digitRev 2 b i)))
      = .ok (vec (2 ^ b) (fun k l => (Spec.dft (2 ^ b) (joined (fun n => re n l) (fun n => im n l)) k).re),
          vec (2 ^ b) (fun k l => (Spec.dft (2 ^ b) (joined (fun n => re n l) (fun n => im n l)) k).im)) := by
  have key : ∀ l : Fin w, (splitStage0 b (simdSplitPlanOf w b).twRe (simdSplitPlanOf w b).twIm
      (vec (2 ^ b) (fun i => re (digitRev 2 b i)), vec (2 ^ b) (fun i => im (digitRev 2 b i)))).map
        (mapPair (laneHom w ℝ l))
      = .ok (vec (2 ^ b) (fun k => (Spec.dft (2 ^ b) (joined (fun n => re n l) (fun n => im n l)) k).re),
          vec (2 ^ b) (fun k => (Spec.dft (2 ^ b) (joined (fun n => re n l) (fun n => im n l)) k).im)) := by
    intro l
    rw [← splitStage0_map]
    have hid : ∀ t : List ℝ, (t.map (broadcast w)).map (laneHom w ℝ l) = t := by
      intro t
      rw [List.map_map]
      exact List.map_id t
    unfold simdSplitPlanOf mapPair
    dsimp only
    rw [hid, hid, map_vec, map_vec]
    exact splitStage0_vec h1 h2 (fun n => re n l) (fun n => im n l)
  obtain ⟨y, hy, -⟩ := ok_of_map_ok (key ⟨0, hw⟩)
  rw [hy] at key ⊢
  have hk : ∀ l : Fin w, mapPair (laneHom w ℝ l) y = _ := fun l => Except.ok.inj (key l)
  have h1 : ∀ l : Fin w, y.1.map (laneHom w ℝ l) = _ := fun l => (Prod.mk.inj (hk l)).1
  have h2 : ∀ l : Fin w, y.2.map (laneHom w ℝ l) = _ := fun l => (Prod.mk.inj (hk l)).2
  have comb : ∀ (z : List (Lanes w ℝ)) (F : ℕ → Lanes w ℝ),
      (∀ l : Fin w, z.map (laneHom w ℝ l) = vec (2 ^ b) (fun k => F k l)) → z = vec (2 ^ b) F := by
    intro z F h
    have hl : z.length = 2 ^ b := by
      have := congrArg List.length (h ⟨0, hw⟩)
      simpa using this
    rw [list_eq_vec 0 hl] at h ⊢
    apply vec_ext
    intro i hi
    funext l
    have := congrArg (fun t => t[i]?) (h l)
    simp only [List.getElem?_map, getElem?_vec, if_pos hi] at this
    simpa [laneHom] using this
  rw [show y = (y.1, y.2) from rfl]
  rw [comb y.1 _ h1, comb y.2 _ h2]

/-- **C77** for `simd_split_fft_plan`: for every number of lanes and all orders 1 to 30, both directions
succeed and leave in every lane the real and imaginary parts of the DFT (forward) or of the unnormalised
inverse DFT (backward) of that lane's signal. -/
theorem C77_split_lanes (w order : ℕ) (hw : 0 < w) (h1 : 1 ≤ order) (h2 : order ≤ 30) :
    ∃ p, SimdSplitPlan.make w order = .ok p ∧
      ∀ re im : List (Lanes w ℝ), re.length = 2 ^ order → im.length = 2 ^ order → ∀ dir,
        ∃ re' im', p.call (re, im) dir = .ok (re', im') ∧
          re'.length = 2 ^ order ∧ im'.length = 2 ^ order ∧
          ∀ l, ∀ i < 2 ^ order, ∃ a b, re'[i]? = some a ∧ im'[i]? = some b ∧
            (⟨a l, b l⟩ : ℂ) = match dir with
              | .forward => Spec.dft (2 ^ order) (fun n => ⟨lane re l n, lane im l n⟩) i
              | .backward => Spec.idft (2 ^ order) (fun n => ⟨lane re l n, lane im l n⟩) i := by
  refine ⟨_, simdSplitPlan_make_eq w order, fun re im hre him dir => ?_⟩
  have hs : (simdSplitPlanOf w order).size = 2 ^ order := by
    simp [SimdSplitPlan.size, simdSplitPlanOf, fftSize, ipow, Nat.shiftLeft_eq]
  have hlt : ∀ i < 2 ^ order, digitRev 2 order i < 2 ^ order :=
    fun i _ => digitRev_lt (by norm_num) order i
  have hinv : ∀ i < 2 ^ order, digitRev 2 order (digitRev 2 order i) = i :=
    fun _ hi => digitRev_invol (by norm_num) hi
  have e : (simdSplitPlanOf w order).call (re, im) dir
      = .ok (vec (2 ^ order) (fun i l => (specDft dir (2 ^ order) (joined (lane re l) (lane im l)) i).re),
          vec (2 ^ order) (fun i l => (specDft dir (2 ^ order) (joined (lane re l) (lane im l)) i).im)) := by
    unfold SimdSplitPlan.call
    simp only [hre, him, hs, decide_true, check_true, bind_ok]
    conv_lhs => rw [list_eq_vec 0 hre, list_eq_vec 0 him]
    rw [show (simdSplitPlanOf w order).reorder = vec (2 ^ order) (digitRev 2 order) from rfl,
      show (simdSplitPlanOf w order).order = order from rfl, bitrevApplySplit_vec hlt hinv, bind_ok]
    cases dir
    · rw [if_pos rfl]
      exact splitLanes hw h1 h2 (fun i => re.getD i 0) (fun i => im.getD i 0)
    · rw [if_neg (by decide)]
      dsimp only
      rw [splitLanes hw h1 h2 (fun i => im.getD i 0) (fun i => re.getD i 0), bind_ok]
      simp only [dft_swapped]
      rfl
  refine ⟨_, _, e, length_vec _ _, length_vec _ _, fun l i hi =>
    ⟨_, _, (getElem?_vec ..).trans (if_pos hi), (getElem?_vec ..).trans (if_pos hi), ?_⟩⟩
  cases dir <;> rfl

/-- **C77**: the out-of-place call of the split plan gives the result of the in-place call, whatever the
output buffers held. -/
theorem C77_split_out_of_place (w order : ℕ) (p : SimdSplitPlan w)
    (hp : SimdSplitPlan.make w order = .ok p) (re im re0 im0 : List (Lanes w ℝ))
    (hre : re.length = 2 ^ order) (him : im.length = 2 ^ order) (hre0 : re0.length = 2 ^ order)
    (him0 : im0.length = 2 ^ order) (dir : Direction) :
    p.callOut (re, im) (re0, im0) dir = p.call (re, im) dir := by
  rw [simdSplitPlan_make_eq] at hp
  injection hp with hp
  subst hp
  have hs : (simdSplitPlanOf w order).size = 2 ^ order := by
    simp [SimdSplitPlan.size, simdSplitPlanOf, fftSize, ipow, Nat.shiftLeft_eq]
  unfold SimdSplitPlan.callOut
  simp only [hre, him, hre0, him0, hs, and_self, decide_true, check_true, bind_ok]
  rw [copyVec_eq (by omega), bind_ok, copyVec_eq (by omega), bind_ok]

/-- **C77**: if one of the four planes has another length, the out-of-place call trips an assertion. -/
theorem C77_split_out_of_place_wrong_length (w order : ℕ) (p : SimdSplitPlan w)
    (hp : SimdSplitPlan.make w order = .ok p) (re im re0 im0 : List (Lanes w ℝ))
    (h : re.length ≠ 2 ^ order ∨ im.length ≠ 2 ^ order ∨ re0.length ≠ 2 ^ order ∨ im0.length ≠ 2 ^ order)
    (dir : Direction) : p.callOut (re, im) (re0, im0) dir = .error .assertion := by
  rw [simdSplitPlan_make_eq] at hp
  injection hp with hp
  subst hp
  have hs : (simdSplitPlanOf w order).size = 2 ^ order := by
    simp [SimdSplitPlan.size, simdSplitPlanOf, fftSize, ipow, Nat.shiftLeft_eq]
  unfold SimdSplitPlan.callOut
  dsimp only
  by_cases hre : re.length = 2 ^ order
  · have h2 : ¬ (re.length = im.length ∧ re.length = re0.length ∧ re.length = im0.length) := by omega
    rw [check_decide_ok (hre.trans hs.symm), bind_ok, decide_eq_false h2]
    rfl
  · rw [decide_eq_false (by rw [hs]; exact hre)]
    rfl

/-- Two lanes, order 1: lane 0 carries the signal 1, 2 and lane 1 the signal 3, 5; bin 1 of lane 1 is
`3 - 5`. -/
example : ∃ p, SimdFftPlan.make 2 1 = .ok p ∧
    ∃ y, p.call (Kernel.v3.runLanes 2) [![1, 3], ![2, 5]] .forward = .ok y ∧
      ∃ v, y[1]? = some v ∧ v 1 = (-2 : ℂ) := by
  obtain ⟨p, hp, h⟩ := C77_forward_lanes_partial 2 1 le_rfl .v3 (by decide)
  obtain ⟨y, hy, -, hv⟩ := h [![1, 3], ![2, 5]] rfl
  obtain ⟨v, hv1, hv2⟩ := hv 1 1 (by norm_num)
  refine ⟨p, hp, y, hy, v, hv1, hv2.trans ?_⟩
  simp only [Spec.dft, pow_one, sum_range_succ, sum_range_zero, lane]
  simp only [List.getD_cons_zero, List.getD_cons_succ, Matrix.cons_val_one, Matrix.cons_val_fin_one]
  rw [show (-(2 * (Real.pi : ℂ) * Complex.I * ((1 : ℕ) : ℂ) * ((1 : ℕ) : ℂ) / ((2 : ℕ) : ℂ)))
    = -(Real.pi * Complex.I) by push_cast; ring, Complex.exp_neg (Real.pi * Complex.I), Complex.exp_pi_mul_I]
  push_cast
  norm_num

end Neo.Props
