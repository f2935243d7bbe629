import Verif.Model.SplitFft
import Verif.Lemmas.BitRevInterleaved
import Verif.Lemmas.UpcInst
import Verif.Lemmas.DftLaws

/-! # The split-complex FFT simulates the interleaved FFT -/

namespace Neo

open Finset ComplexConjugate

/-- The split form of a complex buffer. -/
def splitOf (x : List ℂ) : List ℝ × List ℝ := (x.map Complex.re, x.map Complex.im)

theorem splitOf_vec (n : ℕ) (f : ℕ → ℂ) :
    splitOf (vec n f) = (vec n (fun i => (f i).re), vec n (fun i => (f i).im)) := by
  unfold splitOf; rw [map_vec, map_vec]

/-- A loop simulates another loop when each body does. -/
theorem forN_simul {σ τ : Type} (φ : σ → τ) {n : ℕ} {body : ℕ → σ → Res σ} {body' : ℕ → τ → Res τ}
    (h : ∀ i s, body' i (φ s) = (body i s).map φ) (s : σ) :
    forN n body' (φ s) = (forN n body s).map φ := by
  induction n with
  | zero => rfl
  | succ n ih =>
    rw [forN_succ, forN_succ, ih]
    cases forN n body s with
    | error e => rfl
    | ok s' => exact h n s'

theorem exists_vec (x : List ℂ) : ∃ n f, x = vec n f := ⟨_, _, eq_vec_getD x 0⟩

/-- Sums, differences and products are formed from the parts by the textbook formulas, in this order of operations. -/
class SplitArith (R C : Type) [Add R] [Sub R] [Mul R] [Add C] [Sub C] [Mul C] [CplxParts R C] : Prop where
  re_add : ∀ a b : C, CplxParts.re (a + b) = CplxParts.re a + CplxParts.re b
  im_add : ∀ a b : C, CplxParts.im (a + b) = CplxParts.im a + CplxParts.im b
  re_sub : ∀ a b : C, CplxParts.re (a - b) = CplxParts.re a - CplxParts.re b
  im_sub : ∀ a b : C, CplxParts.im (a - b) = CplxParts.im a - CplxParts.im b
  re_mul : ∀ a b : C, CplxParts.re (a * b) = CplxParts.re a * CplxParts.re b - CplxParts.im a * CplxParts.im b
  im_mul : ∀ a b : C, CplxParts.im (a * b) = CplxParts.re a * CplxParts.im b + CplxParts.im a * CplxParts.re b

instance : SplitArith ℝ ℂ :=
  ⟨Complex.add_re, Complex.add_im, Complex.sub_re, Complex.sub_im, Complex.mul_re, Complex.mul_im⟩

section parts
variable {R C : Type} [CplxParts R C]

/-- The planes of a complex buffer. -/
def planesOf (x : List C) : List R × List R := (x.map CplxParts.re, x.map CplxParts.im)

theorem planesOf_vec (n : ℕ) (f : ℕ → C) :
    planesOf (vec n f) = (vec n (fun i => CplxParts.re (f i)), vec n (fun i => CplxParts.im (f i))) := by
  unfold planesOf; rw [map_vec, map_vec]

variable [Zero C] [Add R] [Sub R] [Mul R] [Add C] [Sub C] [Mul C] [SplitArith R C]

theorem butterflyTw_planes (x : List C) (tw : C) {i1 i2 : ℕ} (h3 : i1 ≠ i2) :
    splitButterflyTw (planesOf x) (CplxParts.re tw) (CplxParts.im tw) i1 i2
      = (butterflyTw x tw i1 i2).map planesOf := by
  obtain ⟨n, f, rfl⟩ : ∃ n f, x = vec n f := ⟨_, _, eq_vec_getD x 0⟩
  rw [planesOf_vec]
  unfold splitButterflyTw butterflyTw
  by_cases h1 : i1 < n
  · by_cases h2 : i2 < n
    · simp only [rd_vec_ok h1, rd_vec_ok h2, bind_ok, wr_vec_ok h1, wr_vec_ok h2, pure_eq_ok]
      show _ = Except.ok (planesOf _)
      rw [planesOf_vec]
      congr 1
      refine Prod.ext ?_ ?_ <;>
      · apply vec_ext
        intro i _
        by_cases h4 : i = i1
        · subst h4; simp [h3, SplitArith.re_add, SplitArith.im_add, SplitArith.re_mul, SplitArith.im_mul]
        · by_cases h5 : i = i2
          · subst h5; simp [h4, SplitArith.re_sub, SplitArith.im_sub, SplitArith.re_mul, SplitArith.im_mul]
          · simp [h4, h5]
    · simp only [rd_vec_ok h1, rd_vec, if_neg h2, bind_ok, bind_error]; rfl
  · simp only [rd_vec, if_neg h1, bind_error]; rfl

theorem butterfly0_planes (x : List C) {i1 i2 : ℕ} (h3 : i1 ≠ i2) :
    splitButterfly0 (planesOf x) i1 i2 = (butterfly0 x i1 i2).map planesOf := by
  obtain ⟨n, f, rfl⟩ : ∃ n f, x = vec n f := ⟨_, _, eq_vec_getD x 0⟩
  rw [planesOf_vec]
  unfold splitButterfly0 butterfly0
  by_cases h1 : i1 < n
  · by_cases h2 : i2 < n
    · simp only [rd_vec_ok h1, rd_vec_ok h2, bind_ok, wr_vec_ok h1, wr_vec_ok h2, pure_eq_ok]
      show _ = Except.ok (planesOf _)
      rw [planesOf_vec]
      congr 1
      refine Prod.ext ?_ ?_ <;>
      · apply vec_ext
        intro i _
        by_cases h4 : i = i1
        · subst h4; simp [h3, SplitArith.re_add, SplitArith.im_add]
        · by_cases h5 : i = i2
          · subst h5; simp [h4, SplitArith.re_sub, SplitArith.im_sub]
          · simp [h4, h5]
    · simp only [rd_vec_ok h1, rd_vec, if_neg h2, bind_ok, bind_error]; rfl
  · simp only [rd_vec, if_neg h1, bind_error]; rfl

/-- The split kernel is the interleaved kernel `c2c_dit2_v3` on split buffers. -/
theorem splitStage0_planes {order : ℕ} (ho : order ≤ 30) (tw x : List C) (hx : x.length = 2 ^ order) :
    splitStage0 order (planesOf tw).1 (planesOf tw).2 (planesOf x) = (dit2V3 x tw).map planesOf := by
  unfold splitStage0 dit2V3 dit2Stage0
  simp only [hx, bitLog2_two_pow]
  rw [if_neg (by omega), show fftSize order = 2 ^ order by simp [fftSize, ipow, Nat.shiftLeft_eq]]
  have h0 : forStep (2 ^ order) 2 (fun k x => splitButterfly0 x k (k + 1)) (planesOf x)
      = (forStep (2 ^ order) 2 (fun k x => butterfly0 x k (k + 1)) x).map planesOf :=
    forN_simul planesOf (fun i s => butterfly0_planes s (by omega)) x
  rw [h0]
  cases forStep (2 ^ order) 2 (fun k x => butterfly0 x k (k + 1)) x with
  | error e => rfl
  | ok x =>
    show splitStageN _ _ _ (planesOf x) = Except.map planesOf _
    rw [bind_ok]
    unfold splitStageN
    rw [if_neg (by omega), if_neg (by omega), Nat.shiftLeft_eq, one_mul]
    apply forN_simul
    intro i s
    unfold dit2Stage
    apply forN_simul
    intro k s
    apply forN_simul
    intro p s
    dsimp only
    obtain ⟨n, f, rfl⟩ : ∃ n f, tw = vec n f := ⟨_, _, eq_vec_getD tw 0⟩
    rw [planesOf_vec]
    generalize hj : p * ipow 2 (order - (1 + i) - 1) = j
    by_cases h : j < n
    · rw [rd_vec_ok h, rd_vec_ok h, rd_vec_ok h, bind_ok, bind_ok, bind_ok]
      apply butterflyTw_planes
      have : 0 < ipow 2 (1 + i) := by simp [ipow, Nat.shiftLeft_eq]
      omega
    · simp only [rd_vec, if_neg h, bind_error]; rfl

end parts

theorem butterflyTw_split (x : List ℂ) (tw : ℂ) {i1 i2 : ℕ} (h3 : i1 ≠ i2) :
    splitButterflyTw (splitOf x) tw.re tw.im i1 i2 = (butterflyTw x tw i1 i2).map splitOf :=
  butterflyTw_planes x tw h3

theorem butterfly0_split (x : List ℂ) {i1 i2 : ℕ} (h3 : i1 ≠ i2) :
    splitButterfly0 (splitOf x) i1 i2 = (butterfly0 x i1 i2).map splitOf := butterfly0_planes x h3

theorem splitStage0_eq {order : ℕ} (ho : order ≤ 30) (tw x : List ℂ) (hx : x.length = 2 ^ order) :
    splitStage0 order (splitOf tw).1 (splitOf tw).2 (splitOf x) = (dit2V3 x tw).map splitOf :=
  splitStage0_planes ho tw x hx

/-- The plan of order `b`. -/
noncomputable def splitPlanOf (b : ℕ) : SplitFftPlan :=
  { order := b
    reorder := vec (2 ^ b) (digitRev 2 b)
    twRe := (splitOf (makeTwiddleLutRadix2 (2 ^ b) .forward)).1
    twIm := (splitOf (makeTwiddleLutRadix2 (2 ^ b) .forward)).2 }

theorem splitPlan_make_eq (b : ℕ) : SplitFftPlan.make b = .ok (splitPlanOf b) := by
  unfold SplitFftPlan.make
  rw [show 1 <<< b = 2 ^ b by rw [Nat.shiftLeft_eq, one_mul], bitrevMake_eq, bind_ok,
    show fftSize b = 2 ^ b by simp [fftSize, ipow, Nat.shiftLeft_eq]]
  dsimp only
  unfold splitPlanOf
  generalize makeTwiddleLutRadix2 (2 ^ b) .forward = tw
  obtain ⟨n, f, rfl⟩ := exists_vec tw
  rw [length_vec, copyToSplit_vec, bind_ok, pure_eq_ok, splitOf_vec]

/-- Complex signal with the given parts. -/
def joined (re im : ℕ → ℝ) (i : ℕ) : ℂ := ⟨re i, im i⟩

/-- Exchanging real and imaginary part turns the forward into the backward transform. -/
theorem dft_swapped (N : ℕ) (re im : ℕ → ℝ) (k : ℕ) :
    Spec.dft N (joined im re) k
      = ⟨(Spec.idft N (joined re im) k).im, (Spec.idft N (joined re im) k).re⟩ := by
  have e : joined im re = fun n => Complex.I * conj (joined re im n) := by
    funext n
    apply Complex.ext <;> simp [joined]
  rw [e, dft_smul, ← conj_idft]
  apply Complex.ext <;> simp

theorem splitStage0_vec {b : ℕ} (h1 : 1 ≤ b) (h2 : b ≤ 30) (re im : ℕ → ℝ) :
    splitStage0 b (splitPlanOf b).twRe (splitPlanOf b).twIm
      (vec (2 ^ b) (fun i => re (digitRev 2 b i)), vec (2 ^ b) (fun i => im (digitRev 2 b i)))
      = .ok (vec (2 ^ b) (fun k => (Spec.dft (2 ^ b) (joined re im) k).re),
          vec (2 ^ b) (fun k => (Spec.dft (2 ^ b) (joined re im) k).im)) := by
  have e := splitStage0_eq h2 (makeTwiddleLutRadix2 (2 ^ b) .forward)
    (vec (2 ^ b) (fun i => joined re im (digitRev 2 b i))) (length_vec _ _)
  rw [makeTwiddleLutRadix2_eq h1, dit2V3_vec h1 (root_two_pow h1 .forward), splitOf_vec (2 ^ b),
    ← makeTwiddleLutRadix2_eq h1] at e
  refine e.trans ?_
  show Except.ok (splitOf _) = _
  rw [splitOf_vec]
  simp only [dftRoot_forward]

theorem split_call_vec {b : ℕ} (h1 : 1 ≤ b) (h2 : b ≤ 30) (re im : ℕ → ℝ) (dir : Direction) :
    (splitPlanOf b).call (vec (2 ^ b) re, vec (2 ^ b) im) dir
      = .ok (vec (2 ^ b) (fun k => (specDft dir (2 ^ b) (joined re im) k).re),
          vec (2 ^ b) (fun k => (specDft dir (2 ^ b) (joined re im) k).im)) := by
  unfold SplitFftPlan.call
  have hs : (splitPlanOf b).size = 2 ^ b := by
    simp [SplitFftPlan.size, splitPlanOf, fftSize, ipow, Nat.shiftLeft_eq]
  have hr : (splitPlanOf b).reorder = vec (2 ^ b) (digitRev 2 b) := rfl
  have ho : (splitPlanOf b).order = b := rfl
  simp only [length_vec, hs, hr, ho, decide_true, check_true, bind_ok]
  rw [bitrevApplySplit_vec (fun i _ => digitRev_lt (by norm_num) b i)
        (fun _ hi => digitRev_invol (by norm_num) hi), bind_ok]
  cases dir with
  | forward =>
    rw [if_pos rfl, splitStage0_vec h1 h2]
    rfl
  | backward =>
    rw [if_neg (by simp), splitStage0_vec h1 h2, bind_ok, pure_eq_ok]
    simp only [dft_swapped]
    rfl

end Neo
