import Verif.Model.UpcRounding
import Verif.Lemmas.ConvRounding
import Verif.Lemmas.DirectRounding
import Verif.Lemmas.UpcRun

/-! # The partitioned convolvers in rounded arithmetic -/

namespace Neo

open Finset

variable {F : Rounding}

instance : AddCommMagma (FC F) where
  add_comm a b := by
    show (⟨F.rnd (a.re + b.re), F.rnd (a.im + b.im)⟩ : FC F) = ⟨F.rnd (b.re + a.re), F.rnd (b.im + a.im)⟩
    rw [_root_.add_comm a.re, _root_.add_comm a.im]

/-- Scaled samples of the half spectrum `Y`, as computed. -/
noncomputable def specOutF (F : Rounding) (b : ℕ) (Y : ℕ → FC F) (n : ℕ) : FR F := irfftFn F b Y n * invSizeF F (2 ^ b)

/-! ## Overlap-add -/

/-- An overlap-add object with transform size `2 ^ b`. -/
noncomputable def oaFOf (F : Rounding) (B L b : ℕ) (f : ℕ → FC F) (w : ℕ → FR F) (sp : ℕ → FC F) (ov : ℕ → FR F) :
    OverlapAddF F where
  blockSize := B
  filterSize := L
  rfft := rfftPlanFOf F b f
  window := vec (2 ^ b) w
  spectrum := vec (2 ^ b / 2 + 1) sp
  overlap := vec B ov

theorem overlapAddF_make_eq {B L : ℕ} (hb : Nat.clog 2 (B + L - 1) ≤ 27) (hne : B + L ≠ 0 := by omega) :
    OverlapAddF.make F B L = .ok (oaFOf F B L (Nat.clog 2 (B + L - 1)) (fun _ => 0) (fun _ => 0)
      (fun _ => 0) (fun _ => 0)) := by
  unfold OverlapAddF.make outputSizeFull
  rw [if_neg hne, bind_ok]
  rw [nextOrder_eq, rfftPlanF_make_eq hb, bind_ok, pure_eq_ok]
  simp only [rfftPlanFOf_size]
  rfl

theorem oaF_step {σ : Type} {B L b : ℕ} (hb : 1 ≤ b) (hK : B * 2 = 2 ^ b) (f : ℕ → FC F)
    (w : ℕ → FR F) (sp : ℕ → FC F) (ov x : ℕ → FR F) (cb : Callback σ (FC F)) (s s' : σ) (Y : ℕ → FC F)
    (hcb : cb (vec (2 ^ b / 2 + 1) (rfftFn F b (zext B x))) s = .ok (vec (2 ^ b / 2 + 1) Y, s')) :
    ∃ f', (oaFOf F B L b f w sp ov).call (vec B x) cb s
      = .ok (oaFOf F B L b f' (specOutF F b Y) Y (fun i => specOutF F b Y (B + i)),
          vec B (fun i => specOutF F b Y i + ov i), s') := by
  unfold OverlapAddF.call
  have h1 : (oaFOf F B L b f w sp ov).blockSize = B := rfl
  have h2 : (oaFOf F B L b f w sp ov).window = vec (2 ^ b) w := rfl
  have h3 : (oaFOf F B L b f w sp ov).rfft = rfftPlanFOf F b f := rfl
  have h4 : (oaFOf F B L b f w sp ov).spectrum = vec (2 ^ b / 2 + 1) sp := rfl
  have h5 : (oaFOf F B L b f w sp ov).overlap = vec B ov := rfl
  simp only [h1, h2, h3, h4, h5, length_vec, decide_true, check_true, bind_ok]
  rw [rdSpan_vec (Nat.zero_le _) (by omega), bind_ok, rdSpan_vec (by omega) hK.le, bind_ok,
    copyInto_vec _ _ (by omega), bind_ok, fillVec_vec, bind_ok, wrSpan_vec (by omega), bind_ok]
  have hw : (vec (2 ^ b) fun i => if B ≤ i ∧ i < B + (B * 2 - B) then (0 : FR F)
      else if 0 ≤ i ∧ i < 0 + B then x (i - 0) else w i) = vec (2 ^ b) (zext B x) := by
    apply vec_ext
    intro i hi
    unfold zext
    by_cases c1 : i < B
    · have : ¬ (B ≤ i ∧ i < B + (B * 2 - B)) := by omega
      simp [c1, this]
    · have : B ≤ i ∧ i < B + (B * 2 - B) := by omega
      simp [c1, this]
  rw [hw]
  obtain ⟨f1, e1⟩ := rfftF_fn hb le_rfl f (zext B x) sp
  rw [e1, bind_ok]
  have hsp : (vec (2 ^ b / 2 + 1) fun k => if k < 2 ^ b / 2 + 1 then rfftFn F b (zext B x) k else sp k)
      = vec (2 ^ b / 2 + 1) (rfftFn F b (zext B x)) := vec_ext (fun k hk => by rw [if_pos hk])
  simp only []
  rw [hsp, hcb, bind_ok]
  simp only []
  obtain ⟨f2, e2⟩ := irfftF_fn hb le_rfl (half_lt hb) (le_refl (2 ^ b)) f1 Y (zext B x)
  rw [e2, bind_ok]
  simp only [rfftPlanFOf_size]
  rw [scaleVec_vec, bind_ok]
  have hout : (vec (2 ^ b) fun i => (if i < 2 ^ b then irfftFn F b Y i else zext B x i) * invSizeF F (2 ^ b))
      = vec (2 ^ b) (specOutF F b Y) := vec_ext (fun i hi => by rw [if_pos hi]; rfl)
  rw [hout, rdSpan_vec (Nat.zero_le _) (by omega), bind_ok, Nat.sub_zero, addVec_vec, bind_ok,
    rdSpan_vec (by omega) hK.le, bind_ok, show B * 2 - B = B by omega, copyVec_vec, bind_ok, pure_eq_ok]
  refine ⟨f2, ?_⟩
  simp only [Nat.zero_add]
  rfl

/-! ## Overlap-save -/

/-- An overlap-save object with transform size `2 ^ b`. -/
noncomputable def osFOf (F : Rounding) (B L b : ℕ) (f : ℕ → FC F) (w rb : ℕ → FR F) (cbuf : ℕ → FC F) :
    OverlapSaveF F where
  blockSize := B
  filterSize := L
  plan := rfftPlanFOf F b f
  window := vec (2 ^ b) w
  realBuffer := vec (2 ^ b) rb
  complexBuffer := vec (2 ^ b) cbuf

theorem overlapSaveF_make_eq {B L : ℕ} (hb : Nat.clog 2 (B + L - 1) ≤ 27) (hne : B + L ≠ 0 := by omega) :
    OverlapSaveF.make F B L = .ok (osFOf F B L (Nat.clog 2 (B + L - 1)) (fun _ => 0) (fun _ => 0)
      (fun _ => 0) (fun _ => 0)) := by
  unfold OverlapSaveF.make
  rw [if_neg hne, bind_ok]
  rw [nextOrder_eq, rfftPlanF_make_eq hb, bind_ok, pure_eq_ok]
  simp only [rfftPlanFOf_size]
  rfl

/-- The window after sliding and copying the block. -/
def osWindowF (K B : ℕ) (x w : ℕ → FR F) (k : ℕ) : FR F := if k + B < K then w (k + B) else x (k - (K - B))

theorem osF_step {σ : Type} {B L b : ℕ} (hb : 1 ≤ b) (hB : 1 ≤ B) (hdvd : B ∣ 2 ^ b) (f : ℕ → FC F)
    (w rb : ℕ → FR F) (cbuf : ℕ → FC F) (x : ℕ → FR F) (cb : Callback σ (FC F)) (s s' : σ) (Y : ℕ → FC F)
    (hcb : cb (vec (2 ^ b / 2 + 1) (rfftFn F b (osWindowF (2 ^ b) B x w))) s = .ok (vec (2 ^ b / 2 + 1) Y, s')) :
    ∃ f' rb' cbuf', (osFOf F B L b f w rb cbuf).call (vec B x) cb s
      = .ok (osFOf F B L b f' (osWindowF (2 ^ b) B x w) rb' cbuf',
          vec B (fun i => specOutF F b Y (2 ^ b - B + i)), s') := by
  have hBK : B ≤ 2 ^ b := Nat.le_of_dvd (by positivity) hdvd
  unfold OverlapSaveF.call
  have h1 : (osFOf F B L b f w rb cbuf).blockSize = B := rfl
  have h2 : (osFOf F B L b f w rb cbuf).window = vec (2 ^ b) w := rfl
  have h3 : (osFOf F B L b f w rb cbuf).plan = rfftPlanFOf F b f := rfl
  have h4 : (osFOf F B L b f w rb cbuf).realBuffer = vec (2 ^ b) rb := rfl
  have h5 : (osFOf F B L b f w rb cbuf).complexBuffer = vec (2 ^ b) cbuf := rfl
  have hl := half_lt hb
  simp only [h1, h2, h3, h4, h5, length_vec, decide_true, check_true, bind_ok, rfftPlanFOf_size,
    subIdx, if_pos hBK]
  rw [rdSpan_vec (by omega) le_rfl, bind_ok]
  rw [slideWindowLeft_vec hB, bind_ok, show 2 ^ b - (2 ^ b - B) = B by omega, copyInto_vec _ _ (by omega), bind_ok]
  have hw : (vec (2 ^ b) fun i => if 2 ^ b - B ≤ i ∧ i < 2 ^ b - B + B then x (i - (2 ^ b - B))
      else if i + B < 2 ^ b / B * B then w (i + B) else w i) = vec (2 ^ b) (osWindowF (2 ^ b) B x w) := by
    apply vec_ext
    intro i hi
    unfold osWindowF
    rw [Nat.div_mul_cancel hdvd]
    by_cases c : 2 ^ b - B ≤ i
    · rw [if_pos (by omega), if_neg (by omega)]
    · rw [if_neg (by omega), if_pos (by omega), if_pos (by omega)]
  rw [hw]
  obtain ⟨f1, e1⟩ := rfftF_fn hb hl f (osWindowF (2 ^ b) B x w) cbuf
  rw [e1, bind_ok]
  simp only []
  rw [rdSpan_vec (Nat.zero_le _) hl, bind_ok, Nat.sub_zero]
  have hsp : (vec (2 ^ b / 2 + 1) fun i => if 0 + i < 2 ^ b / 2 + 1 then
      rfftFn F b (osWindowF (2 ^ b) B x w) (0 + i) else cbuf (0 + i))
      = vec (2 ^ b / 2 + 1) (rfftFn F b (osWindowF (2 ^ b) B x w)) :=
    vec_ext (fun k hk => by rw [Nat.zero_add, if_pos hk])
  rw [hsp, hcb, bind_ok]
  simp only []
  rw [wrSpan_vec (by omega), bind_ok]
  generalize hZ : (fun i => if 0 ≤ i ∧ i < 0 + (2 ^ b / 2 + 1) then Y (i - 0)
      else if i < 2 ^ b / 2 + 1 then rfftFn F b (osWindowF (2 ^ b) B x w) i else cbuf i) = Z
  obtain ⟨f2, e2⟩ := irfftF_fn hb hl (le_refl (2 ^ b)) (le_refl (2 ^ b)) f1 Z rb
  rw [e2, bind_ok]
  simp only [rfftPlanFOf_size]
  rw [scaleVec_vec, bind_ok, rdSpan_vec (by omega) le_rfl, bind_ok,
    show 2 ^ b - (2 ^ b - B) = B by omega, copyVec_vec, bind_ok, pure_eq_ok]
  refine ⟨f2, fun i => (if i < 2 ^ b then irfftFn F b Z i else rb i) * invSizeF F (2 ^ b), Z, ?_⟩
  congr 3
  apply vec_ext
  intro i hi
  rw [if_pos (by omega)]
  unfold specOutF
  rw [irfftFn_congr (d := Y)]
  intro k hk
  rw [← hZ]
  beta_reduce
  rw [if_pos (by omega), Nat.sub_zero]

/-! ## The laws -/

/-- Output of overlap-add. -/
noncomputable def olaOutF (F : Rounding) (a : ℕ) (Y : ℕ → ℕ → FC F) (t i : ℕ) : FR F :=
  specOutF F (a + 1) (Y t) i + if 1 ≤ t then specOutF F (a + 1) (Y (t - 1)) (2 ^ a + i) else 0

/-- Output of overlap-save. -/
noncomputable def olsOutF (F : Rounding) (a : ℕ) (Y : ℕ → ℕ → FC F) (t i : ℕ) : FR F :=
  specOutF F (a + 1) (Y t) (2 ^ a + i)

/-- Spectra of the windows, as computed. -/
noncomputable def winSpecF (F : Rounding) (a : ℕ) (win : (ℕ → FR F) → ℕ → ℕ → FR F) (x : ℕ → FR F) (t : ℕ) : ℕ → FC F :=
  rfftFn F (a + 1) (win x t)

theorem olaF_law {a : ℕ} (ha : 1 ≤ a) (ha2 : a ≤ 26) :
    OverlapLaw (olaOpsF F) (2 ^ a) (winSpecF F a (seg (2 ^ a))) (olaOutF F a)
      (fun _ Y t o => ∃ f w sp ov, o = oaFOf F (2 ^ a) (2 ^ a) (a + 1) f w sp ov ∧
        ∀ i < 2 ^ a, ov i = if 1 ≤ t then specOutF F (a + 1) (Y (t - 1)) (2 ^ a + i) else 0) := by
  constructor
  · refine ⟨_, overlapAddF_make_eq (by rw [clog_block ha]; omega) (by have := Nat.one_le_two_pow (n := a); omega),
      fun x Y => ?_⟩
    rw [clog_block ha]
    exact ⟨_, _, _, _, rfl, fun _ _ => rfl⟩
  · rintro σ x Y t _ cb s s' ⟨f, w, sp, ov, rfl, hov⟩ hcb
    have hcb' : cb (vec (2 ^ (a + 1) / 2 + 1) (rfftFn F (a + 1) (zext (2 ^ a) (fun i => x (t * 2 ^ a + i))))) s
        = .ok (vec (2 ^ (a + 1) / 2 + 1) (Y t), s') := by
      rw [two_pow_half, ← hcb]
      rfl
    obtain ⟨f', e⟩ := oaF_step (L := 2 ^ a) (by omega) (by rw [pow_succ]) f w sp ov _ cb s s' (Y t) hcb'
    have hout : (vec (2 ^ a) fun i => specOutF F (a + 1) (Y t) i + ov i) = vec (2 ^ a) (olaOutF F a Y t) := by
      apply vec_ext
      intro i hi
      rw [hov i hi]
      rfl
    rw [hout] at e
    refine ⟨_, e, f', _, _, _, rfl, ?_⟩
    intro i hi
    rw [if_pos (by omega), Nat.add_sub_cancel]

theorem olsF_law {a : ℕ} (ha : 1 ≤ a) (ha2 : a ≤ 26) :
    OverlapLaw (olsOpsF F) (2 ^ a) (winSpecF F a (saveWindow (2 ^ a))) (olsOutF F a)
      (fun x _ t o => ∃ f w rb cbuf, o = osFOf F (2 ^ a) (2 ^ a) (a + 1) f w rb cbuf ∧
        ∀ k < 2 ^ (a + 1), w k = if 2 ^ (a + 1) ≤ t * 2 ^ a + k then x (t * 2 ^ a + k - 2 ^ (a + 1))
          else 0) := by
  have hp : 2 ^ (a + 1) = 2 ^ a + 2 ^ a := by rw [pow_succ]; ring
  constructor
  · refine ⟨_, overlapSaveF_make_eq (by rw [clog_block ha]; omega) (by have := Nat.one_le_two_pow (n := a); omega),
      fun x Y => ?_⟩
    rw [clog_block ha]
    exact ⟨_, _, _, _, rfl, fun k hk => by rw [if_neg (by omega)]⟩
  · rintro σ x Y t _ cb s s' ⟨f, w, rb, cbuf, rfl, hw⟩ hcb
    have hwin : ∀ n < 2 ^ (a + 1), osWindowF (2 ^ (a + 1)) (2 ^ a) (fun i => x (t * 2 ^ a + i)) w n
        = if 2 ^ (a + 1) ≤ (t + 1) * 2 ^ a + n then x ((t + 1) * 2 ^ a + n - 2 ^ (a + 1)) else 0 := by
      intro n hn
      unfold osWindowF
      rw [add_mul, one_mul]
      by_cases c : n + 2 ^ a < 2 ^ (a + 1)
      · rw [if_pos c, hw _ c, show t * 2 ^ a + (n + 2 ^ a) = t * 2 ^ a + 2 ^ a + n by omega]
      · rw [if_neg c, if_pos (by omega)]
        beta_reduce
        congr 1; omega
    have hcb' : cb (vec (2 ^ (a + 1) / 2 + 1) (rfftFn F (a + 1)
        (osWindowF (2 ^ (a + 1)) (2 ^ a) (fun i => x (t * 2 ^ a + i)) w))) s
        = .ok (vec (2 ^ (a + 1) / 2 + 1) (Y t), s') := by
      rw [two_pow_half, ← hcb]
      unfold winSpecF
      rw [rfftFn_congr (y := saveWindow (2 ^ a) x t)]
      intro n hn
      rw [hwin n hn]
      unfold saveWindow
      rw [add_mul, one_mul]
      by_cases c : n < 2 ^ a
      · rw [if_pos c]
        by_cases ct : 1 ≤ t
        · have : 2 ^ a ≤ t * 2 ^ a := Nat.le_mul_of_pos_left _ ct
          rw [if_pos ct, if_pos (by omega), Nat.sub_mul, one_mul]
          congr 1; omega
        · obtain rfl : t = 0 := by omega
          rw [if_neg (by omega), if_neg (by omega)]
      · rw [if_neg c, if_pos (by omega)]
        congr 1; omega
    obtain ⟨f', rb', cbuf', e⟩ := osF_step (L := 2 ^ a) (by omega) Nat.one_le_two_pow
      (pow_dvd_pow 2 (Nat.le_succ a)) f w rb cbuf _ cb s s' (Y t) hcb'
    have hout : (vec (2 ^ a) fun i => specOutF F (a + 1) (Y t) (2 ^ (a + 1) - 2 ^ a + i))
        = vec (2 ^ a) (olsOutF F a Y t) := by
      apply vec_ext
      intro i hi
      unfold olsOutF
      congr 1; omega
    rw [hout] at e
    exact ⟨_, e, f', _, rb', cbuf', rfl, hwin⟩

theorem upolaRunF_eq {a : ℕ} (ha : 1 ≤ a) (ha2 : a ≤ 26) {v : MatView} {data : List (FC F)}
    (hv : v.InRange data.length) (hr : 1 ≤ v.rows) (hc : v.cols = 2 ^ a + 1) (blocks : List (List (FR F)))
    (hlen : ∀ b ∈ blocks, b.length = 2 ^ a) :
    upolaRunF v data blocks = .ok (vec blocks.length (fun t => vec (2 ^ a) (olaOutF F a
      (macY v.rows (matAt v data) (winSpecF F a (seg (2 ^ a)) (fun i => blocks.flatten.getD i 0))) t))) :=
  upc_run_gen (olaF_law ha ha2) ⟨_, overlapAddF_make_eq (B := 1) (L := 1) (by norm_num)⟩ hv hr hc
    (fun _ _ _ _ => rfl) _ blocks hlen

theorem upolsRunF_eq {a : ℕ} (ha : 1 ≤ a) (ha2 : a ≤ 26) {v : MatView} {data : List (FC F)}
    (hv : v.InRange data.length) (hr : 1 ≤ v.rows) (hc : v.cols = 2 ^ a + 1) (blocks : List (List (FR F)))
    (hlen : ∀ b ∈ blocks, b.length = 2 ^ a) :
    upolsRunF v data blocks = .ok (vec blocks.length (fun t => vec (2 ^ a) (olsOutF F a
      (macY v.rows (matAt v data) (winSpecF F a (saveWindow (2 ^ a)) (fun i => blocks.flatten.getD i 0))) t))) :=
  upc_run_gen (olsF_law ha ha2) ⟨_, overlapSaveF_make_eq (B := 1) (L := 1) (by norm_num)⟩ hv hr hc
    (fun _ _ _ _ => rfl) _ blocks hlen

/-! ## Error of one step -/

/-- The filter matrix holds approximations of the spectra of the segments `h j`. -/
def SpectraOf (F : Rounding) (b N : ℕ) (κ : ℝ) (H : ℕ → ℕ → FC F) (h : ℕ → ℕ → ℝ) : Prop :=
  ∀ j < N, Spec.l2 (2 ^ b / 2 + 1) (fun k => (H j k).val - Spec.dft (2 ^ b) (fun n => (h j n : ℂ)) k)
    ≤ (Spec.fftGain F.u F.ε b * κ - 1) * (Real.sqrt 2 ^ b * Spec.l2 (2 ^ b) (fun n => (h j n : ℂ)))

theorem one_le_macGain (F : Rounding) (N : ℕ) : 1 ≤ Spec.macGain F.u N := by
  have hu := F.u_nonneg
  unfold Spec.macGain
  apply one_le_mul_of_one_le_of_one_le
  · exact one_le_pow₀ (by linarith)
  · have : 0 ≤ Real.sqrt 2 * (2 * F.u + F.u ^ 2) := by positivity
    linarith

/-- Time-domain error of the accumulated spectrum of step `t`. -/
theorem macY_err {b N : ℕ} (hb : 1 ≤ b) {κ : ℝ} (hκ : 1 ≤ κ) {H : ℕ → ℕ → FC F} {h : ℕ → ℕ → ℝ}
    (hH : SpectraOf F b N κ H h) (w : ℕ → ℕ → FR F) (t : ℕ) :
    Spec.l2 (2 ^ b) (fun n => ((specOutF F b (macY N H (fun t => rfftFn F b (w t)) t) n).val : ℂ)
        - ((∑ j ∈ range N, if j ≤ t then Spec.circConv (2 ^ b) (fun m => (w (t - j) m).val) (h j) n else 0 : ℝ) : ℂ))
      ≤ Spec.spectralGain F.u F.ε b (κ * Spec.macGain F.u N)
        * (Real.sqrt 2 ^ b * ∑ j ∈ range N, if j ≤ t then
            Spec.l2 (2 ^ b) (fun m => ((w (t - j) m).val : ℂ)) * Spec.l2 (2 ^ b) (fun m => (h j m : ℂ)) else 0) := by
  set X : ℕ → ℕ → FC F := fun t => rfftFn F b (w t) with hX
  have h0 : ∀ M, Spec.l2 M (fun _ => (0 : ℂ)) = 0 := fun M => by simp [Spec.l2]
  have key := spectral_err (range N) hb hκ (one_le_macGain F N)
    (fun j m => if j ≤ t then (w (t - j) m).val else 0) h
    (fun j k => if j ≤ t then X (t - j) k else 0) H (macY N H X t) (irfftFn F b (macY N H X t))
    (fun j _ => by
      by_cases c : j ≤ t
      · simp only [if_pos c]
        exact rfftFn_err hb _
      · simp only [if_neg c, Complex.ofReal_zero]
        rw [l2_congr (g := fun _ => 0) (fun k _ => by
          rw [show ((0 : FC F).val) = 0 from by apply Complex.ext <;> rfl]
          unfold Spec.dft
          simp), h0, h0, mul_zero, mul_zero])
    (fun j hj => hH j (mem_range.1 hj))
    (fun k _ => by
      have e := accum_err (FC.approx F) (fun s => slotAt X N (t + 1) s k)
        (fun s => H ((t % N + N - s) % N) k) 0 N
      rw [zero_add, ← range_eq_Ico] at e
      rw [sum_slots_gen X H (fun a b => a.val * b.val), sum_slots_gen X H (fun a b => ‖a.val‖ * ‖b.val‖)] at e
      exact e)
    (irfftFn_err hb _)
  have e1 : ∀ n, (∑ j ∈ range N, Spec.circConv (2 ^ b) (fun m => if j ≤ t then (w (t - j) m).val else 0) (h j) n)
      = ∑ j ∈ range N, if j ≤ t then Spec.circConv (2 ^ b) (fun m => (w (t - j) m).val) (h j) n else 0 := by
    intro n
    refine sum_congr rfl fun j _ => ?_
    by_cases c : j ≤ t
    · simp only [if_pos c]
    · simp only [if_neg c]
      unfold Spec.circConv
      exact sum_eq_zero fun _ _ => zero_mul _
  have e2 : (∑ j ∈ range N, Spec.l2 (2 ^ b) (fun n => (((if j ≤ t then (w (t - j) n).val else 0) : ℝ) : ℂ))
        * Spec.l2 (2 ^ b) (fun n => (h j n : ℂ)))
      = ∑ j ∈ range N, if j ≤ t then
            Spec.l2 (2 ^ b) (fun m => ((w (t - j) m).val : ℂ)) * Spec.l2 (2 ^ b) (fun m => (h j m : ℂ)) else 0 := by
    refine sum_congr rfl fun j _ => ?_
    by_cases c : j ≤ t
    · simp only [if_pos c]
    · simp only [if_neg c, Complex.ofReal_zero]
      rw [h0, zero_mul]
  rw [e2] at key
  simp only [e1] at key
  exact key

end Neo
