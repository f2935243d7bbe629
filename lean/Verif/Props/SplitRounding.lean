import Verif.Lemmas.SplitRounding
import Verif.Props.UpcRounding

/-! # C88: split-complex and sparse code rounds like the interleaved dense code -/

namespace Neo.Props

open Neo Finset

/-- The planes of an interleaved buffer. -/
noncomputable def planes {F : Rounding} (x : List (FC F)) : List (FR F) × List (FR F) :=
  (x.map (fun z => ⟨z.re⟩), x.map (fun z => ⟨z.im⟩))

/-- The complex numbers held by two planes. -/
noncomputable def vals2 {F : Rounding} (x : List (FR F) × List (FR F)) (n : ℕ) : ℂ := ⟨valsR x.1 n, valsR x.2 n⟩

/-! ## The split transform -/

private theorem planes_eq {F : Rounding} (x : List (FC F)) : planes x = planesOf x := rfl

/-- **C88** (forward transform): `split_fft_plan` on the planes of a buffer, of any length, produces the planes of
what the interleaved default plan produces, bit for bit, or the same fault. -/
theorem C88_split_forward (F : Rounding) (order : ℕ) (h : order ≤ 27) :
    ∃ p q, SplitFftPlan.makeF F order = .ok p ∧ Dit2Plan.makeF F order = .ok q ∧
      ∀ x : List (FC F), p.call (planes x) .forward = (fft q x).map planes := by
  refine ⟨_, _, splitPlan_makeF_eq F order, dit2Plan_makeF_eq F h, fun x => ?_⟩
  by_cases hx : x.length = 2 ^ order
  · obtain ⟨f, rfl⟩ : ∃ f, x = vec (2 ^ order) f := ⟨_, list_eq_vec 0 hx⟩
    exact splitF_call (by omega) f
  · rw [splitF_wrong _ _ (by
      rintro ⟨h1, -⟩
      exact hx (by rwa [planes, List.length_map] at h1))]
    have : fft (dit2PlanFOf F order) x = .error .assertion := by
      unfold fft Dit2Plan.call Dit2Plan.callWith
      have hs : (dit2PlanFOf F order).size = 2 ^ order := rfl
      simp only [hs, hx, decide_false]
      rfl
    rw [this]
    rfl

/-- **C88** (backward transform): bit for bit the forward transform of the exchanged planes, exchanged. -/
theorem C88_split_backward (F : Rounding) (order : ℕ) :
    ∃ p, SplitFftPlan.makeF F order = .ok p ∧
      ∀ re im : List (FR F), p.call (re, im) .backward = (p.call (im, re) .forward).map Prod.swap := by
  refine ⟨_, splitPlan_makeF_eq F order, fun re im => ?_⟩
  by_cases h : re.length = 2 ^ order ∧ im.length = 2 ^ order
  · exact splitF_backward re im h.1 h.2
  · rw [splitF_wrong (re, im) _ h, splitF_wrong (im, re) _ (fun c => h ⟨c.2, c.1⟩)]
    rfl

/-- **C88** (backward transform in a format whose rounding and `cos`/`sin` are symmetric about zero, as in IEEE
arithmetic): bit for bit the interleaved backward transform. -/
theorem C88_split_backward_interleaved (F : Rounding) (hF : F.Symmetric) (order : ℕ) (h1 : 1 ≤ order) (h : order ≤ 27) :
    ∃ p q, SplitFftPlan.makeF F order = .ok p ∧ Dit2Plan.makeF F order = .ok q ∧
      ∀ x : List (FC F), p.call (planes x) .backward = (ifft q x).map planes := by
  refine ⟨_, _, splitPlan_makeF_eq F order, dit2Plan_makeF_eq F h, fun x => ?_⟩
  by_cases hx : x.length = 2 ^ order
  · obtain ⟨f, rfl⟩ : ∃ f, x = vec (2 ^ order) f := ⟨_, list_eq_vec 0 hx⟩
    exact splitF_call_backward hF h1 (by omega) f
  · rw [splitF_wrong _ _ (by
      rintro ⟨h1, -⟩
      exact hx (by rwa [planes, List.length_map] at h1))]
    have : ifft (dit2PlanFOf F order) x = .error .assertion := by
      unfold ifft Dit2Plan.call Dit2Plan.callWith
      have hs : (dit2PlanFOf F order).size = 2 ^ order := rfl
      simp only [hs, hx, decide_false]
      rfl
    rw [this]
    rfl

private theorem valsR_vec {F : Rounding} {N : ℕ} (f : ℕ → FR F) {n : ℕ} (hn : n < N) :
    valsR (vec N f) n = (f n).val := by
  unfold valsR
  rw [map_vec, getD_vec _ _ _ _ hn]

private theorem forward_err (F : Rounding) {b : ℕ} (h1 : 1 ≤ b) (h2 : b ≤ 30) (x : ℕ → FC F) :
    ∃ y : ℕ → FC F, (splitPlanFOf F b).call (planesOf (vec (2 ^ b) x)) .forward = .ok (planesOf (vec (2 ^ b) y)) ∧
      Spec.l2 (2 ^ b) (fun k => (y k).val - Spec.dft (2 ^ b) (fun n => (x n).val) k)
        ≤ (Spec.fftGain F.u F.ε b - 1) * Spec.l2 (2 ^ b) (Spec.dft (2 ^ b) (fun n => (x n).val)) := by
  obtain ⟨y, e, h⟩ := fftF_call h1 (kernel := dit2V3) (fun w f => dit2V3_run h1 w f) x .forward
  refine ⟨y, ?_, ?_⟩
  · rw [splitF_call h2]
    unfold Dit2Plan.call
    rw [e]
    rfl
  · rw [← l2_specDft h1 .forward] at h
    exact h

private theorem norm_swap (a b : ℝ) : ‖(⟨a, b⟩ : ℂ)‖ = ‖(⟨b, a⟩ : ℂ)‖ := by
  rw [Complex.norm_def, Complex.norm_def]
  congr 1
  simp only [Complex.normSq_mk]
  ring

private theorem l2_swap (N : ℕ) (f g : ℕ → ℂ) (h : ∀ k < N, f k = ⟨(g k).im, (g k).re⟩) : Spec.l2 N f = Spec.l2 N g := by
  unfold Spec.l2
  congr 1
  refine sum_congr rfl fun k hk => ?_
  rw [h k (mem_range.1 hk), norm_swap]

/-- **C88**: error of the split transform in both directions, relative to the Euclidean norm of the result. -/
theorem C88_split_gain (F : Rounding) (order : ℕ) (h1 : 1 ≤ order) (h2 : order ≤ 30) :
    ∃ p, SplitFftPlan.makeF F order = .ok p ∧
      ∀ x : List (FR F) × List (FR F), x.1.length = 2 ^ order → x.2.length = 2 ^ order →
      (∃ y, p.call x .forward = .ok y ∧ y.1.length = 2 ^ order ∧ y.2.length = 2 ^ order ∧
        Spec.l2 (2 ^ order) (fun k => vals2 y k - Spec.dft (2 ^ order) (vals2 x) k)
          ≤ (Spec.fftGain F.u F.ε order - 1) * Spec.l2 (2 ^ order) (Spec.dft (2 ^ order) (vals2 x))) ∧
      (∃ y, p.call x .backward = .ok y ∧ y.1.length = 2 ^ order ∧ y.2.length = 2 ^ order ∧
        Spec.l2 (2 ^ order) (fun k => vals2 y k - Spec.idft (2 ^ order) (vals2 x) k)
          ≤ (Spec.fftGain F.u F.ε order - 1) * Spec.l2 (2 ^ order) (Spec.idft (2 ^ order) (vals2 x))) := by
  refine ⟨_, splitPlan_makeF_eq F order, ?_⟩
  rintro ⟨re, im⟩ hr hi
  simp only [] at hr hi
  obtain ⟨f, rfl⟩ : ∃ f, re = vec (2 ^ order) f := ⟨_, list_eq_vec 0 hr⟩
  obtain ⟨g, rfl⟩ : ∃ f, im = vec (2 ^ order) f := ⟨_, list_eq_vec 0 hi⟩
  have hdft : ∀ k, Spec.dft (2 ^ order) (vals2 (vec (2 ^ order) f, vec (2 ^ order) g)) k
      = Spec.dft (2 ^ order) (joined (fun n => (f n).val) (fun n => (g n).val)) k := fun k => by
    unfold Spec.dft
    refine sum_congr rfl fun n hn => ?_
    unfold vals2
    rw [valsR_vec f (mem_range.1 hn), valsR_vec g (mem_range.1 hn)]
    rfl
  have hidft : ∀ k, Spec.idft (2 ^ order) (vals2 (vec (2 ^ order) f, vec (2 ^ order) g)) k
      = Spec.idft (2 ^ order) (joined (fun n => (f n).val) (fun n => (g n).val)) k := fun k => by
    unfold Spec.idft
    refine sum_congr rfl fun n hn => ?_
    unfold vals2
    rw [valsR_vec f (mem_range.1 hn), valsR_vec g (mem_range.1 hn)]
    rfl
  have hv : ∀ (y : ℕ → FC F) k, k < 2 ^ order → vals2 (planesOf (vec (2 ^ order) y)) k = (y k).val := by
    intro y k hk
    rw [planesOf_vec]
    unfold vals2
    rw [valsR_vec _ hk, valsR_vec _ hk]
    rfl
  constructor
  · obtain ⟨y, e, h⟩ := forward_err F h1 h2 (fun n => ⟨(f n).val, (g n).val⟩)
    rw [planesOf_vec] at e
    refine ⟨_, e, ?_, ?_, ?_⟩
    · rw [planesOf_vec]; exact length_vec _ _
    · rw [planesOf_vec]; exact length_vec _ _
    · rw [l2_congr (fun k _ => hdft k)]
      refine le_trans (le_of_eq (l2_congr fun k hk => ?_)) h
      rw [hv y k hk, hdft]
      rfl
  · obtain ⟨y, e, h⟩ := forward_err F h1 h2 (fun n => ⟨(g n).val, (f n).val⟩)
    rw [planesOf_vec] at e
    have e' : (splitPlanFOf F order).call (vec (2 ^ order) f, vec (2 ^ order) g) .backward
        = .ok (planesOf (vec (2 ^ order) y)).swap := by
      rw [splitF_backward _ _ hr hi]
      have : (splitPlanFOf F order).call (vec (2 ^ order) g, vec (2 ^ order) f) .forward
          = .ok (planesOf (vec (2 ^ order) y)) := e
      rw [this]
      rfl
    refine ⟨_, e', ?_, ?_, ?_⟩
    · rw [planesOf_vec]; exact length_vec _ _
    · rw [planesOf_vec]; exact length_vec _ _
    · have hj : ∀ k, Spec.dft (2 ^ order) (fun n => FC.val (⟨(g n).val, (f n).val⟩ : FC F)) k
          = ⟨(Spec.idft (2 ^ order) (joined (fun n => (f n).val) (fun n => (g n).val)) k).im,
            (Spec.idft (2 ^ order) (joined (fun n => (f n).val) (fun n => (g n).val)) k).re⟩ :=
        fun k => dft_swapped (2 ^ order) (fun n => (f n).val) (fun n => (g n).val) k
      rw [l2_congr (fun k _ => hidft k), ← l2_swap (2 ^ order) _ _ (fun k _ => hj k)]
      refine le_trans (le_of_eq ?_) h
      symm
      apply l2_swap
      intro k hk
      rw [hj k, hidft k]
      have hs : vals2 (planesOf (vec (2 ^ order) y)).swap k = ⟨(y k).val.im, (y k).val.re⟩ := by
        rw [planesOf_vec]
        show (⟨valsR (vec (2 ^ order) _) k, valsR (vec (2 ^ order) _) k⟩ : ℂ) = _
        rw [valsR_vec _ hk, valsR_vec _ hk]
        rfl
      rw [hs]
      apply Complex.ext <;> simp

/-- **C88**, explicit constant: at most `32 · order · u` for a unit roundoff of at most `2^-20` and `cos`/`sin`
accurate to `2u`. -/
theorem C88_split_error (F : Rounding) (hu : F.u ≤ 2⁻¹ ^ 20) (hε : F.ε ≤ 2 * F.u) (order : ℕ) (h1 : 1 ≤ order)
    (h2 : order ≤ 27) :
    ∃ p, SplitFftPlan.makeF F order = .ok p ∧
      ∀ x : List (FR F) × List (FR F), x.1.length = 2 ^ order → x.2.length = 2 ^ order →
      (∃ y, p.call x .forward = .ok y ∧ y.1.length = 2 ^ order ∧ y.2.length = 2 ^ order ∧
        Spec.l2 (2 ^ order) (fun k => vals2 y k - Spec.dft (2 ^ order) (vals2 x) k)
          ≤ 32 * order * F.u * Spec.l2 (2 ^ order) (Spec.dft (2 ^ order) (vals2 x))) ∧
      (∃ y, p.call x .backward = .ok y ∧ y.1.length = 2 ^ order ∧ y.2.length = 2 ^ order ∧
        Spec.l2 (2 ^ order) (fun k => vals2 y k - Spec.idft (2 ^ order) (vals2 x) k)
          ≤ 32 * order * F.u * Spec.l2 (2 ^ order) (Spec.idft (2 ^ order) (vals2 x))) := by
  have hg := fftGain_le F hu hε h2
  obtain ⟨p, hp, h⟩ := C88_split_gain F order h1 (by omega)
  refine ⟨p, hp, fun x hr hi => ?_⟩
  obtain ⟨⟨y, a1, a2, a2', a3⟩, ⟨z, b1, b2, b2', b3⟩⟩ := h x hr hi
  exact ⟨⟨y, a1, a2, a2', a3.trans (mul_le_mul_of_nonneg_right hg (l2_nonneg _ _))⟩,
    ⟨z, b1, b2, b2', b3.trans (mul_le_mul_of_nonneg_right hg (l2_nonneg _ _))⟩⟩

/-! ## The split convolvers -/

/-- **C88** (overlap-add): for every filter matrix and every list of blocks, of any lengths, the split-complex
convolver returns bit for bit what the interleaved one returns, or the same fault. -/
theorem C88_split_upola (F : Rounding) (v : MatView) (data : List (FC F)) (hv : v.InRange data.length)
    (blocks : List (List (FR F))) : splitUpolaRunF v data blocks = upolaRunF v data blocks :=
  run_rel olaF_param rfl rfl (splitFdl_law _ _) (denseFdl_law _ _) (fun h => splitFdl_bad h)
    (fun h => denseFdl_bad h) data data () () (H := matAt v data)
    (fun f0 => splitFilter_law hv f0 (fun _ _ _ _ => rfl))
    (fun f0 => denseFilter_law hv f0 (fun _ _ _ _ => rfl)) blocks

/-- **C88** (overlap-save). -/
theorem C88_split_upols (F : Rounding) (v : MatView) (data : List (FC F)) (hv : v.InRange data.length)
    (blocks : List (List (FR F))) : splitUpolsRunF v data blocks = upolsRunF v data blocks :=
  run_rel olsF_param rfl rfl (splitFdl_law _ _) (denseFdl_law _ _) (fun h => splitFdl_bad h)
    (fun h => denseFdl_bad h) data data () () (H := matAt v data)
    (fun f0 => splitFilter_law hv f0 (fun _ _ _ _ => rfl))
    (fun f0 => denseFilter_law hv f0 (fun _ _ _ _ => rfl)) blocks

/-! ## The sparse convolvers -/

/-- `data'` read through `v'` is `data` read through `v` with the rejected entries replaced by 0. -/
def ThresholdedF {F : Rounding} (p : ℕ → ℕ → FC F → Bool) (v : MatView) (data : List (FC F)) (v' : MatView)
    (data' : List (FC F)) : Prop :=
  v'.rows = v.rows ∧ v'.cols = v.cols ∧ v'.InRange data'.length ∧
  ∀ r < v.rows, ∀ c < v.cols, data'.getD (v'.idx r c) 0
    = if p r c (data.getD (v.idx r c) 0) then data.getD (v.idx r c) 0 else 0

/-- **C88** (sparse, overlap-add): if rounding leaves representable numbers alone, the sparse convolver returns bit
for bit what the dense convolver returns for the thresholded matrix: leaving out a product with 0 saves work and does
not change the rounding. -/
theorem C88_sparse_upola (F : Rounding) (hidem : ∀ x, F.rnd (F.rnd x) = F.rnd x) (p : ℕ → ℕ → FC F → Bool)
    (v : MatView) (data : List (FC F)) (hv : v.InRange data.length) (v' : MatView) (data' : List (FC F))
    (ht : ThresholdedF p v data v' data') (blocks : List (List (FR F))) :
    sparseUpolaRunF v data p blocks = upolaRunF v' data' blocks := by
  obtain ⟨h1, h2, h3, h4⟩ := ht
  refine run_rel olaF_param h1.symm h2.symm (denseFdl_law _ _) (denseFdl_law _ _)
    (fun h => denseFdl_bad h) (fun h => denseFdl_bad h) data data' p ()
    (H := sparsified p (matAt v data)) (AR₂ := fun acc a => acc = vec v.cols a)
    (fun f0 => sparseFilterF_law hidem hv f0 p (fun _ _ _ _ => rfl))
    (fun f0 => ?_) blocks
  have := denseFilter_law (v := v') h3 f0 (H := sparsified p (matAt v data))
    (fun r hr c hc => h4 r (h1 ▸ hr) c (h2 ▸ hc))
  rwa [h1, h2] at this

/-- **C88** (sparse, overlap-save). -/
theorem C88_sparse_upols (F : Rounding) (hidem : ∀ x, F.rnd (F.rnd x) = F.rnd x) (p : ℕ → ℕ → FC F → Bool)
    (v : MatView) (data : List (FC F)) (hv : v.InRange data.length) (v' : MatView) (data' : List (FC F))
    (ht : ThresholdedF p v data v' data') (blocks : List (List (FR F))) :
    sparseUpolsRunF v data p blocks = upolsRunF v' data' blocks := by
  obtain ⟨h1, h2, h3, h4⟩ := ht
  refine run_rel olsF_param h1.symm h2.symm (denseFdl_law _ _) (denseFdl_law _ _)
    (fun h => denseFdl_bad h) (fun h => denseFdl_bad h) data data' p ()
    (H := sparsified p (matAt v data)) (AR₂ := fun acc a => acc = vec v.cols a)
    (fun f0 => sparseFilterF_law hidem hv f0 p (fun _ _ _ _ => rfl))
    (fun f0 => ?_) blocks
  have := denseFilter_law (v := v') h3 f0 (H := sparsified p (matAt v data))
    (fun r hr c hc => h4 r (h1 ▸ hr) c (h2 ▸ hc))
  rwa [h1, h2] at this

/-- **C88** does not compare faults only: for a matrix of `2 ^ a + 1` bins and blocks of `2 ^ a` samples all four
convolvers produce one output block per input block. -/
theorem C88_not_vacuous (F : Rounding) (hidem : ∀ x, F.rnd (F.rnd x) = F.rnd x) (a : ℕ) (ha : 1 ≤ a) (ha2 : a ≤ 26)
    (v : MatView) (data : List (FC F)) (hv : v.InRange data.length) (hr : 1 ≤ v.rows) (hc : v.cols = 2 ^ a + 1)
    (blocks : List (List (FR F))) (hb : ∀ b ∈ blocks, b.length = 2 ^ a) :
    (∃ outs, splitUpolaRunF v data blocks = .ok outs ∧ outs.length = blocks.length) ∧
    (∃ outs, splitUpolsRunF v data blocks = .ok outs ∧ outs.length = blocks.length) ∧
    (∃ outs, sparseUpolaRunF v data (fun _ _ _ => true) blocks = .ok outs ∧ outs.length = blocks.length) ∧
    (∃ outs, sparseUpolsRunF v data (fun _ _ _ => true) blocks = .ok outs ∧ outs.length = blocks.length) := by
  have ht : ThresholdedF (fun _ _ _ => true) v data v data := ⟨rfl, rfl, hv, fun _ _ _ _ => by simp⟩
  rw [C88_split_upola F v data hv, C88_split_upols F v data hv, C88_sparse_upola F hidem _ v data hv v data ht,
    C88_sparse_upols F hidem _ v data hv v data ht, upolaRunF_eq ha ha2 hv hr hc blocks hb,
    upolsRunF_eq ha ha2 hv hr hc blocks hb]
  exact ⟨⟨_, rfl, length_vec _ _⟩, ⟨_, rfl, length_vec _ _⟩, ⟨_, rfl, length_vec _ _⟩, ⟨_, rfl, length_vec _ _⟩⟩

/-! ### A concrete format -/

theorem round24_idem (x : ℝ) : round24 (round24 x) = round24 x := by
  by_cases h : x = 0
  · subst h; simp [round24]
  set e := Int.log 2 |x| with he
  have hx : 0 < |x| := abs_pos.2 h
  have lo : (2 : ℝ) ^ e ≤ |x| := by
    have := Int.zpow_log_le_self (b := 2) (R := ℝ) (by norm_num) hx
    push_cast at this; exact this
  have hi : |x| < (2 : ℝ) ^ (e + 1) := by
    have := Int.lt_zpow_succ_log_self (b := 2) (R := ℝ) (by norm_num) |x|
    push_cast at this; exact this
  set U : ℝ := 2 ^ (e - 23) with hU
  have hU0 : 0 < U := by positivity
  have e1 : (2 : ℝ) ^ e = 2 ^ 23 * U := by
    rw [hU, zpow_sub₀ (by norm_num)]; norm_num; field_simp
  have e2 : (2 : ℝ) ^ (e + 1) = 2 ^ 24 * U := by
    rw [zpow_add_one₀ (by norm_num), e1]; ring
  set m := round (x / U) with hm
  have hy : round24 x = m * U := by
    unfold round24 ulp24
    rw [if_neg h]
  have hq1 : (2 : ℝ) ^ 23 ≤ |x / U| := by rw [abs_div, abs_of_pos hU0, le_div_iff₀ hU0]; linarith
  have hq2 : |x / U| < (2 : ℝ) ^ 24 := by rw [abs_div, abs_of_pos hU0, div_lt_iff₀ hU0]; linarith
  have hr := abs_sub_round (x / U)
  rw [← hm] at hr
  have hm1 : (2 : ℤ) ^ 23 ≤ |m| := by
    have : (2 : ℝ) ^ 23 - 1 < |(m : ℝ)| := by
      have := abs_sub_abs_le_abs_sub (x / U) m
      linarith
    have : ((2 ^ 23 - 1 : ℤ) : ℝ) < ((|m| : ℤ) : ℝ) := by push_cast; linarith
    have := Int.cast_lt.1 this
    omega
  have hm2 : |m| ≤ (2 : ℤ) ^ 24 := by
    have : |(m : ℝ)| < (2 : ℝ) ^ 24 + 1 := by
      have := abs_sub_abs_le_abs_sub (m : ℝ) (x / U)
      rw [abs_sub_comm] at this
      linarith
    have : ((|m| : ℤ) : ℝ) < ((2 ^ 24 + 1 : ℤ) : ℝ) := by push_cast; linarith
    have := Int.cast_lt.1 this
    omega
  have hm0 : m ≠ 0 := by
    rintro h0
    rw [h0] at hm1
    norm_num at hm1
  have hy0 : (m : ℝ) * U ≠ 0 := mul_ne_zero (Int.cast_ne_zero.2 hm0) hU0.ne'
  have hya : |(m : ℝ) * U| = (|m| : ℤ) * U := by rw [abs_mul, abs_of_pos hU0, Int.cast_abs]
  rw [hy]
  unfold round24 ulp24
  rw [if_neg hy0]
  rcases lt_or_eq_of_le hm2 with h2 | h2
  · have hlog : Int.log 2 |(m : ℝ) * U| = e := by
      apply le_antisymm
      · have : |(m : ℝ) * U| < ((2 : ℕ) : ℝ) ^ (e + 1) := by
          rw [hya]; push_cast; rw [e2]
          have : ((|m| : ℤ) : ℝ) < 2 ^ 24 := by exact_mod_cast h2
          push_cast at this
          exact mul_lt_mul_of_pos_right this hU0
        have := (Int.lt_zpow_iff_log_lt (by norm_num) (abs_pos.2 hy0)).1 this
        omega
      · apply (Int.zpow_le_iff_le_log (by norm_num) (abs_pos.2 hy0)).1
        rw [hya]; push_cast; rw [e1]
        have : (2 ^ 23 : ℝ) ≤ ((|m| : ℤ) : ℝ) := by exact_mod_cast hm1
        push_cast at this
        exact mul_le_mul_of_nonneg_right this hU0.le
    rw [hlog, ← hU, mul_div_cancel_right₀ _ hU0.ne', round_intCast]
  · have hlog : Int.log 2 |(m : ℝ) * U| = e + 1 := by
      rw [hya, h2]
      rw [show (((2 : ℤ) ^ 24 : ℤ) : ℝ) = 2 ^ 24 by norm_num, ← e2]
      have := Int.log_zpow (R := ℝ) (b := 2) (by norm_num) (e + 1)
      push_cast at this
      exact this
    rw [hlog]
    have hU2 : (2 : ℝ) ^ (e + 1 - 23) = 2 * U := by
      rw [hU, show e + 1 - 23 = (e - 23) + 1 by ring, zpow_add_one₀ (by norm_num)]; ring
    rw [hU2]
    have hhalf : (m : ℝ) * U / (2 * U) = ((m / 2 : ℤ) : ℝ) := by
      have : m = m / 2 * 2 := by
        rcases abs_choice m with c | c <;> omega
      have c : (m : ℝ) = ((m / 2 : ℤ) : ℝ) * 2 := by exact_mod_cast this
      rw [mul_div_mul_right _ _ hU0.ne', c]
      ring_nf
    rw [hhalf, round_intCast, ← hhalf]
    field_simp

/-- Round half away from zero to 24 bits. -/
noncomputable def round24s (x : ℝ) : ℝ := if 0 ≤ x then round24 x else -round24 (-x)

private theorem round24_nonneg {x : ℝ} (h : 0 ≤ x) : 0 ≤ round24 x := by
  have := round24_err x
  rw [abs_of_nonneg h] at this
  have := (abs_le.1 this).1
  have : (2⁻¹ : ℝ) ^ 24 * x ≤ x := by nlinarith [show (2⁻¹ : ℝ) ^ 24 ≤ 1 by norm_num]
  linarith

private theorem round24_zero : round24 0 = 0 := by simp [round24]

theorem round24s_neg (x : ℝ) : round24s (-x) = -round24s x := by
  unfold round24s
  rcases lt_trichotomy x 0 with h | h | h
  · rw [if_pos (by linarith), if_neg (by linarith), neg_neg]
  · subst h; simp [round24_zero]
  · rw [if_neg (by linarith), if_pos h.le, neg_neg]

theorem round24s_err (x : ℝ) : |round24s x - x| ≤ 2⁻¹ ^ 24 * |x| := by
  unfold round24s
  split
  · exact round24_err x
  · have := round24_err (-x)
    rw [abs_neg x] at this
    rwa [show -round24 (-x) - x = -(round24 (-x) - -x) by ring, abs_neg]

theorem round24s_idem (x : ℝ) : round24s (round24s x) = round24s x := by
  rcases le_or_gt 0 x with h | h
  · have e : round24s x = round24 x := if_pos h
    rw [e]
    unfold round24s
    rw [if_pos (round24_nonneg h), round24_idem]
  · have e : round24s x = -round24 (-x) := if_neg (not_le.2 h)
    rw [e, round24s_neg]
    unfold round24s
    rw [if_pos (round24_nonneg (by linarith)), round24_idem]

/-- `float` without overflow and underflow, ties rounded away from zero, correctly rounded library functions. -/
noncomputable def binary32s : Rounding where
  rnd := round24s
  u := 2⁻¹ ^ 24
  u_nonneg := by positivity
  u_lt_one := by norm_num
  rnd_err := round24s_err
  twoPi := round24s (2 * Real.pi)
  twoPi_err := by
    have := round24s_err (2 * Real.pi)
    rwa [abs_of_pos (show 0 < 2 * Real.pi by have := Real.pi_pos; positivity)] at this
  cos := fun x => round24s (Real.cos x)
  sin := fun x => round24s (Real.sin x)
  ε := 2⁻¹ ^ 24
  cos_err := fun x => (round24s_err _).trans (by
    have := Real.abs_cos_le_one x
    have h : (0 : ℝ) ≤ 2⁻¹ ^ 24 := by positivity
    nlinarith)
  sin_err := fun x => (round24s_err _).trans (by
    have := Real.abs_sin_le_one x
    have h : (0 : ℝ) ≤ 2⁻¹ ^ 24 := by positivity
    nlinarith)

/-- That format meets the hypotheses of C88. -/
example : (∀ x, binary32s.rnd (binary32s.rnd x) = binary32s.rnd x) ∧ binary32s.Symmetric ∧
    binary32s.u ≤ 2⁻¹ ^ 20 ∧ binary32s.ε ≤ 2 * binary32s.u := by
  refine ⟨round24s_idem, ⟨round24s_neg, fun x => ?_, fun x => ?_⟩, ?_, ?_⟩
  · show round24s (Real.cos (-x)) = round24s (Real.cos x)
    rw [Real.cos_neg]
  · show round24s (Real.sin (-x)) = -round24s (Real.sin x)
    rw [Real.sin_neg, round24s_neg]
  · show (2⁻¹ : ℝ) ^ 24 ≤ _
    norm_num
  · show (2⁻¹ : ℝ) ^ 24 ≤ 2 * 2⁻¹ ^ 24
    norm_num

/-- One partition of three bins and two-sample blocks: the split convolver works and agrees with the interleaved
one. -/
example (data : List (FC binary32s)) (hd : data.length = 3) (b : List (FR binary32s)) (hb : b.length = 2) :
    ∃ outs, splitUpolsRunF (MatView.right 1 3) data [b, b] = .ok outs ∧ outs.length = 2 ∧
      upolsRunF (MatView.right 1 3) data [b, b] = .ok outs := by
  have hv : (MatView.right 1 3).InRange data.length := by
    intro r hr c hc
    simp only [MatView.right, MatView.idx] at *
    omega
  obtain ⟨-, ⟨outs, e, hl⟩, -⟩ := C88_not_vacuous binary32s round24s_idem 1 le_rfl (by norm_num) (MatView.right 1 3) data
    hv (by decide) rfl [b, b] (by simpa using hb)
  exact ⟨outs, e, hl, by rw [← C88_split_upols _ _ _ hv]; exact e⟩

end Neo.Props
