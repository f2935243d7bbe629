import Verif.Lemmas.Stream
import Verif.Lemmas.Out

/-!
# Overlap-add and overlap-save: C21, C22
-/

namespace Neo.Props

open Finset

theorem getD_zero_of_le {h : List ℝ} {F m : ℕ} (hF : h.length ≤ F) (hm : F ≤ m) :
    h.getD m 0 = 0 := by
  rw [List.getD_eq_getElem?_getD, List.getElem?_eq_none (by omega)]; rfl

/-! ## C21 -/

/-- **C21** (part): `overlap_add{B, F}` streams the linear convolution with every `F`-tap filter,
for every history of blocks, provided `F ≤ B + 1` and the transform (of size
`K = bit_ceil(B + F - 1)`) holds two blocks.

Missing for the full statement: the other sizes, for which the statement is false of the code,
see `C21_long_filter_fails` and `C21_short_transform_oob`. -/
theorem C21_overlap_add_partial (B F : ℕ) (hB : 1 ≤ B) (hF : F ≤ B + 1)
    (hK : 2 * B ≤ 2 ^ Nat.clog 2 (B + F - 1)) (hsize : B + F - 1 ≤ 2 ^ 27)
    (h : List ℝ) (hh : h.length = F) (blocks : List (List ℝ)) (hlen : ∀ b ∈ blocks, b.length = B) :
    ∃ o, OverlapAdd.make B F = .ok o ∧
      StreamsConv (oaProc (halfSpectrum o.rfft.size h)) o blocks (fun i => h.getD i 0) := by
  have hb : Nat.clog 2 (B + F - 1) ≤ 27 := (Nat.clog_le_iff_le_pow (by norm_num)).2 hsize
  refine ⟨_, overlapAdd_make_eq hb, ?_⟩
  have hcl := Nat.le_pow_clog (b := 2) (by norm_num) (B + F - 1)
  generalize Nat.clog 2 (B + F - 1) = b at *
  have hb1 : 1 ≤ b := by
    rcases b with _ | b
    · omega
    · omega
  have hsz : (oaOf B F b (fun _ => 0) (fun _ => 0) (fun _ => 0) (fun _ => 0)).rfft.size = 2 ^ b :=
    rfftPlanOf_size _ _
  rw [hsz, halfSpectrum_eq]
  have hz : ∀ m, F ≤ m → h.getD m 0 = 0 := fun m hm => getD_zero_of_le hh.le hm
  refine streamsConv_of_inv hlen (fun x t o => ∃ f w sp ov, o = oaOf B F b f w sp ov ∧
    (∀ k, B * 2 ≤ k → k < 2 ^ b → w k = 0) ∧
    ∀ i < B, ov i = if 1 ≤ t then Spec.conv (fun i => h.getD i 0) (seg B x (t - 1)) (B + i) else 0)
    (fun x => ⟨_, _, _, _, rfl, fun _ _ _ => rfl, fun _ _ => rfl⟩) ?_
  rintro x t _ ⟨f, w, sp, ov, rfl, hw, hov⟩
  have hg : ∀ k < 2 ^ b, oaWindow B (fun i => x (t * B + i)) w k = seg B x t k := by
    intro k hk
    unfold oaWindow seg
    by_cases c : k < B
    · rw [if_pos c, if_pos c]
    · rw [if_neg c, if_neg c]
      by_cases c2 : k < B * 2
      · rw [if_pos c2]
      · rw [if_neg c2, hw k (by omega) hk]
  have hcc : ∀ n < 2 ^ b, Spec.circConv (2 ^ b) (seg B x t) (fun i => h.getD i 0) n
      = Spec.conv (fun i => h.getD i 0) (seg B x t) n := fun n hn =>
    circConv_eq_conv (P := B) (Q := F) (fun m hm => seg_zero hm) hz (by omega) hn
  obtain ⟨f', sp', e⟩ := oaProc_step (F := F) hb1 (by omega) f w sp ov _ (seg B x t)
    (fun i => h.getD i 0) hg
  have hout : (vec B fun i => Spec.circConv (2 ^ b) (seg B x t) (fun i => h.getD i 0) i + ov i)
      = vec B (fun i => Spec.conv (fun i => h.getD i 0) x (t * B + i)) := by
    apply vec_ext
    intro i hi
    rw [hcc i (by omega), hov i hi, conv_two_blocks (fun m hm => hz m (by omega)) x t hi]
  rw [hout] at e
  refine ⟨_, e, f', _, sp', _, rfl, ?_, ?_⟩
  · intro k h1 h2
    rw [hcc k h2]
    exact conv_eq_zero (P := B) (Q := F) (fun m hm => seg_zero hm) hz (by omega)
  · intro i hi
    rw [hcc _ (by omega), if_pos (by omega), Nat.add_sub_cancel]

/-- Sizes meeting the hypotheses: two-sample blocks, three taps, transform size 4. -/
example : (1 : ℕ) ≤ 2 ∧ 3 ≤ 2 + 1 ∧ 2 * 2 ≤ 2 ^ Nat.clog 2 (2 + 3 - 1) ∧ 2 + 3 - 1 ≤ 2 ^ 27 := by
  decide +kernel

/-- The full statement of **C21** is false: with one-sample blocks and three taps (transform
size 4), the filter `[0, 0, 1]` delays by one sample instead of two. -/
theorem C21_long_filter_fails :
    ∃ o, OverlapAdd.make 1 3 = .ok o ∧
      ¬ StreamsConv (oaProc (halfSpectrum o.rfft.size [0, 0, 1])) o [[1], [0]]
        (fun i => ([0, 0, 1] : List ℝ).getD i 0) := by
  have hcl : Nat.clog 2 (1 + 3 - 1) = 2 := by decide +kernel
  refine ⟨_, overlapAdd_make_eq (by omega), ?_⟩
  rw [hcl]
  have hsz : (oaOf 1 3 2 (fun _ => 0) (fun _ => 0) (fun _ => 0) (fun _ => 0)).rfft.size = 2 ^ 2 :=
    rfftPlanOf_size _ _
  rw [hsz, halfSpectrum_eq]
  rintro ⟨s', outs, e, -, ho⟩
  obtain ⟨f1, sp1, e1⟩ := oaProc_step (B := 1) (F := 3) (b := 2) (by omega) (by omega) (fun _ => 0)
    (fun _ => 0) (fun _ => 0) (fun _ => 0) (fun _ => 1) (fun k => if k = 0 then 1 else 0)
    (fun i => ([0, 0, 1] : List ℝ).getD i 0) (by
      intro k hk
      unfold oaWindow
      by_cases c : k = 0
      · simp [c]
      · rw [if_neg (by omega), if_neg c]; simp)
  obtain ⟨f2, sp2, e2⟩ := oaProc_step (B := 1) (F := 3) (b := 2) (by omega) (by omega) f1
    (fun n => Spec.circConv (2 ^ 2) (fun k => if k = 0 then (1 : ℝ) else 0)
      (fun i => ([0, 0, 1] : List ℝ).getD i 0) n) sp1
    (fun i => Spec.circConv (2 ^ 2) (fun k => if k = 0 then (1 : ℝ) else 0)
      (fun i => ([0, 0, 1] : List ℝ).getD i 0) (1 + i)) (fun _ => 0)
    (fun k => if k = 2 then 1 else 0)
    (fun i => ([0, 0, 1] : List ℝ).getD i 0) (by
      intro k hk
      have : k = 0 ∨ k = 1 ∨ k = 2 ∨ k = 3 := by omega
      rcases this with rfl | rfl | rfl | rfl <;>
        simp [oaWindow, Spec.circConv, Finset.sum_range_succ])
  change oaProc _ _ [1] = _ at e1
  change oaProc _ _ [0] = _ at e2
  simp only [runBlocks] at e
  rw [e1, bind_ok] at e
  simp only [] at e
  rw [e2, bind_ok, bind_ok, pure_eq_ok, bind_ok, pure_eq_ok] at e
  injection e with e
  injection e with _ e
  subst e
  have h1 := ho 1 (by simp)
  simp [vec, Spec.circConv, Spec.conv, Finset.sum_range_succ] at h1

/-- **C21**, sizes for which the transform is shorter than two blocks (for instance one tap, or
three-sample blocks and two taps): the very first call leaves the buffer. -/
theorem C21_short_transform_oob (B F : ℕ) (hK : 2 ^ Nat.clog 2 (B + F - 1) < 2 * B)
    (hsize : B + F - 1 ≤ 2 ^ 27) (H : List ℂ) (block : List ℝ) (hlen : block.length = B) :
    ∃ o, OverlapAdd.make B F = .ok o ∧ oaProc H o block = .error .oob := by
  have hb : Nat.clog 2 (B + F - 1) ≤ 27 := (Nat.clog_le_iff_le_pow (by norm_num)).2 hsize
  have hpos : 0 < 2 ^ Nat.clog 2 (B + F - 1) := by positivity
  refine ⟨_, overlapAdd_make_eq hb, ?_⟩
  unfold oaProc
  rw [list_eq_vec (0 : ℝ) hlen, oa_short (by omega)]
  rfl

example : 2 ^ Nat.clog 2 (3 + 2 - 1) < 2 * 3 := by decide +kernel

/-- **C21**: a block of any other length than the block size is an assertion failure, in every state. -/
theorem C21_wrong_length (H : List ℂ) (o : OverlapAdd) (block : List ℝ) (h : block.length ≠ o.blockSize) :
    oaProc H o block = .error .assertion := by
  unfold oaProc OverlapAdd.call
  rw [decide_eq_false h]
  rfl

/-! ## C22 -/

/-- **C22**: `overlap_save{B, F}` streams the linear convolution with every `F`-tap filter, for
every history of blocks, for every block size `B` dividing the transform size (in particular
every power of two), `(B, F) = (1, 1)` excepted. -/
theorem C22_overlap_save (B F : ℕ) (hB : 1 ≤ B) (hF : 1 ≤ F) (h3 : 3 ≤ B + F)
    (hdvd : B ∣ 2 ^ Nat.clog 2 (B + F - 1)) (hsize : B + F - 1 ≤ 2 ^ 27)
    (h : List ℝ) (hh : h.length = F) (blocks : List (List ℝ)) (hlen : ∀ b ∈ blocks, b.length = B) :
    ∃ o, OverlapSave.make B F = .ok o ∧
      StreamsConv (osProc (halfSpectrum o.plan.size h)) o blocks (fun i => h.getD i 0) := by
  have hb : Nat.clog 2 (B + F - 1) ≤ 27 := (Nat.clog_le_iff_le_pow (by norm_num)).2 hsize
  refine ⟨_, overlapSave_make_eq hb, ?_⟩
  have hcl := Nat.le_pow_clog (b := 2) (by norm_num) (B + F - 1)
  have hb1 : 1 ≤ Nat.clog 2 (B + F - 1) := Nat.clog_pos (by norm_num) (by omega)
  generalize Nat.clog 2 (B + F - 1) = b at *
  have hsz : (osOf B F b (fun _ => 0) (fun _ => 0) (fun _ => 0) (fun _ => 0)).plan.size = 2 ^ b :=
    rfftPlanOf_size _ _
  rw [hsz, halfSpectrum_eq]
  have hz : ∀ m, F ≤ m → h.getD m 0 = 0 := fun m hm => getD_zero_of_le hh.le hm
  refine streamsConv_of_inv hlen (fun x t o => ∃ f w rb cbuf, o = osOf B F b f w rb cbuf ∧
    ∀ k < 2 ^ b, w k = if 2 ^ b ≤ t * B + k then x (t * B + k - 2 ^ b) else 0)
    (fun x => ⟨_, _, _, _, rfl, fun k hk => by rw [if_neg (by omega)]⟩) ?_
  rintro x t _ ⟨f, w, rb, cbuf, rfl, hw⟩
  have hg : ∀ k < 2 ^ b, osWindow (2 ^ b) B (fun i => x (t * B + i)) w k
      = if 2 ^ b ≤ (t + 1) * B + k then x ((t + 1) * B + k - 2 ^ b) else 0 := by
    intro k hk
    rw [osWindow_dvd hdvd, add_mul, one_mul]
    by_cases c : k + B < 2 ^ b
    · rw [if_pos c, hw _ c, show t * B + (k + B) = t * B + B + k by omega]
    · rw [if_neg c, if_pos (by omega)]
      congr 1; omega
  obtain ⟨f', rb', cbuf', e⟩ := osProc_step (F := F) hb1 hB (by omega) f w rb cbuf _ _
    (fun i => h.getD i 0) hg
  suffices hout : (vec B fun i => Spec.circConv (2 ^ b) (fun k => if 2 ^ b ≤ (t + 1) * B + k then
        x ((t + 1) * B + k - 2 ^ b) else 0) (fun i => h.getD i 0) (2 ^ b - B + i))
      = vec B (fun i => Spec.conv (fun i => h.getD i 0) x (t * B + i)) by
    rw [hout] at e
    exact ⟨_, e, f', _, rb', cbuf', rfl, fun k hk => rfl⟩
  apply vec_ext
  intro i hi
  rw [circConv_no_wrap (Q := F) (by omega) (by omega) hz, conv_support hz]
  apply sum_congr rfl
  intro m hm
  rw [mem_range] at hm
  beta_reduce
  have e1 : (t + 1) * B = t * B + B := by ring
  rw [e1]
  by_cases c : m ≤ t * B + i
  · rw [if_pos c, if_pos (by omega)]
    congr 2; omega
  · rw [if_neg c, if_neg (by omega), mul_zero]

/-- **C22**: a block of any other length than the block size is an assertion failure, in every state. -/
theorem C22_wrong_length (H : List ℂ) (o : OverlapSave) (block : List ℝ) (h : block.length ≠ o.blockSize) :
    osProc H o block = .error .assertion := by
  unfold osProc OverlapSave.call
  rw [decide_eq_false h]
  rfl

/-- Every power-of-two block size qualifies. -/
theorem C22_power_of_two (a F : ℕ) (hF : 1 ≤ F) : 2 ^ a ∣ 2 ^ Nat.clog 2 (2 ^ a + F - 1) := by
  apply pow_dvd_pow
  calc a = Nat.clog 2 (2 ^ a) := (Nat.clog_pow 2 a (by norm_num)).symm
    _ ≤ _ := Nat.clog_mono_right 2 (by omega)

example : (3 : ℕ) ≤ 4 + 7 ∧ 4 ∣ 2 ^ Nat.clog 2 (4 + 7 - 1) := by decide +kernel

/-- The exception: for `B = F = 1` the transform has order 0 and the call leaves the buffers. -/
theorem C22_one_one_oob (H : List ℂ) (x : ℝ) :
    ∃ o, OverlapSave.make 1 1 = .ok o ∧ osProc H o [x] = .error .oob := by
  have hcl : Nat.clog 2 (1 + 1 - 1) = 0 := by decide +kernel
  refine ⟨_, overlapSave_make_eq (by omega), ?_⟩
  rw [hcl]
  unfold osProc OverlapSave.call
  have h1 : (osOf 1 1 0 (fun _ => 0) (fun _ => 0) (fun _ => 0) (fun _ => 0)).blockSize = 1 := rfl
  have h2 : (osOf 1 1 0 (fun _ => 0) (fun _ => 0) (fun _ => 0) (fun _ => 0)).window
    = vec (2 ^ 0) (fun _ => 0) := rfl
  have h3 : (osOf 1 1 0 (fun _ => 0) (fun _ => 0) (fun _ => 0) (fun _ => 0)).plan
    = rfftPlanOf 0 (fun _ => 0) := rfl
  simp only [h1, h2, h3, rfftPlanOf_size]
  rw [show [x] = vec (2 ^ 0) (fun _ => x) from rfl, length_vec]
  simp only [pow_zero, decide_true, check_true, bind_ok, subIdx, le_refl, if_true]
  rw [rdSpan_vec (by omega) (by omega), bind_ok, slideWindowLeft_vec (by omega), bind_ok,
    show 1 - (1 - 1) = 1 from rfl, copyInto_vec _ _ (by omega), bind_ok]
  have := fun o => rfft_order_zero (fun _ => 0) (fun i => if 1 - 1 ≤ i ∧ i < 1 - 1 + 1
    then x else if i + 1 < 1 / 1 * 1 then 0 else 0) o
  simp only [pow_zero] at this
  rw [this]
  rfl

/-- Block sizes not dividing the transform size break the property: three-sample blocks and two
taps (transform size 4); the window is never shifted and the unit delay loses samples. -/
theorem C22_non_dividing_block_fails :
    ∃ o, OverlapSave.make 3 2 = .ok o ∧
      ¬ StreamsConv (osProc (halfSpectrum o.plan.size [0, 1])) o [[0, 0, 1], [0, 0, 0]]
        (fun i => ([0, 1] : List ℝ).getD i 0) := by
  have hcl : Nat.clog 2 (3 + 2 - 1) = 2 := by decide +kernel
  refine ⟨_, overlapSave_make_eq (by omega), ?_⟩
  rw [hcl]
  have hsz : (osOf 3 2 2 (fun _ => 0) (fun _ => 0) (fun _ => 0) (fun _ => 0)).plan.size = 2 ^ 2 :=
    rfftPlanOf_size _ _
  rw [hsz, halfSpectrum_eq]
  rintro ⟨s', outs, e, -, ho⟩
  obtain ⟨f1, rb1, cb1, e1⟩ := osProc_step (B := 3) (F := 2) (b := 2) (by omega) (by omega)
    (by omega) (fun _ => 0) (fun _ => 0) (fun _ => 0) (fun _ => 0) (fun k => if k = 2 then 1 else 0)
    (fun k => if k = 3 then 1 else 0) (fun i => ([0, 1] : List ℝ).getD i 0) (by
      intro k hk
      have : k = 0 ∨ k = 1 ∨ k = 2 ∨ k = 3 := by omega
      rcases this with rfl | rfl | rfl | rfl <;> simp [osWindow])
  obtain ⟨f2, rb2, cb2, e2⟩ := osProc_step (B := 3) (F := 2) (b := 2) (by omega) (by omega)
    (by omega) f1 (fun k => if k = 3 then 1 else 0) rb1 cb1 (fun k => 0)
    (fun k => 0) (fun i => ([0, 1] : List ℝ).getD i 0) (by
      intro k hk
      have : k = 0 ∨ k = 1 ∨ k = 2 ∨ k = 3 := by omega
      rcases this with rfl | rfl | rfl | rfl <;> simp [osWindow])
  rw [show vec 3 (fun k => if k = 2 then 1 else 0) = ([0, 0, 1] : List ℝ) by
      simp [vec, List.range_succ]] at e1
  change osProc _ _ [0, 0, 0] = _ at e2
  simp only [runBlocks] at e
  rw [e1, bind_ok] at e
  simp only [] at e
  rw [e2, bind_ok, bind_ok, pure_eq_ok, bind_ok, pure_eq_ok] at e
  injection e with e
  injection e with _ e
  subst e
  have h1 := ho 3 (by simp)
  simp [vec, Spec.circConv, Spec.conv, Finset.sum_range_succ, List.range_succ] at h1

end Neo.Props
