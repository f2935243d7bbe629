import Verif.Lemmas.Spectrum
import Verif.Props.SparseRender

/-! # C65, C66, C67: level statistics and images of the plugin -/

namespace Neo.Props

open Neo Finset

open Classical in
/-- **C65**.  For every non-empty spectrogram (fewer than `2^31` bins) and every weighting with finite
values, `powerHistogram` returns 144 counters without a fault; counter `i` is the number of bins whose level
relative to the strongest bin, weighted and limited to `-143 … 0` dB, rounds to `-i` dB. -/
theorem C65_histogram (v : MatView) (data : List ℂ) (weighting : ℕ → Res EReal) (w : ℕ → ℝ)
    (hv : v.InRange data.length) (hr : 1 ≤ v.rows) (hc : 1 ≤ v.cols) (hsz : v.rows * v.cols < 2 ^ 31)
    (hw : ∀ k < v.cols, weighting k = .ok (w k : EReal)) :
    ∃ peak, IsGreatest {p | ∃ j < v.rows, ∃ k < v.cols, p = ‖matAt v data j k‖ ^ 2} peak ∧
      powerHistogram v data weighting
        = .ok (vec 144 (fun i => (Spec.levelCount v.rows v.cols (fun j k => ‖matAt v data j k‖ ^ 2) w peak i : ℤ))) := by
  have hr2 : v.rows < 2 ^ 32 := by nlinarith
  have hc2 : v.cols < 2 ^ 32 := by nlinarith
  obtain ⟨pk, hpk, hs⟩ := spectrumScale_eq hv hr hc hr2 hc2
  refine ⟨pk, hpk, ?_⟩
  set near : ℕ → ℕ → ℕ → Prop := fun i j k =>
    Spec.Nearest (Spec.attenuation (Spec.level pk (‖matAt v data j k‖ ^ 2) + w k)) i with hnear
  have hcount : ∀ i, Spec.levelCount v.rows v.cols (fun j k => ‖matAt v data j k‖ ^ 2) w pk i
      = ∑ j ∈ range v.rows, #{k ∈ range v.cols | near i j k} := by
    intro i
    exact card_filter_product v.rows v.cols (fun j k => near i j k)
  simp only [hcount]
  unfold powerHistogram
  rw [hs, bind_ok, forUInt_eq hr2]
  refine forN_eq' (fun t => vec 144 (fun i => ((∑ j ∈ range t, #{k ∈ range v.cols | near i j k} : ℕ) : ℤ)))
    ?_ rfl ?_
  · symm
    rw [eq_vec_iff]
    refine ⟨List.length_replicate, fun i hi => ?_⟩
    rw [List.getElem?_replicate, if_pos hi, sum_range_zero]
    rfl
  intro j hj
  rw [forUInt_eq hc2]
  refine forN_eq' (fun t => vec 144 (fun i => ((∑ j ∈ range j, #{k ∈ range v.cols | near i j k}
    + #{k ∈ range t | near i j k} : ℕ) : ℤ))) ?_ ?_ ?_
  · simp
  · apply vec_ext
    intro i _
    rw [sum_range_succ]
  intro k hk
  have hidx := hv j hj k hk
  have hrd : rd data (v.idx j k) = .ok (matAt v data j k) := by
    rw [rd_ok hidx]
    unfold matAt
    rw [List.getD_eq_getElem?_getD, List.getElem?_eq_getElem hidx, Option.getD_some]
  obtain ⟨i0, hi0, e0, h0⟩ := index_spec (Spec.level pk (‖matAt v data j k‖ ^ 2) + w k)
  unfold histogramStep
  rw [hw k hk, bind_ok, hrd, bind_ok, weightedDb_eq (hpk.2 ⟨j, hj, k, hk, rfl⟩)]
  dsimp only
  rw [e0, rd_vec_ok hi0, bind_ok]
  have hle1 : ∑ j ∈ range j, #{k ∈ range v.cols | near i0 j k} ≤ j * v.cols := by
    calc _ ≤ ∑ j ∈ range j, v.cols := by
          apply sum_le_sum
          intro r _
          exact (card_filter_le _ _).trans (by simp)
      _ = j * v.cols := by simp
  have hle2 : #{k ∈ range k | near i0 j k} ≤ k := (card_filter_le _ _).trans (by simp)
  have hle3 : (j + 1) * v.cols ≤ v.rows * v.cols := Nat.mul_le_mul_right _ hj
  have hle4 : (j + 1) * v.cols = j * v.cols + v.cols := by ring
  rw [if_pos (by omega), wr_vec_ok hi0]
  congr 1
  apply vec_ext
  intro i hi
  rw [card_filter_range_succ]
  by_cases c : i = i0
  · subst c
    rw [Function.update_self, if_pos ((h0 i).2 rfl)]
    push_cast
    ring
  · rw [Function.update_of_ne c, if_neg (fun q => c ((h0 i).1 q)), add_zero]

open Classical in
/-- Every bin is counted exactly once. -/
theorem C65_total (rows cols : ℕ) (P : ℕ → ℕ → ℝ) (w : ℕ → ℝ) (peak : ℝ) :
    ∑ i ∈ range 144, Spec.levelCount rows cols P w peak i = rows * cols := by
  choose idx hidx _ huniq using fun q : ℕ × ℕ => index_spec (Spec.level peak (P q.1 q.2) + w q.2)
  have := card_eq_sum_card_fiberwise (f := idx) (s := range rows ×ˢ range cols) (t := range 144)
    (fun q _ => by simpa using hidx q)
  rw [card_product, card_range, card_range] at this
  rw [this]
  apply sum_congr rfl
  intro i _
  unfold Spec.levelCount
  congr 1
  apply filter_congr
  intro q _
  rw [huniq q i]
  exact eq_comm

/-- Levels relative to the strongest bin are at most 0 dB and at least -72 dB. -/
private theorem level_bounds {pk p : ℝ} (h1 : p ≤ pk) : -72 ≤ Spec.level pk p ∧ Spec.level pk p ≤ 0 := by
  unfold Spec.level
  split_ifs with h
  · norm_num
  · have hp := not_le.1 h
    refine ⟨le_max_left _ _, max_le (by norm_num) ?_⟩
    have : Real.logb 10 (p / pk) ≤ 0 := by
      apply Real.logb_nonpos (by norm_num) (div_nonneg hp.le (hp.le.trans h1))
      rw [div_le_one (hp.trans_le h1)]
      exact h1
    linarith

/-- The loop of `std::max_element`. -/
private theorem max_loop {n : ℕ} (hn : 1 ≤ n) (f : ℕ → ℤ) {L : ℕ} (hL : n ≤ L) :
    ∃ m, forN n (fun i (m : ℤ) => do
      let x ← rd (vec L f) i
      pure (if m < x then x else m)) (f 0) = .ok m ∧ (∀ i < n, f i ≤ m) ∧ ∃ i < n, m = f i := by
  have : ∃ m, forN n (fun i (m : ℤ) => do
      let x ← rd (vec L f) i
      pure (if m < x then x else m)) (f 0) = .ok m ∧ (∀ i < n, f i ≤ m) ∧ ∃ i < n, m = f i :=
    forN_inv (fun t m => (∀ i < t, f i ≤ m) ∧ ∃ i < n, m = f i) ⟨by intro i hi; omega, 0, hn, rfl⟩
    (by
      intro t ht m ⟨h1, i, hi, h2⟩
      rw [rd_vec_ok (by omega), bind_ok, pure_eq_ok]
      refine ⟨_, rfl, ?_, ?_⟩
      · intro i hi
        rcases Nat.lt_succ_iff_lt_or_eq.1 hi with hi | rfl
        · have := h1 i hi
          split_ifs <;> omega
        · split_ifs <;> omega
      · split_ifs
        · exact ⟨t, ht, rfl⟩
        · exact ⟨i, hi, h2⟩)
  exact this

/-- A loop that appends one element per iteration. -/
private theorem collect_loop {α : Type} {n : ℕ} {body : ℕ → List α → Res (List α)} {F : ℕ → α}
    (h : ∀ i < n, ∀ acc, body i acc = .ok (acc ++ [F i])) : forN n body [] = .ok (vec n F) := by
  refine forN_eq' (fun t => vec t F) rfl rfl ?_
  intro i hi
  rw [h i hi]
  unfold vec
  rw [List.range_succ, List.map_append, List.map_singleton]

open Classical in
/-- The bars of `powerHistogramImage`: if no weight is at or below -70.5 dB, one bar per level
`0 … 142` dB, of width 8 at the bottom of a 250 pixels high image; the heights are proportional to the counts and the
tallest bar fills the image. -/
theorem C65_bars (v : MatView) (data : List ℂ) (weighting : ℕ → Res EReal) (w : ℕ → ℝ)
    (hv : v.InRange data.length) (hr : 1 ≤ v.rows) (hc : 1 ≤ v.cols) (hsz : v.rows * v.cols < 2 ^ 31)
    (hw : ∀ k < v.cols, weighting k = .ok (w k : EReal)) (hw2 : ∀ k < v.cols, -70.5 < w k) :
    ∃ peak top, ∃ height : ℕ → ℤ,
      IsGreatest {p | ∃ j < v.rows, ∃ k < v.cols, p = ‖matAt v data j k‖ ^ 2} peak ∧
      let count := Spec.levelCount v.rows v.cols (fun j k => ‖matAt v data j k‖ ^ 2) w peak
      IsGreatest {c | ∃ i < 143, c = count i} top ∧ 0 < top ∧
      powerHistogramBars v data weighting = .ok (vec 143 (fun i => ⟨8 * i, 250 - height i, 8, height i⟩)) ∧
      (∀ i < 143, Spec.Nearest (250 * count i / top) (height i) ∧ 0 ≤ height i ∧ height i ≤ 250) ∧
      ∃ i < 143, height i = 250 := by
  obtain ⟨pk, hpk, hh⟩ := C65_histogram v data weighting w hv hr hc hsz hw
  set count := Spec.levelCount v.rows v.cols (fun j k => ‖matAt v data j k‖ ^ 2) w pk with hcount
  obtain ⟨m, e, hm1, i0, hi0, hm2⟩ := max_loop (n := 143) (by norm_num) (fun i => (count i : ℤ)) (L := 144) (by norm_num)
  -- the last counter is zero, so some other is not
  have hlast : count 143 = 0 := by
    rw [hcount]
    unfold Spec.levelCount
    rw [card_eq_zero, filter_eq_empty_iff]
    rintro ⟨j, k⟩ hq hnear
    rw [mem_product, mem_range, mem_range] at hq
    dsimp only at hq hnear
    have hl := (level_bounds (hpk.2 ⟨j, hq.1, k, hq.2, rfl⟩)).1
    have hw' := hw2 k hq.2
    have hlt : Spec.attenuation (Spec.level pk (‖matAt v data j k‖ ^ 2) + w k) < 142.5 := by
      apply (min_le_right _ _).trans_lt
      rw [max_lt_iff]
      constructor <;> norm_num at * <;> linarith
    have hle : |Spec.attenuation (Spec.level pk (‖matAt v data j k‖ ^ 2) + w k) - ((143 : ℕ) : ℤ)| ≤ 1 / 2 := by
      rcases hnear with h | h
      · exact h.le
      · exact h.1.le
    have := (abs_le.1 hle).1
    norm_num at *
    linarith
  have htot := C65_total v.rows v.cols (fun j k => ‖matAt v data j k‖ ^ 2) w pk
  have hpos : 0 < count i0 := by
    by_contra hz
    have hall : ∀ i ∈ range 144, count i = 0 := by
      intro i hi
      rw [mem_range] at hi
      by_cases c : i = 143
      · rw [c]; exact hlast
      · have := hm1 i (by omega)
        omega
    rw [← hcount, sum_eq_zero hall] at htot
    have := Nat.mul_pos hr hc
    omega
  have htop : IsGreatest {c | ∃ i < 143, c = count i} (count i0) := by
    refine ⟨⟨i0, hi0, rfl⟩, ?_⟩
    rintro c ⟨i, hi, rfl⟩
    have := hm1 i hi
    omega
  have hposR : (0 : ℝ) < count i0 := by exact_mod_cast hpos
  have hnear : ∀ i, Spec.Nearest (250 * count i / count i0) (roundToInt ((count i : ℝ) / count i0 * 250)) := by
    intro i
    rw [show 250 * (count i : ℝ) / count i0 = (count i : ℝ) / count i0 * 250 by ring]
    exact roundToInt_nearest _
  refine ⟨pk, count i0, fun i => roundToInt ((count i : ℝ) / count i0 * 250), hpk, htop, hpos, ?_, ?_, i0, hi0, ?_⟩
  · unfold powerHistogramBars
    rw [hh, bind_ok, rd_vec_ok (by norm_num), bind_ok, length_vec, e, bind_ok]
    apply collect_loop
    intro i hi bars
    rw [rd_vec_ok (by omega), bind_ok, hm2]
    have hfd : fdiv (((count i : ℕ) : ℤ) : ℝ) (((count i0 : ℕ) : ℤ) : ℝ) = .ok ((count i : ℝ) / count i0) := by
      unfold fdiv
      push_cast
      rw [if_neg hposR.ne']
    rw [hfd, bind_ok, pure_eq_ok]
    dsimp only
    rw [mul_comm (i : ℤ) 8]
  · intro i hi
    refine ⟨hnear i, ?_⟩
    have h1 : (count i : ℝ) ≤ count i0 := by
      have h := hm1 i hi
      rw [hm2] at h
      exact_mod_cast h
    have h2 : 0 ≤ 250 * (count i : ℝ) / count i0 := div_nonneg (mul_nonneg (by norm_num) (Nat.cast_nonneg _)) hposR.le
    have h3 : 250 * (count i : ℝ) / count i0 ≤ 250 := by
      rw [div_le_iff₀ hposR]; linarith
    have hb := hnear i
    set r := roundToInt ((count i : ℝ) / count i0 * 250)
    have hb' : |250 * (count i : ℝ) / count i0 - r| ≤ 1 / 2 := by
      rcases hb with h | h
      · exact h.le
      · exact h.1.le
    have hb2 := abs_le.1 hb'
    have l1 : (-1 : ℝ) < r := by linarith [hb2.2]
    have l2 : (r : ℝ) < 251 := by linarith [hb2.1]
    have l1' : -1 < r := by exact_mod_cast l1
    have l2' : r < 251 := by exact_mod_cast l2
    exact ⟨by show 0 ≤ r; omega, by show r ≤ 250; omega⟩
  · have h := hnear i0
    rw [mul_div_cancel_right₀ _ hposR.ne'] at h
    exact nearest_unique h (Or.inl (by norm_num))

/-- If every bin is attenuated below -143 dB by the weighting, the largest counter is zero and the bar heights are
`0 / 0`. -/
theorem C65_bars_all_inaudible (v : MatView) (data : List ℂ) (weighting : ℕ → Res EReal) (w : ℕ → ℝ)
    (hv : v.InRange data.length) (hr : 1 ≤ v.rows) (hc : 1 ≤ v.cols) (hsz : v.rows * v.cols < 2 ^ 31)
    (hw : ∀ k < v.cols, weighting k = .ok (w k : EReal)) (hw2 : ∀ k < v.cols, w k ≤ -143) :
    powerHistogramBars v data weighting = .error .divZero := by
  classical
  obtain ⟨pk, hpk, hh⟩ := C65_histogram v data weighting w hv hr hc hsz hw
  set count := Spec.levelCount v.rows v.cols (fun j k => ‖matAt v data j k‖ ^ 2) w pk with hcount
  have hzero : ∀ i < 143, count i = 0 := by
    intro i hi
    rw [hcount]
    unfold Spec.levelCount
    rw [card_eq_zero, filter_eq_empty_iff]
    rintro ⟨j, k⟩ hq hnear
    rw [mem_product, mem_range, mem_range] at hq
    dsimp only at hq hnear
    have hl := (level_bounds (hpk.2 ⟨j, hq.1, k, hq.2, rfl⟩)).2
    have hw' := hw2 k hq.2
    have ha : Spec.attenuation (Spec.level pk (‖matAt v data j k‖ ^ 2) + w k) = 143 := by
      unfold Spec.attenuation
      rw [max_eq_right (by linarith), min_eq_left (by linarith)]
    rw [ha] at hnear
    have := nearest_unique hnear (j := 143) (Or.inl (by norm_num))
    omega
  unfold powerHistogramBars
  rw [hh, bind_ok, rd_vec_ok (by norm_num), bind_ok, length_vec]
  obtain ⟨m, e, hm1, i0, hi0, hm2⟩ := max_loop (n := 143) (by norm_num) (fun i => (count i : ℤ)) (L := 144) (by norm_num)
  rw [e, bind_ok, hm2, hzero i0 hi0]
  have hstep : ∀ n, 1 ≤ n → n ≤ 143 → forN n (fun i (bars : List Bar) => do
      let x ← rd (vec 144 (fun i => (count i : ℤ))) i
      let q ← fdiv x (((0 : ℕ) : ℤ) : ℝ)
      let height := roundToInt (q * 250)
      pure (bars ++ [⟨i * 8, 250 - height, 8, height⟩])) [] = .error .divZero := by
    intro n h1 h2
    induction n with
    | zero => omega
    | succ n ih =>
      rw [forN_succ]
      by_cases c : n = 0
      · subst c
        rw [forN_zero, bind_ok, rd_vec_ok (by norm_num), bind_ok]
        unfold fdiv
        rw [if_pos (by norm_num), bind_error]
      · rw [ih (by omega) (by omega), bind_error]
  exact hstep 143 (by norm_num) le_rfl

/-! ## The spectrogram image -/

open Classical in
/-- What `powerSpectrumImage` draws: the pixel of frame `j` and bin `k` (bin 0 in the bottom row) is white
exactly if the level of the bin *plus the weight of bin `cols - 1 - k`* is below the threshold. -/
theorem C66_image_rows (v : MatView) (data : List ℂ) (weighting : ℕ → Res EReal) (w : ℕ → ℝ) (threshold : ℝ)
    (hv : v.InRange data.length) (hr : 1 ≤ v.rows) (hc : 1 ≤ v.cols) (hr2 : v.rows < 2 ^ 31)
    (hc2 : v.cols < 2 ^ 31) (hw : ∀ k < v.cols, weighting k = .ok (w k : EReal)) :
    ∃ peak img, IsGreatest {p | ∃ j < v.rows, ∃ k < v.cols, p = ‖matAt v data j k‖ ^ 2} peak ∧
      powerSpectrumImage v data weighting threshold = .ok img ∧ img.length = v.cols * v.rows ∧
      ∀ j < v.rows, ∀ k < v.cols, img[(v.cols - 1 - k) * v.rows + j]?
        = some (if Spec.level peak (‖matAt v data j k‖ ^ 2) + w (v.cols - 1 - k) < threshold
            then Pixel.white else Pixel.black) := by
  obtain ⟨pk, hpk, hs⟩ := spectrumScale_eq hv hr hc (by omega) (by omega)
  set col : ℕ → ℕ → Pixel := fun j k => if Spec.level pk (‖matAt v data j k‖ ^ 2) + w (v.cols - 1 - k)
    < threshold then Pixel.white else Pixel.black with hcol
  have hinj : ∀ j < v.rows, ∀ k < v.cols, ∀ j' < v.rows, ∀ k' < v.cols,
      (v.cols - 1 - k) * v.rows + j = (v.cols - 1 - k') * v.rows + j' → j = j' ∧ k = k' := by
    intro j hj k hk j' hj' k' hk' h
    have h1 : ((v.cols - 1 - k) * v.rows + j) % v.rows = ((v.cols - 1 - k') * v.rows + j') % v.rows := by rw [h]
    rw [mul_comm, Nat.mul_add_mod, mul_comm (v.cols - 1 - k'), Nat.mul_add_mod, Nat.mod_eq_of_lt hj,
      Nat.mod_eq_of_lt hj'] at h1
    subst h1
    have h2 : v.cols - 1 - k = v.cols - 1 - k' := Nat.eq_of_mul_eq_mul_right hr (Nat.add_right_cancel h)
    exact ⟨rfl, by omega⟩
  have hbound : ∀ j < v.rows, ∀ k < v.cols, (v.cols - 1 - k) * v.rows + j < v.cols * v.rows := by
    intro j hj k hk
    have : (v.cols - 1 - k + 1) * v.rows ≤ v.cols * v.rows := Nat.mul_le_mul_right _ (by omega)
    nlinarith
  have hloop : ∃ img, forN v.rows (fun frameIdx img => forInt v.cols (fun binIdx img => do
      let z ← rd data (v.idx frameIdx binIdx)
      fillPixel weighting (if pk = 0 then none else some (1 / pk)) threshold v.rows v.cols img frameIdx
        ((v.cols : ℤ) - binIdx - 1) ‖z‖) img) (List.replicate (v.cols * v.rows) Pixel.clear) = .ok img ∧
      (img.length = v.cols * v.rows ∧ ∀ j < v.rows, ∀ k < v.cols,
        img[(v.cols - 1 - k) * v.rows + j]? = some (col j k)) := by
    refine forN_inv (fun t (img : List Pixel) => img.length = v.cols * v.rows ∧ ∀ j < t, ∀ k < v.cols,
      img[(v.cols - 1 - k) * v.rows + j]? = some (col j k))
      ⟨List.length_replicate, by intro j hj; omega⟩ ?_
    intro j hj img ⟨hl, hdone⟩
    rw [forInt_eq hc2]
    have hinner : ∃ img', forN v.cols (fun binIdx img => do
        let z ← rd data (v.idx j binIdx)
        fillPixel weighting (if pk = 0 then none else some (1 / pk)) threshold v.rows v.cols img j
          ((v.cols : ℤ) - binIdx - 1) ‖z‖) img = .ok img' ∧
        (img'.length = v.cols * v.rows ∧ (∀ j' < j, ∀ k < v.cols,
          img'[(v.cols - 1 - k) * v.rows + j']? = some (col j' k)) ∧
          ∀ k < v.cols, img'[(v.cols - 1 - k) * v.rows + j]? = some (col j k)) := by
      refine forN_inv (fun t (img' : List Pixel) => img'.length = v.cols * v.rows ∧ (∀ j' < j, ∀ k < v.cols,
          img'[(v.cols - 1 - k) * v.rows + j']? = some (col j' k)) ∧
          ∀ k < t, img'[(v.cols - 1 - k) * v.rows + j]? = some (col j k))
        ⟨hl, hdone, by intro k hk; omega⟩ ?_
      intro k hk img ⟨g1, g2, g3⟩
      have hidx := hv j hj k hk
      have hrd : rd data (v.idx j k) = .ok (matAt v data j k) := by
        rw [rd_ok hidx]
        unfold matAt
        rw [List.getD_eq_getElem?_getD, List.getElem?_eq_getElem hidx, Option.getD_some]
      have hy : ((v.cols : ℤ) - k - 1).toNat = v.cols - 1 - k := by omega
      have hset : fillPixel weighting (if pk = 0 then none else some (1 / pk)) threshold v.rows v.cols img j
          ((v.cols : ℤ) - k - 1) ‖matAt v data j k‖
          = .ok (img.set ((v.cols - 1 - k) * v.rows + j) (col j k)) := by
        unfold fillPixel
        rw [hy, hw _ (by omega), bind_ok, weightedDb_eq (hpk.2 ⟨j, hj, k, hk, rfl⟩), pure_eq_ok]
        unfold setPixelAt
        rw [if_pos (by omega), hy, Int.toNat_natCast]
        simp only [EReal.coe_lt_coe_iff]
        rfl
      rw [hrd, bind_ok, hset]
      refine ⟨_, rfl, by rw [List.length_set]; exact g1, ?_, ?_⟩
      · intro j' hj' k' hk'
        rw [List.getElem?_set_ne, g2 j' hj' k' hk']
        intro h
        have := (hinj j hj k hk j' (by omega) k' hk' h).1
        omega
      · intro k' hk'
        by_cases c : k' = k
        · subst c
          rw [List.getElem?_set_self (by rw [g1]; exact hbound j hj k' hk)]
        · rw [List.getElem?_set_ne, g3 k' (by omega)]
          intro h
          have := (hinj j hj k hk j hj k' (by omega) h).2
          omega
    obtain ⟨img', e, g1, g2, g3⟩ := hinner
    refine ⟨img', e, g1, ?_⟩
    intro j' hj' k hk
    rcases Nat.lt_succ_iff_lt_or_eq.1 hj' with h | rfl
    · exact g2 j' h k hk
    · exact g3 k hk
  obtain ⟨img, e, h1, h2⟩ := hloop
  refine ⟨pk, img, hpk, ?_, h1, h2⟩
  unfold powerSpectrumImage
  rw [hs, bind_ok, forInt_eq hr2]
  exact e

open Classical in
/-- **C66**, as far as it holds: for a weighting that is symmetric over the bins (in particular without weighting) a
pixel is white exactly if the weighted level of its bin is below the threshold.  For other weightings the
claim is false (`C66_weighting_upside_down`). -/
theorem C66_image_partial (v : MatView) (data : List ℂ) (weighting : ℕ → Res EReal) (w : ℕ → ℝ) (threshold : ℝ)
    (hv : v.InRange data.length) (hr : 1 ≤ v.rows) (hc : 1 ≤ v.cols) (hr2 : v.rows < 2 ^ 31)
    (hc2 : v.cols < 2 ^ 31) (hw : ∀ k < v.cols, weighting k = .ok (w k : EReal))
    (hsym : ∀ k < v.cols, w (v.cols - 1 - k) = w k) :
    ∃ peak img, IsGreatest {p | ∃ j < v.rows, ∃ k < v.cols, p = ‖matAt v data j k‖ ^ 2} peak ∧
      powerSpectrumImage v data weighting threshold = .ok img ∧ img.length = v.cols * v.rows ∧
      ∀ j < v.rows, ∀ k < v.cols, img[(v.cols - 1 - k) * v.rows + j]?
        = some (if Spec.level peak (‖matAt v data j k‖ ^ 2) + w k < threshold
            then Pixel.white else Pixel.black) := by
  obtain ⟨pk, img, h1, h2, h3, h4⟩ := C66_image_rows v data weighting w threshold hv hr hc hr2 hc2 hw
  refine ⟨pk, img, h1, h2, h3, fun j hj k hk => ?_⟩
  rw [h4 j hj k hk, hsym k hk]

/-- The weighting is applied upside down: in a spectrogram of one frame and two bins of equal power, with
weights 0 dB and -20 dB and a threshold of -10 dB, bin 1 (weighted level -20 dB) is drawn black and bin 0
(weighted level 0 dB) white. -/
theorem C66_weighting_upside_down :
    ∃ (data : List ℂ) (weighting : ℕ → Res EReal) (w : ℕ → ℝ) (threshold : ℝ),
      (∀ k < 2, weighting k = .ok (w k : EReal)) ∧ w 0 = 0 ∧ w 1 = -20 ∧ threshold = -10 ∧
      powerSpectrumImage (MatView.right 1 2) data weighting threshold = .ok [Pixel.black, Pixel.white] ∧
      ∀ k < 2, ‖matAt (MatView.right 1 2) data 0 k‖ = 1 := by
  set w : ℕ → ℝ := fun k => if k = 0 then 0 else -20 with hw
  set data : List ℂ := [1, 1] with hd
  have hdata : ∀ j < 1, ∀ k < 2, ‖matAt (MatView.right 1 2) data j k‖ = 1 := by
    intro j hj k hk
    obtain rfl : j = 0 := by omega
    unfold matAt
    interval_cases k <;> simp [MatView.right, MatView.idx, hd]
  refine ⟨data, fun k => .ok (w k : EReal), w, -10, fun _ _ => rfl, by simp [hw], by simp [hw], rfl, ?_,
    fun k hk => hdata 0 (by norm_num) k hk⟩
  obtain ⟨pk, img, h1, h2, h3, h4⟩ := C66_image_rows (MatView.right 1 2) data (fun k => .ok (w k : EReal)) w (-10)
    (by intro r hr c hc; simp only [MatView.right, MatView.idx, hd, List.length_cons, List.length_nil] at *; omega)
    (by simp [MatView.right]) (by simp [MatView.right]) (by simp [MatView.right]) (by simp [MatView.right])
    (fun _ _ => rfl)
  have hpk : pk = 1 := by
    obtain ⟨⟨j, hj, k, hk, e⟩, -⟩ := h1
    rw [e, hdata j hj k hk, one_pow]
  subst hpk
  have hlev : ∀ k < 2, Spec.level 1 (‖matAt (MatView.right 1 2) data 0 k‖ ^ 2) = 0 := by
    intro k hk
    rw [hdata 0 (by norm_num) k hk]
    unfold Spec.level
    norm_num
  have e0 := h4 0 (by simp [MatView.right]) 0 (by simp [MatView.right])
  have e1 := h4 0 (by simp [MatView.right]) 1 (by simp [MatView.right])
  rw [hlev 0 (by norm_num)] at e0
  rw [hlev 1 (by norm_num)] at e1
  simp only [MatView.right, hw] at e0 e1 h3
  norm_num at e0 e1 h3
  rw [h2]
  match img, h3, e0, e1 with
  | [a, b], _, e0, e1 => simp at e0 e1; rw [e0, e1]

/-! ## The percentage of audible bins -/

open Classical in
/-- **C67**.  For partitions of at least one channel, frame and bin (at most 1024 bins, fewer than `2^31`
values in total) and every sample rate and threshold, the percentage shown by `runWeightingTests` is the share
of the values whose level relative to the strongest value of all channels, plus (if selected) the A-weighting of their
frequency, is above the threshold; bin 0 is not weighted. -/
theorem C67_percentage (C N K : ℕ) (part : List ℂ) (isWeighted : Bool) (sr threshold : ℝ)
    (hv : ∀ c < C, (partitionView N K c).InRange part.length) (hC : 1 ≤ C) (hN : 1 ≤ N) (hK : 1 ≤ K)
    (hK2 : K ≤ 1024) (hsz : C * N * K < 2 ^ 31) (hsr : sr ≠ 0) :
    ∃ peak, IsGreatest {p | ∃ c < C, ∃ f < N, ∃ k < K,
        p = ‖matAt (partitionView N K c) part f k‖ ^ 2} peak ∧
      weightingPercentage C N K part isWeighted sr threshold
        = .ok (100 * #{q ∈ range N ×ˢ range K ×ˢ range C | threshold <
            Spec.level peak (‖matAt (partitionView N K q.2.2) part q.1 q.2.1‖ ^ 2)
            + if isWeighted ∧ q.2.1 ≠ 0 then Spec.aWeight (q.2.1 * sr / 1024) else 0} / (C * N * K : ℕ)) := by
  have hCN : 1 ≤ C * N := Nat.mul_pos hC hN
  have b1 : C * N ≤ C * N * K := Nat.le_mul_of_pos_right _ hK
  have b2 : K ≤ C * N * K := Nat.le_mul_of_pos_left _ hCN
  have b3 : C ≤ C * N := Nat.le_mul_of_pos_right _ hN
  have b4 : N ≤ C * N := Nat.le_mul_of_pos_left _ hC
  obtain ⟨pk, hpk, hs⟩ := partitionsScale_eq hv hC hN hK (by omega) (by omega) (by omega)
  refine ⟨pk, hpk, ?_⟩
  set w : ℕ → ℝ := fun k => if isWeighted ∧ k ≠ 0 then Spec.aWeight (k * sr / 1024) else 0 with hw
  set weights : List EReal := vec 1024 (fun i =>
      (((if i = 0 then 0 else Spec.aWeight (i * sr / (1024 : ℕ)) : ℝ)) : EReal)) with hweights
  have hwt : ∀ k < K, weightingOf isWeighted weights k = .ok (w k : EReal) := by
    intro k hk
    unfold weightingOf
    cases isWeighted with
    | false => simp [hw]
    | true =>
      rw [if_pos rfl, hweights, rd_vec_ok (by omega)]
      simp only [hw, true_and, ne_eq, ite_not]
      push_cast
      rfl
  set P : ℕ → ℕ → ℕ → Prop := fun f k c =>
    threshold < Spec.level pk (‖matAt (partitionView N K c) part f k‖ ^ 2) + w k with hP
  have hcount : weightingCount C N K part (weightingOf isWeighted weights) threshold
      = .ok ((∑ f ∈ range N, ∑ k ∈ range K, ∑ c ∈ range C, if P f k c then 1 else 0 : ℕ) : ℤ) := by
    unfold weightingCount
    rw [hs, bind_ok]
    have := (countOf_forUInt (n := N) (cap := K * (C * 1))
      (m := fun f => ∑ k ∈ range K, ∑ c ∈ range C, if P f k c then 1 else 0)
      (body := fun f n => forUInt K (fun b n => do
        let weight ← weightingOf isWeighted weights b
        forUInt C (fun ch (n : ℤ) => do
          let z ← rd part ((partitionView N K ch).idx f b)
          let dB := weightedDb ‖z‖ (if pk = 0 then none else some (1 / pk)) weight
          let n' := n + if (threshold : EReal) < dB then 1 else 0
          if n' < 2 ^ 31 then .ok n' else .error .overflow) n) n) (by omega) ?_).2 0
      (by rw [mul_one, zero_add, show N * (K * C) = C * N * K by ring]; exact hsz)
    · rw [zero_add] at this
      exact this
    · intro f hf
      apply countOf_forUInt (by omega)
      intro k hk
      rw [hwt k hk]
      simp only [bind_ok]
      apply countOf_forUInt (by omega)
      intro c hc
      refine ⟨by split_ifs <;> omega, fun n hn => ?_⟩
      have hidx := hv c hc f hf k hk
      have hrd : rd part ((partitionView N K c).idx f k) = .ok (matAt (partitionView N K c) part f k) := by
        rw [rd_ok hidx]
        unfold matAt
        rw [List.getD_eq_getElem?_getD, List.getElem?_eq_getElem hidx, Option.getD_some]
      dsimp only
      rw [hrd, bind_ok, weightedDb_eq (hpk.2 ⟨c, hc, f, hf, k, hk, rfl⟩)]
      simp only [EReal.coe_lt_coe_iff]
      by_cases q : threshold < Spec.level pk (‖matAt (partitionView N K c) part f k‖ ^ 2) + w k
      · rw [if_pos q, if_pos (show P f k c from q), if_pos (by omega)]
        push_cast
        rfl
      · rw [if_neg q, if_neg (show ¬ P f k c from q), if_pos (by omega)]
        push_cast
        rfl
  have hcard : (∑ f ∈ range N, ∑ k ∈ range K, ∑ c ∈ range C, if P f k c then 1 else 0)
      = #{q ∈ range N ×ˢ range K ×ˢ range C | P q.1 q.2.1 q.2.2} := by
    rw [card_filter, sum_product]
    apply sum_congr rfl
    intro f _
    rw [sum_product]
  unfold weightingPercentage
  have hfw : frequencyWeights 1024 sr = .ok weights := frequencyWeights_eq (by norm_num) hsr
  rw [hfw, bind_ok, hcount, bind_ok, hcard]
  have hne : ((C * N * K : ℕ) : ℝ) ≠ 0 := by
    have : 0 < C * N * K := by omega
    exact_mod_cast this.ne'
  unfold fdiv
  rw [if_neg hne, bind_ok, pure_eq_ok]
  refine congrArg Except.ok ?_
  rw [Int.cast_natCast, div_mul_eq_mul_div, mul_comm]

/-- Two channels, one frame, two bins, one silent bin in each channel: 50 % are above -10 dB. -/
example : weightingPercentage 2 1 2 [1, 0, 0, 1] false 48000 (-10) = .ok 50 := by
  classical
  obtain ⟨pk, hpk, h⟩ := C67_percentage 2 1 2 [1, 0, 0, 1] false 48000 (-10)
    (by intro c hc r hr k hk
        simp only [partitionView, MatView.idx, List.length_cons, List.length_nil] at *
        interval_cases c <;> interval_cases r <;> interval_cases k <;> norm_num)
    (by norm_num) (by norm_num) (by norm_num) (by norm_num) (by norm_num) (by norm_num)
  have hP : ∀ c < 2, ∀ k < 2, ‖matAt (K := ℂ) (partitionView 1 2 c) [1, 0, 0, 1] 0 k‖ ^ 2 = if c = k then 1 else 0 := by
    intro c hc k hk
    unfold matAt
    interval_cases c <;> interval_cases k <;> simp [partitionView, MatView.idx]
  have hone : pk = 1 := by
    apply le_antisymm
    · obtain ⟨⟨c, hc, f, hf, k, hk, e⟩, -⟩ := hpk
      obtain rfl : f = 0 := by omega
      rw [e, hP c hc k hk]
      split_ifs <;> norm_num
    · apply hpk.2
      exact ⟨0, by norm_num, 0, by norm_num, 0, by norm_num, by rw [hP 0 (by norm_num) 0 (by norm_num)]; rfl⟩
  subst hone
  rw [h]
  have hcard : #{q ∈ range 1 ×ˢ range 2 ×ˢ range 2 | -10 <
      Spec.level 1 (‖matAt (K := ℂ) (partitionView 1 2 q.2.2) [1, 0, 0, 1] q.1 q.2.1‖ ^ 2)
      + if false = true ∧ q.2.1 ≠ 0 then Spec.aWeight (q.2.1 * 48000 / 1024) else 0}
      = #{q ∈ range 1 ×ˢ range 2 ×ˢ range 2 | q.2.2 = q.2.1} := by
    refine congrArg Finset.card (filter_congr ?_)
    rintro ⟨f, k, c⟩ hq
    simp only [mem_product, mem_range] at hq
    obtain ⟨hf, hk, hc⟩ := hq
    obtain rfl : f = 0 := by omega
    dsimp only
    rw [hP c hc k hk]
    unfold Spec.level
    by_cases q : c = k <;> norm_num [q]
  rw [hcard, show #{q ∈ range 1 ×ˢ range 2 ×ˢ range 2 | q.2.2 = q.2.1} = 2 by decide]
  norm_num

/-- One frame with three bins, two of them at the peak and one silent: two counts at 0 dB, one at -72 dB. -/
example : ∃ h, powerHistogram (MatView.right 1 3) [1, 1, 0] (fun _ => .ok 0) = .ok h ∧
    h[0]? = some 2 ∧ h[72]? = some 1 := by
  classical
  obtain ⟨pk, hpk, h⟩ := C65_histogram (MatView.right 1 3) [1, 1, 0] (fun _ => .ok 0) (fun _ => 0)
    (by intro r hr c hc; simp only [MatView.right, MatView.idx, List.length_cons, List.length_nil] at *; omega)
    (by simp [MatView.right]) (by simp [MatView.right]) (by simp [MatView.right]) (fun _ _ => rfl)
  have hP : ∀ k < 3, ‖matAt (K := ℂ) (MatView.right 1 3) [1, 1, 0] 0 k‖ ^ 2 = if k < 2 then 1 else 0 := by
    intro k hk
    unfold matAt
    interval_cases k <;> simp [MatView.right, MatView.idx]
  have hone : pk = 1 := by
    apply le_antisymm
    · obtain ⟨⟨j, hj, k, hk, e⟩, -⟩ := hpk
      obtain rfl : j = 0 := by simp only [MatView.right] at hj; omega
      rw [e, hP k hk]
      split_ifs <;> norm_num
    · apply hpk.2
      exact ⟨0, by simp [MatView.right], 0, by simp [MatView.right], by rw [hP 0 (by norm_num)]; rfl⟩
  subst hone
  have hcnt : ∀ i, Spec.levelCount 1 3 (fun j k => ‖matAt (K := ℂ) (MatView.right 1 3) [1, 1, 0] j k‖ ^ 2) (fun _ => 0) 1 i
      = #{q ∈ range 1 ×ˢ range 3 | if q.2 < 2 then i = 0 else i = 72} := by
    intro i
    unfold Spec.levelCount
    congr 1
    apply filter_congr
    rintro ⟨f, k⟩ hq
    simp only [mem_product, mem_range] at hq
    obtain ⟨hf, hk⟩ := hq
    obtain rfl : f = 0 := by omega
    dsimp only
    rw [hP k hk]
    by_cases c : k < 2
    · rw [if_pos c, if_pos c]
      have e : Spec.attenuation (Spec.level 1 1 + 0) = 0 := by
        unfold Spec.level Spec.attenuation; norm_num
      rw [e]
      constructor
      · intro hn
        have := nearest_unique hn (j := 0) (Or.inl (by norm_num))
        omega
      · rintro rfl; exact Or.inl (by norm_num)
    · rw [if_neg c, if_neg c]
      have e : Spec.attenuation (Spec.level 1 0 + 0) = 72 := by
        unfold Spec.level Spec.attenuation; norm_num
      rw [e]
      constructor
      · intro hn
        have := nearest_unique hn (j := 72) (Or.inl (by norm_num))
        omega
      · rintro rfl; exact Or.inl (by norm_num)
  refine ⟨_, h, ?_, ?_⟩
  · rw [getElem?_vec, if_pos (by norm_num)]
    change some ((Spec.levelCount 1 3 _ _ 1 0 : ℕ) : ℤ) = _
    rw [hcnt]
    rfl
  · rw [getElem?_vec, if_pos (by norm_num)]
    change some ((Spec.levelCount 1 3 _ _ 1 72 : ℕ) : ℤ) = _
    rw [hcnt]
    rfl

end Neo.Props
