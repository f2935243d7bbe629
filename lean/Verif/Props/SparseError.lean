import Verif.Lemmas.SparseError
import Verif.Props.SparseRender
import Verif.Spec.Energy

/-! # C98: how much a sparse convolver may differ from the dense one -/

namespace Neo.Props

open Neo Finset

private theorem energy_vec (n : ℕ) (f : ℕ → ℝ) : Spec.energy (vec n f) = ∑ i ∈ range n, f i ^ 2 := by
  unfold Spec.energy vec
  rw [List.map_map, ← List.sum_toFinset _ List.nodup_range, List.toFinset_range]
  rfl

private theorem sqDist_vec (n : ℕ) (f g : ℕ → ℝ) :
    Spec.sqDist (vec n f) (vec n g) = ∑ i ∈ range n, (f i - g i) ^ 2 := by
  rw [← energy_vec]
  unfold Spec.sqDist
  congr 1
  unfold vec
  rw [List.zipWith_map, List.zipWith_self]

private theorem flatten_blocks {B : ℕ} (hB : 1 ≤ B) (T : ℕ) (g : ℕ → ℕ → ℝ) :
    (vec T (fun t => vec B (g t))).flatten = vec (T * B) (fun n => g (n / B) (n % B)) := by
  rw [← flatten_vec]
  congr 1
  apply vec_ext
  intro t _
  apply vec_ext
  intro i hi
  rw [mul_add_div' hi, mul_add_mod' hi]

private theorem sqDist_blocks {B : ℕ} (hB : 1 ≤ B) (T : ℕ) (f g : ℕ → ℕ → ℝ) :
    Spec.sqDist (vec T (fun t => vec B (f t))).flatten (vec T (fun t => vec B (g t))).flatten
      = ∑ t ∈ range T, ∑ i ∈ range B, (f t i - g t i) ^ 2 := by
  rw [flatten_blocks hB, flatten_blocks hB, sqDist_vec, sum_range_mul']
  apply sum_congr rfl
  intro t _
  apply sum_congr rfl
  intro i hi
  rw [mul_add_div' (mem_range.1 hi), mul_add_mod' (mem_range.1 hi)]

private theorem energy_blocks {B : ℕ} (blocks : List (List ℝ)) (hb : ∀ b ∈ blocks, b.length = B) :
    Spec.energy blocks.flatten = ∑ n ∈ range (blocks.length * B), streamOf blocks n ^ 2 := by
  rw [← energy_vec]
  congr 1
  conv_lhs => rw [blocks_eq_vec (0 : ℝ) blocks hb, flatten_vec blocks.length (fun i => blocks.flatten.getD i 0)]
  rfl

/-- **C98**, two filters of the same shape: if the coefficients of partition `r` differ by at most `τ r`, then for every
input the outputs of the two convolvers differ in energy by at most `2 (∑ τ r)²` times the energy of the input. -/
theorem C98_filter_distance (a : ℕ) (ha : 1 ≤ a) (ha2 : a ≤ 26) (v v' : MatView) (data data' : List ℂ)
    (hv : v.InRange data.length) (hv' : v'.InRange data'.length) (hr : 1 ≤ v.rows) (hc : v.cols = 2 ^ a + 1)
    (hr' : v'.rows = v.rows) (hc' : v'.cols = v.cols) (τ : ℕ → ℝ)
    (hτ : ∀ r < v.rows, ∀ c < v.cols, ‖data.getD (v.idx r c) 0 - data'.getD (v'.idx r c) 0‖ ≤ τ r)
    (blocks : List (List ℝ)) (hb : ∀ b ∈ blocks, b.length = 2 ^ a) :
    (∃ o o', upolaRun v data blocks = .ok o ∧ upolaRun v' data' blocks = .ok o' ∧
      o.flatten.length = blocks.flatten.length ∧ o'.flatten.length = blocks.flatten.length ∧
      Spec.sqDist o.flatten o'.flatten ≤ 2 * (∑ r ∈ range v.rows, τ r) ^ 2 * Spec.energy blocks.flatten) ∧
    (∃ o o', upolsRun v data blocks = .ok o ∧ upolsRun v' data' blocks = .ok o' ∧
      o.flatten.length = blocks.flatten.length ∧ o'.flatten.length = blocks.flatten.length ∧
      Spec.sqDist o.flatten o'.flatten ≤ 2 * (∑ r ∈ range v.rows, τ r) ^ 2 * Spec.energy blocks.flatten) := by
  have hB : 1 ≤ 2 ^ a := Nat.one_le_two_pow
  have hτ0 : ∀ r < v.rows, 0 ≤ τ r := fun r hr => (norm_nonneg _).trans (hτ r hr 0 (by omega))
  have hlen : ∀ g : ℕ → ℕ → ℝ, (vec blocks.length (fun t => vec (2 ^ a) (g t))).flatten.length
      = blocks.flatten.length := by
    intro g
    conv_rhs => rw [blocks_eq_vec (0 : ℝ) blocks hb, flatten_vec blocks.length (fun i => blocks.flatten.getD i 0), length_vec]
    rw [flatten_blocks hB, length_vec]
  have hd : ∀ j < v.rows, ∀ k ≤ 2 ^ a, ‖matAt v data j k - matAt v' data' j k‖ ≤ τ j :=
    fun j hj k hk => hτ j hj k (by omega)
  constructor
  · refine ⟨_, _, upolaRun_eq ha ha2 hv hr hc (fun _ _ _ _ => rfl) blocks hb,
      upolaRun_eq ha ha2 hv' (by omega) (by omega) (fun _ _ _ _ => rfl) blocks hb, hlen _, hlen _, ?_⟩
    rw [sqDist_blocks hB, energy_blocks blocks hb, hr']
    refine (ola_energy hB v.rows _ _ _ hτ0 hd _).trans (le_of_eq ?_)
    ring
  · refine ⟨_, _, upolsRun_eq ha ha2 hv hr hc (fun _ _ _ _ => rfl) blocks hb,
      upolsRun_eq ha ha2 hv' (by omega) (by omega) (fun _ _ _ _ => rfl) blocks hb, hlen _, hlen _, ?_⟩
    rw [sqDist_blocks hB, energy_blocks blocks hb, hr']
    refine (ols_energy hB v.rows _ _ _ hτ0 hd _).trans (le_of_eq ?_)
    ring

/-- **C98**: if every coefficient of partition `r` that the predicate rejects has magnitude at most `τ r`, then for every
input the sparse and the dense convolver (overlap-add and overlap-save) run without a fault and the energy of the
difference of their outputs is at most `2 (∑ τ r)²` times the energy of the input. -/
theorem C98_sparse_error (a : ℕ) (ha : 1 ≤ a) (ha2 : a ≤ 26) (v : MatView) (data : List ℂ)
    (hv : v.InRange data.length) (hr : 1 ≤ v.rows) (hc : v.cols = 2 ^ a + 1)
    (p : ℕ → ℕ → ℂ → Bool) (τ : ℕ → ℝ) (hτ0 : ∀ r < v.rows, 0 ≤ τ r)
    (hτ : ∀ r < v.rows, ∀ c < v.cols, p r c (data.getD (v.idx r c) 0) = false → ‖data.getD (v.idx r c) 0‖ ≤ τ r)
    (blocks : List (List ℝ)) (hb : ∀ b ∈ blocks, b.length = 2 ^ a) :
    (∃ o o', upolaRun v data blocks = .ok o ∧ sparseUpolaRun v data p blocks = .ok o' ∧
      o.flatten.length = blocks.flatten.length ∧ o'.flatten.length = blocks.flatten.length ∧
      Spec.sqDist o.flatten o'.flatten ≤ 2 * (∑ r ∈ range v.rows, τ r) ^ 2 * Spec.energy blocks.flatten) ∧
    (∃ o o', upolsRun v data blocks = .ok o ∧ sparseUpolsRun v data p blocks = .ok o' ∧
      o.flatten.length = blocks.flatten.length ∧ o'.flatten.length = blocks.flatten.length ∧
      Spec.sqDist o.flatten o'.flatten ≤ 2 * (∑ r ∈ range v.rows, τ r) ^ 2 * Spec.energy blocks.flatten) := by
  have ht := C25_thresholded_exists p v data
  set w := vec (v.rows * v.cols) (fun i => sparsified p (matAt v data) (i / v.cols) (i % v.cols)) with hw
  rw [C25_sparse_upola p v data hv _ w ht, C25_sparse_upols p v data hv _ w ht]
  refine C98_filter_distance a ha ha2 v (MatView.right v.rows v.cols) data w hv ht.2.2.1 hr hc rfl rfl τ ?_ blocks hb
  intro r hr c hc
  rw [ht.2.2.2 r hr c hc]
  by_cases h : p r c (data.getD (v.idx r c) 0) = true
  · rw [if_pos h, sub_self, norm_zero]
    exact hτ0 r hr
  · rw [if_neg h, sub_zero]
    exact hτ r hr c hc (by simpa using h)

/-- A predicate keeping the coefficients above 1/2 in magnitude drops one of three bins, of magnitude at most 1/2. -/
example : ∀ r < (MatView.right 1 3).rows, ∀ c < (MatView.right 1 3).cols,
    (fun (_ c : ℕ) (_ : ℂ) => c != 1) r c ([(1 : ℂ), 1 / 2, 2].getD ((MatView.right 1 3).idx r c) 0) = false →
    ‖[(1 : ℂ), 1 / 2, 2].getD ((MatView.right 1 3).idx r c) 0‖ ≤ (1 / 2 : ℝ) := by
  intro r hr c hc h
  simp only [MatView.right, MatView.idx] at *
  obtain rfl : r = 0 := by omega
  obtain rfl : c = 1 := by simpa using h
  simp

/-- **C98**, gain: the energy of the output of a dense convolver is at most `2 (∑ τ r)²` times that of the input when
`τ r` bounds the coefficients of partition `r`. -/
theorem C98_gain (a : ℕ) (ha : 1 ≤ a) (ha2 : a ≤ 26) (v : MatView) (data : List ℂ)
    (hv : v.InRange data.length) (hr : 1 ≤ v.rows) (hc : v.cols = 2 ^ a + 1) (τ : ℕ → ℝ)
    (hτ : ∀ r < v.rows, ∀ c < v.cols, ‖data.getD (v.idx r c) 0‖ ≤ τ r)
    (blocks : List (List ℝ)) (hb : ∀ b ∈ blocks, b.length = 2 ^ a) :
    (∃ o, upolaRun v data blocks = .ok o ∧
      Spec.energy o.flatten ≤ 2 * (∑ r ∈ range v.rows, τ r) ^ 2 * Spec.energy blocks.flatten) ∧
    (∃ o, upolsRun v data blocks = .ok o ∧
      Spec.energy o.flatten ≤ 2 * (∑ r ∈ range v.rows, τ r) ^ 2 * Spec.energy blocks.flatten) := by
  have hB : 1 ≤ 2 ^ a := Nat.one_le_two_pow
  have hτ0 : ∀ r < v.rows, 0 ≤ τ r := fun r hr => (norm_nonneg _).trans (hτ r hr 0 (by omega))
  have hen : ∀ g : ℕ → ℕ → ℝ, Spec.energy (vec blocks.length (fun t => vec (2 ^ a) (g t))).flatten
      = ∑ t ∈ range blocks.length, ∑ i ∈ range (2 ^ a), (g t i - 0) ^ 2 := by
    intro g
    rw [flatten_blocks hB, energy_vec, sum_range_mul']
    apply sum_congr rfl
    intro t _
    apply sum_congr rfl
    intro i hi
    rw [mul_add_div' (mem_range.1 hi), mul_add_mod' (mem_range.1 hi), sub_zero]
  have hY : ∀ X : ℕ → ℕ → ℂ, specY v.rows (fun _ _ => 0) X = fun _ _ => 0 := by
    intro X; funext t k; unfold specY; simp
  have hd : ∀ j < v.rows, ∀ k ≤ 2 ^ a, ‖matAt v data j k - (fun (_ _ : ℕ) => (0 : ℂ)) j k‖ ≤ τ j := by
    intro j hj k hk
    simp only [sub_zero]
    exact hτ j hj k (by omega)
  constructor
  · refine ⟨_, upolaRun_eq ha ha2 hv hr hc (fun _ _ _ _ => rfl) blocks hb, ?_⟩
    have h := ola_energy hB v.rows _ (fun _ _ => 0) (streamOf blocks) hτ0 hd blocks.length
    rw [hY] at h
    have h0 : ∀ t i, olaOut (2 ^ a) (fun _ _ => 0) t i = 0 := by
      intro t i; unfold olaOut; rw [specOut_zero, specOut_zero]; simp
    simp only [h0] at h
    rw [hen, energy_blocks blocks hb]
    exact h.trans (le_of_eq (by ring))
  · refine ⟨_, upolsRun_eq ha ha2 hv hr hc (fun _ _ _ _ => rfl) blocks hb, ?_⟩
    have h := ols_energy hB v.rows _ (fun _ _ => 0) (streamOf blocks) hτ0 hd blocks.length
    rw [hY] at h
    have h0 : ∀ t i, olsOut (2 ^ a) (fun _ _ => 0) t i = 0 := by
      intro t i; unfold olsOut; rw [specOut_zero]
    simp only [h0] at h
    rw [hen, energy_blocks blocks hb]
    exact h.trans (le_of_eq (by ring))

/-! ## The renderer -/

open Classical in
/-- Pruning the responses changes the block filter by at most `2 (∑ τ j)²` times the energy of the signal. -/
private theorem pruned_error {B N : ℕ} (hB : 1 ≤ B) (keep : ℕ → ℕ → Prop) (h x : ℕ → ℝ) (hh : ∀ m, N * B ≤ m → h m = 0)
    (τ : ℕ → ℝ) (hτ0 : ∀ j < N, 0 ≤ τ j)
    (hτ : ∀ j < N, ∀ k ≤ B, ¬ keep j k → Real.sqrt (Spec.binPower B h j k) ≤ τ j) (size : ℕ)
    (hx : ∀ m, size ≤ m → x m = 0) :
    ∑ n ∈ range size, (Spec.blockFilter B N (Spec.pruned B keep h) x n - Spec.conv h x n) ^ 2
      ≤ 2 * (∑ j ∈ range N, τ j) ^ 2 * ∑ n ∈ range size, x n ^ 2 := by
  set T := size / B + 1 with hT
  have hle : size ≤ T * B := by
    have := Nat.lt_div_mul_add (a := size) (b := B) (by omega)
    rw [hT, add_mul]; omega
  have hxe : ∑ n ∈ range (T * B), x n ^ 2 = ∑ n ∈ range size, x n ^ 2 := by
    symm
    apply sum_subset (range_mono hle)
    intro n _ hn
    rw [hx n (by simpa using hn)]
    norm_num
  have he := ola_energy hB N (fun j => Spec.dft (2 * B) (fun m => ((Spec.pruned B keep h j m : ℝ) : ℂ)))
    (fun j => Spec.dft (2 * B) (fun m => ((Spec.pruned B (fun _ _ => True) h j m : ℝ) : ℂ))) x hτ0 (fun j hj k hk => ?_) T
  · rw [hxe] at he
    refine le_trans ?_ (he.trans (le_of_eq (by ring)))
    rw [← sum_product' (range T) (range B)] at *
    rw [sum_product]
    calc _ ≤ ∑ n ∈ range (T * B), (Spec.blockFilter B N (Spec.pruned B keep h) x n - Spec.conv h x n) ^ 2 :=
          sum_le_sum_of_subset_of_nonneg (range_mono hle) (fun _ _ _ => sq_nonneg _)
      _ ≤ _ := by
        rw [sum_range_mul']
        apply le_of_eq
        apply sum_congr rfl
        intro t _
        apply sum_congr rfl
        intro i hi
        rw [olaOut_blockFilter _ _ _ (mem_range.1 hi), olaOut_blockFilter _ _ _ (mem_range.1 hi),
          C63_lossless_pruning hB (fun _ _ => True) h x hh (fun _ _ _ _ => Or.inl trivial)]
  · rw [dft_pruned hB keep h j (by omega), dft_pruned hB (fun _ _ => True) h j (by omega), if_pos trivial]
    by_cases c : keep j k
    · rw [if_pos c, sub_self, norm_zero]; exact hτ0 j hj
    · rw [if_neg c, zero_sub, norm_neg]
      have := hτ j hj k hk c
      unfold Spec.binPower at this
      rwa [Real.sqrt_sq (norm_nonneg _)] at this

/-- **C98** for `sparse_convolve`: for every signal, impulse, block size, threshold and number of protected bins, and any
bounds `τ j` on the magnitudes of the bins dropped from partition `j`, the energy of the difference between a rendered
channel and the exact convolution with the normalised impulse is at most `2 (∑ τ j)²` times the energy of the channel. -/
theorem C98_rendered_error (channels size impSize a : ℕ) (impChannels low : ℕ) (rate threshold : ℝ)
    (signal filter : List (List ℝ)) (hsl : signal.length = channels)
    (hsig : ∀ s ∈ signal, s.length = size) (hfl : filter.length = impChannels)
    (hfilt : ∀ s ∈ filter, s.length = impSize) (hch : channels ≤ impChannels)
    (hC : channels < 2 ^ 31) (ha : 1 ≤ a) (ha2 : a ≤ 26) (hsize : size + 2 ^ a ≤ 2 ^ 31)
    (hS : 1 ≤ impSize) (hS2 : impSize < 2 ^ 64)
    (hsz : impChannels * ((impSize - 1) / 2 ^ a + 1) * (2 ^ a + 1) < 2 ^ 59)
    (hrate : rate ≠ 0) (hlow : low ≤ 2 ^ a + 1) :
    ∃ mat imp out, mat.length = impChannels * impSize ∧
      (∀ c < impChannels, ∀ i < impSize, mat[c * impSize + i]? = some ((filter.getD c []).getD i 0)) ∧
      normalizeImpulseMat false (MatView.right impChannels impSize) mat = .ok imp ∧
      sparseConvolve channels size signal impChannels impSize filter (2 ^ a) rate threshold low = .ok out ∧
      out.length = channels ∧ ∀ c < channels, ∃ o peak, out[c]? = some o ∧ o.length = size ∧
        let h : ℕ → ℝ := fun i => if i < impSize then imp.getD (c * impSize + i) 0 else 0
        let x : ℕ → ℝ := fun i => if i < size then (signal.getD c []).getD i 0 else 0
        let N := (impSize - 1) / 2 ^ a + 1
        IsGreatest {p | ∃ j < N, ∃ k < 2 ^ a + 1, p = Spec.binPower (2 ^ a) h j k} peak ∧
        ∀ τ : ℕ → ℝ, (∀ j < N, 0 ≤ τ j) →
          (∀ j < N, ∀ k ≤ 2 ^ a, ¬ Spec.audible (2 ^ a) low rate threshold peak h j k →
            Real.sqrt (Spec.binPower (2 ^ a) h j k) ≤ τ j) →
          ∑ n ∈ range size, (o.getD n 0 - Spec.conv h x n) ^ 2
            ≤ 2 * (∑ j ∈ range N, τ j) ^ 2 * ∑ n ∈ range size, x n ^ 2 := by
  obtain ⟨mat, imp, out, h1, h2, h3, h4, h5, h6⟩ := C63_pruned_convolution channels size impSize a impChannels
    low rate threshold signal filter hsl hsig hfl hfilt hch hC ha ha2 hsize hS hS2 hsz hrate hlow
  refine ⟨mat, imp, out, h1, h2, h3, h4, h5, fun c hc => ?_⟩
  obtain ⟨o, pk, k1, k2, k3, k4⟩ := h6 c hc
  refine ⟨o, pk, k1, k2, k3, fun τ hτ0 hτ => ?_⟩
  refine le_trans (le_of_eq ?_) (pruned_error (B := 2 ^ a) Nat.one_le_two_pow _ _ _ ?_ τ hτ0 hτ size ?_)
  · apply sum_congr rfl
    intro n hn
    rw [List.getD_eq_getElem?_getD, k4 n (mem_range.1 hn)]
    rfl
  · intro m hm
    rw [if_neg]
    intro hlt
    have := Nat.lt_div_mul_add (a := impSize - 1) (b := 2 ^ a) (by positivity)
    rw [add_mul, one_mul] at hm
    omega
  · intro m hm
    rw [if_neg (by omega)]

/-- **C98**, the threshold in decibel: a dropped bin (other than an unprotected DC bin, which is always dropped) has a
power of at most `10^((threshold − bonus)/10)` relative to the peak, the bonus being 100 dB for a protected bin and the
A-weighting of its frequency otherwise. -/
theorem C98_dropped_level (B low : ℕ) (rate threshold peak : ℝ) (hp : 0 < peak) (h : ℕ → ℝ) (j k : ℕ) (hk : k < low ∨ 0 < k)
    (hd : ¬ Spec.audible B low rate threshold peak h j k) :
    Spec.binPower B h j k
      ≤ peak * (10 : ℝ) ^ ((threshold - if k < low then 100 else Spec.aWeight (k * rate / (2 * B))) / 10) := by
  have key : ∀ b : ℝ, Spec.level peak (Spec.binPower B h j k) + b ≤ threshold →
      Spec.binPower B h j k ≤ peak * (10 : ℝ) ^ ((threshold - b) / 10) := by
    intro b hb
    by_cases h0 : Spec.binPower B h j k ≤ 0
    · exact h0.trans (by positivity)
    · have hpos : 0 < Spec.binPower B h j k := not_le.1 h0
      unfold Spec.level at hb
      rw [if_neg h0] at hb
      have h1 : 10 * Real.logb 10 (Spec.binPower B h j k / peak) ≤ threshold - b := by
        have := le_max_right (-72 : ℝ) (10 * Real.logb 10 (Spec.binPower B h j k / peak))
        linarith
      have h2 : Real.logb 10 (Spec.binPower B h j k / peak) ≤ (threshold - b) / 10 := by linarith
      rw [Real.logb_le_iff_le_rpow (by norm_num) (div_pos hpos hp), div_le_iff₀ hp] at h2
      rwa [mul_comm] at h2
  unfold Spec.audible at hd
  by_cases c : k < low
  · rw [if_pos c] at hd ⊢
    exact key _ (not_lt.1 hd)
  · rw [if_neg c] at hd ⊢
    exact key _ (not_lt.1 (fun q => hd ⟨by omega, q⟩))

/-- At a threshold of 120 dB even the DC bin of a unit impulse, at the peak level and protected, is dropped. -/
example : ¬ Spec.audible 2 1 44100 120 1 (fun n => if n = 0 then 1 else 0) 0 0 := by
  unfold Spec.audible Spec.level Spec.binPower Spec.block Spec.dft
  norm_num [sum_range_succ]

end Neo.Props
