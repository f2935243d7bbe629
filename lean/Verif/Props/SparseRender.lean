import Verif.Lemmas.SparseRender
import Verif.Props.Upc
import Verif.Props.Stats

/-! # C63: the plugin's perceptually pruned convolution -/

namespace Neo.Props

open Neo Finset

open Classical in
/-- The sparse convolver loaded with the spectra of the blocks of `h`, as a block filter with the pruned
responses. -/
private theorem sparse_run {a N : ℕ} (ha : 1 ≤ a) (ha2 : a ≤ 26) {v : MatView} {data : List ℂ}
    (hv : v.InRange data.length) (hN : 1 ≤ N) (hr : v.rows = N) (hc : v.cols = 2 ^ a + 1) {h : ℕ → ℝ}
    (hH : ∀ r < v.rows, ∀ c < v.cols, matAt v data r c
      = Spec.dft (2 * 2 ^ a) (fun m => (Spec.block (2 ^ a) h r m : ℂ)) c)
    (p : ℕ → ℕ → ℂ → Bool) (keep : ℕ → ℕ → Prop)
    (hp : ∀ r < v.rows, ∀ c < v.cols, p r c (matAt v data r c) = true ↔ keep r c) (x : ℕ → ℝ) (T : ℕ) :
    runOps (sparseOps p) v data (vec T (fun t => vec (2 ^ a) (fun i => x (t * 2 ^ a + i))))
      = .ok (vec T (fun t => vec (2 ^ a) (fun i =>
          Spec.blockFilter (2 ^ a) N (Spec.pruned (2 ^ a) keep h) x (t * 2 ^ a + i)))) := by
  set B := 2 ^ a with hB
  have hB1 : 1 ≤ B := Nat.one_le_two_pow
  set blocks := vec T (fun t => vec B (fun i => x (t * B + i))) with hblocks
  have hlen : ∀ b ∈ blocks, b.length = B := by
    intro b hb
    rw [hblocks] at hb
    unfold vec at hb
    obtain ⟨t, -, rfl⟩ := List.mem_map.1 hb
    simp
  have hrun : runOps (sparseOps p) v data blocks = sparseUpolaRun v data p blocks := rfl
  have hth := C25_thresholded_exists p v data
  rw [hrun, C25_sparse_upola p v data hv _ _ hth]
  obtain ⟨t1, t2, t3, t4⟩ := hth
  rw [upolaRun_eq ha ha2 (v := MatView.right v.rows v.cols) t3 (by show 1 ≤ v.rows; omega) hc
    (H := fun j => Spec.dft (2 * B) (fun m => ((Spec.pruned B keep h j m : ℝ) : ℂ))) ?_ blocks hlen]
  · have hl : blocks.length = T := length_vec _ _
    rw [hl]
    congr 1
    apply vec_ext
    intro t ht
    apply vec_ext
    intro i hi
    rw [show (MatView.right v.rows v.cols).rows = N from hr, olaOut_blockFilter _ _ _ hi]
    apply blockFilter_congr
    intro m hm
    rw [mul_add_div' hi] at hm
    have hlt : m < T * B := lt_of_lt_of_le hm (Nat.mul_le_mul_right _ ht)
    unfold streamOf
    rw [hblocks, flatten_vec, getD_vec _ _ _ _ hlt]
  · intro r hr' c hc'
    have h4 := t4 r hr' c hc'
    have hc2 : c < B + 1 := by
      have : c < v.cols := hc'
      omega
    rw [dft_pruned hB1 keep h r hc2]
    show List.getD _ _ _ = _
    rw [h4]
    have e := hH r hr' c hc'
    have e2 := hp r hr' c hc'
    unfold matAt at e e2
    rw [e] at e2 ⊢
    by_cases k : keep r c
    · rw [if_pos (e2.2 k), if_pos k]
    · rw [if_neg (fun q => k (e2.1 q)), if_neg k]

/-- **C63**.  For every signal, impulse response, power-of-two block size `B = 2^a ≥ 2`, sample rate,
threshold and number of protected low bins, `sparse_convolve` runs without a fault and returns, channel by channel, the
overlap-added circular convolutions of the signal's blocks with the pruned responses: of the
`⌈impSize / B⌉` blocks of the normalised impulse exactly the spectral bins remain whose power, relative to the
strongest bin of the channel and A-weighted, is above the threshold (`Spec.audible`). -/
theorem C63_pruned_convolution (channels size impSize a : ℕ) (impChannels low : ℕ) (rate threshold : ℝ)
    (signal filter : List (List ℝ)) (hsl : signal.length = channels)
    (hsig : ∀ s ∈ signal, s.length = size) (hfl : filter.length = impChannels)
    (hfilt : ∀ s ∈ filter, s.length = impSize) (hch : channels ≤ impChannels)
    (hC : channels < 2 ^ 31) (ha : 1 ≤ a) (ha2 : a ≤ 26) (hsize : size + 2 ^ a ≤ 2 ^ 31)
    (hS : 1 ≤ impSize) (hS2 : impSize < 2 ^ 64)
    (hsz : impChannels * ((impSize - 1) / 2 ^ a + 1) * (2 ^ a + 1) < 2 ^ 59)
    (hrate : rate ≠ 0) (hlow : low ≤ 2 ^ a + 1) :
    ∃ mat imp out, mat.length = impChannels * impSize ∧
      (∀ c < impChannels, ∀ i < impSize, mat[c * impSize + i]? = some ((filter.getD c []).getD i 0)) ∧
      normalizeImpulseMat false (MatView.right impChannels impSize) mat = .ok imp ∧
      sparseConvolve channels size signal impChannels impSize filter (2 ^ a) rate threshold low = .ok out ∧
      out.length = channels ∧ ∀ c < channels, ∃ o peak, out[c]? = some o ∧ o.length = size ∧
        let h : ℕ → ℝ := fun i => if i < impSize then imp.getD (c * impSize + i) 0 else 0
        IsGreatest {p | ∃ j < (impSize - 1) / 2 ^ a + 1, ∃ k < 2 ^ a + 1,
          p = Spec.binPower (2 ^ a) h j k} peak ∧
        ∀ n < size, o[n]? = some (Spec.blockFilter (2 ^ a) ((impSize - 1) / 2 ^ a + 1)
          (Spec.pruned (2 ^ a) (Spec.audible (2 ^ a) low rate threshold peak h) h)
          (fun i => if i < size then (signal.getD c []).getD i 0 else 0) n) := by
  have hval := MatView.right_valid impChannels impSize
  obtain ⟨mat, hm, hml, hmv⟩ := toMdarray_ok (C := impChannels) (L := impSize) hfl hfilt
  obtain ⟨imp, f, hn, -, hl, -⟩ := C48_normalize_impulse_partial false
    (MatView.right impChannels impSize) mat (by rw [hml]; exact hval)
  have hvi : (MatView.right impChannels impSize).InRange imp.length := by
    rw [hl, hml]; exact hval.1
  have hidx : ∀ R L c n, (MatView.right R L).idx c n = c * L + n := by
    intro R L c n; simp only [MatView.right, MatView.idx]; ring
  have hcl : Nat.clog 2 (2 ^ a * 2) = a + 1 := by rw [← pow_succ, Nat.clog_pow 2 _ (by norm_num)]
  obtain ⟨part, hpart, hp⟩ := uniformPartition_eq hvi Nat.one_le_two_pow hcl (by omega) hS hS2
    (by rw [two_pow_half]; exact hsz)
  rw [two_pow_half] at hpart hp
  change uniformPartition _ _ _ = .ok ((impSize - 1) / 2 ^ a + 1, _, _) at hpart
  change ∀ c < impChannels, (partitionView ((impSize - 1) / 2 ^ a + 1) _ c).InRange _ ∧ ∀ t < (impSize - 1) / 2 ^ a + 1, _ at hp
  set B := 2 ^ a with hB
  have hB1 : 1 ≤ B := Nat.one_le_two_pow
  set N := (impSize - 1) / B + 1 with hN
  set hh : ℕ → ℕ → ℝ := fun c i => if i < impSize then imp.getD (c * impSize + i) 0 else 0 with hhh
  set xx : ℕ → ℕ → ℝ := fun c i => if i < size then (signal.getD c []).getD i 0 else 0 with hxx
  have hchan : ∀ c, chanAt (MatView.right impChannels impSize) imp c = hh c := by
    intro c; funext i; unfold chanAt; rw [hidx]; rfl
  have hmat : ∀ c < impChannels, ∀ t < N, ∀ k < B + 1, matAt (partitionView N (B + 1) c) part t k
      = Spec.dft (2 * B) (fun m => (Spec.block B (hh c) t m : ℂ)) k := by
    intro c hc t ht k hk
    have e := (hp c hc).2 t ht k hk
    change matAt (partitionView N (B + 1) c) part t k = _ at e
    rw [e, hchan, show 2 ^ (a + 1) = 2 * B by rw [pow_succ, hB, mul_comm]]
    rfl
  -- per channel: the peak, the predicate and what the convolver does
  have hpk : ∀ c < channels, ∃ pk, IsGreatest {p | ∃ j < N, ∃ k < B + 1, p = Spec.binPower B (hh c) j k} pk ∧
      normalizationFactor (partitionView N (B + 1) c) part
        = .ok (if pk = 0 then none else some (1 / pk)) := by
    intro c hc
    obtain ⟨pk, h1, h2⟩ := normalizationFactor_eq (hp c (by omega)).1 (Nat.le_add_left 1 _)
      (Nat.le_add_left 1 _)
    refine ⟨pk, ?_, h2⟩
    convert h1 using 2
    ext p
    constructor
    · rintro ⟨j, hj, k, hk, rfl⟩
      exact ⟨j, hj, k, hk, by rw [hmat c (by omega) j hj k hk]; rfl⟩
    · rintro ⟨j, hj, k, hk, rfl⟩
      exact ⟨j, hj, k, hk, by rw [hmat c (by omega) j hj k hk]; rfl⟩
  choose! pk hpk1 hpk2 using hpk
  set y : ℕ → ℕ → ℝ := fun c => Spec.blockFilter B N
    (Spec.pruned B (Spec.audible B low rate threshold (pk c) (hh c)) (hh c)) (xx c) with hy
  have hK : bitCeil ((B + 1 - 1) * 2) = 2 * B := by
    rw [Nat.add_sub_cancel, bitCeil_eq_clog, hcl, hB, pow_succ]; ring
  have hw := sparseWeights_eq (K := 2 * B) (bins := B + 1) (low := low) (rate := rate) (by omega) hlow hrate
  have hloop := forN_inv (n := channels) (body := fun ch (s : List ℝ × List (List ℝ)) => do
    if impChannels ≤ ch then .error .oob else .ok ()
    let v := partitionView N (B + 1) ch
    let scale ← normalizationFactor v part
    let ops := sparseOps (isAboveThreshold threshold scale
      (vec (B + 1) (fun i => if i < low then ((100 : ℝ) : EReal) else aWeighting (i * rate / (2 * B : ℕ)))))
    let conv ← ops.make
    let conv ← ops.load conv v part
    let input ← rd signal ch
    let out ← rd s.2 ch
    let r ← forIntStep B size (sparseBlock ops size input B) size 0
      { conv := conv, block := s.1, out := out }
    let outs ← wr s.2 ch r.out
    pure (r.block, outs)) (s := (List.replicate B 0, List.replicate channels (List.replicate size 0)))
    (fun t s => s.1.length = B ∧ s.2 = vec channels (fun c => if c < t then vec size (y c) else
      List.replicate size 0)) ⟨by simp, by simp [vec_const]⟩ ?_
  · obtain ⟨s, e, -, hs⟩ := hloop
    refine ⟨mat, imp, s.2, hml, fun c hc i hi => by rw [← hidx impChannels]; exact hmv c hc i hi, hn, ?_, ?_, ?_⟩
    · unfold sparseConvolve
      rw [hm, bind_ok, hn, bind_ok, hpart, bind_ok]
      dsimp only
      rw [hK, hw, bind_ok, forInt_eq hC]
      dsimp only at e
      rw [e, bind_ok]
      rfl
    · rw [hs, length_vec]
    · intro c hc
      refine ⟨vec size (y c), pk c, ?_, length_vec _ _, hpk1 c hc, ?_⟩
      · rw [hs, getElem?_vec, if_pos hc, if_pos hc]
      · intro n hn
        rw [getElem?_vec, if_pos hn]
  · intro ch hch' s ⟨h1, h2⟩
    have hrun := sparse_run ha ha2 (N := N) (hp ch (by omega)).1 (Nat.le_add_left 1 _) rfl rfl
      (h := hh ch) (fun r hr c hc => hmat ch (by omega) r hr c hc)
      (isAboveThreshold threshold (if pk ch = 0 then none else some (1 / pk ch))
        (vec (B + 1) (fun i => if i < low then ((100 : ℝ) : EReal)
          else aWeighting (i * rate / (2 * B : ℕ)))))
      (Spec.audible B low rate threshold (pk ch) (hh ch))
      (fun r hr c hc => isAboveThreshold_iff hB1 hrate hc
        (by rw [hmat ch (by omega) r hr c hc]; rfl) ((hpk1 ch hch').2 ⟨r, hr, c, hc, rfl⟩)) (xx ch) size
    obtain ⟨u0, u, e1, e2, htr⟩ := traces_of_run_vec hrun
    have hin : rd signal ch = .ok (vec size (fun i => (signal.getD ch []).getD i 0)) := by
      have hc' : ch < signal.length := by omega
      rw [rd_ok hc']
      congr 1
      rw [List.getD_eq_getElem?_getD, List.getElem?_eq_getElem hc', Option.getD_some]
      exact list_eq_vec 0 (hsig _ (List.getElem_mem hc'))
    obtain ⟨r, er, r1, r2⟩ := sparseLoop_ok (fun i => (signal.getD ch []).getD i 0) (block := s.1)
      (out := List.replicate size 0) hB1 hsize h1 (by simp) htr
    refine ⟨(r.block, vec channels (fun c => if c < ch + 1 then vec size (y c) else
      List.replicate size 0)), ?_, r1, rfl⟩
    dsimp only
    rw [if_neg (by omega), bind_ok, hpk2 ch hch', bind_ok, e1, bind_ok, e2, bind_ok, hin, bind_ok, h2,
      rd_vec_ok hch', bind_ok, if_neg (lt_irrefl _), er, bind_ok, wr_vec_ok hch', bind_ok, pure_eq_ok]
    congr 2
    apply vec_ext
    intro c hc
    by_cases q : c = ch
    · subst q
      rw [Function.update_self, if_pos (by omega), r2]
    · rw [Function.update_of_ne q]
      by_cases q2 : c < ch
      · rw [if_pos q2, if_pos (by omega)]
      · rw [if_neg q2, if_neg (by omega)]

open Classical in
/-- If every bin that is dropped was zero anyway, the pruned responses are the blocks themselves. -/
private theorem pruned_eq_block {B : ℕ} (keep : ℕ → ℕ → Prop) (h : ℕ → ℝ) {j : ℕ}
    (hk : ∀ k ≤ B, keep j k ∨ Spec.binPower B h j k = 0) {n : ℕ} (hn : n < 2 * B) :
    Spec.pruned B keep h j n = Spec.block B h j n := by
  have hz : ∀ k ≤ B, ¬ keep j k → Spec.dft (2 * B) (fun m => (Spec.block B h j m : ℂ)) k = 0 := by
    intro k hkB hne
    have := (hk k hkB).resolve_left hne
    unfold Spec.binPower at this
    exact norm_eq_zero.1 (pow_eq_zero_iff (two_ne_zero) |>.1 this)
  unfold Spec.pruned
  rw [idft_congr (y := Spec.dft (2 * B) (fun m => (Spec.block B h j m : ℂ))) ?_ n, idft_dft _ hn]
  · have hK : ((2 * B : ℕ) : ℝ) ≠ 0 := by exact_mod_cast (by omega : 2 * B ≠ 0)
    rw [← Complex.ofReal_natCast, ← Complex.ofReal_mul, Complex.ofReal_re, ← mul_assoc, one_div_mul_cancel hK,
      one_mul]
  · intro k hk2
    split
    · rfl
    · next hne =>
      by_cases q : k ≤ B
      · rw [Nat.min_eq_left (by omega)] at hne
        exact (hz k q hne).symm
      · rw [Nat.min_eq_right (by omega)] at hne
        have e := hz (2 * B - k) (by omega) hne
        rw [dft_real_symm _ hk2.le, map_eq_zero] at e
        exact e.symm

/-- **C63**, link to linear convolution: pruning that drops only zero bins leaves the partitioned
convolution equal to the linear convolution, for every response of at most `N` blocks. -/
theorem C63_lossless_pruning {B N : ℕ} (hB : 1 ≤ B) (keep : ℕ → ℕ → Prop) (h x : ℕ → ℝ)
    (hh : ∀ m, N * B ≤ m → h m = 0)
    (hk : ∀ j < N, ∀ k ≤ B, keep j k ∨ Spec.binPower B h j k = 0) (n : ℕ) :
    Spec.blockFilter B N (Spec.pruned B keep h) x n = Spec.conv h x n := by
  have hc : ∀ (u : ℕ → ℝ) (j i : ℕ), j < N → Spec.circConv (2 * B) u (Spec.pruned B keep h j) i
      = Spec.circConv (2 * B) u (Spec.block B h j) i := by
    intro u j i hj
    unfold Spec.circConv
    apply sum_congr rfl
    intro m _
    rw [pruned_eq_block keep h (hk j hj) (Nat.mod_lt _ (by omega))]
  have e : Spec.blockFilter B N (Spec.pruned B keep h) x n = Spec.blockFilter B N (Spec.block B h) x n := by
    unfold Spec.blockFilter
    congr 1 <;>
    · apply sum_congr rfl
      intro j hj
      split
      · rw [hc _ _ _ (mem_range.1 hj)]
      · rfl
  have hd := Nat.div_add_mod' n B
  have hlt := Nat.mod_lt n hB
  rw [e, ← hd, ← olaOut_blockFilter (Spec.block B h) x (n / B) hlt]
  exact ola_conv hh x (n / B) hlt

/-- **C63**, corollary: with all bins protected and a threshold below 28 dB (the floor of −72 dB plus the
bonus of 100 dB) `sparse_convolve` is the exact convolution with the normalised impulse. -/
theorem C63_all_bins_protected (channels size impSize a : ℕ) (impChannels : ℕ) (rate threshold : ℝ)
    (signal filter : List (List ℝ)) (hsl : signal.length = channels)
    (hsig : ∀ s ∈ signal, s.length = size) (hfl : filter.length = impChannels)
    (hfilt : ∀ s ∈ filter, s.length = impSize) (hch : channels ≤ impChannels)
    (hC : channels < 2 ^ 31) (ha : 1 ≤ a) (ha2 : a ≤ 26) (hsize : size + 2 ^ a ≤ 2 ^ 31)
    (hS : 1 ≤ impSize) (hS2 : impSize < 2 ^ 64)
    (hsz : impChannels * ((impSize - 1) / 2 ^ a + 1) * (2 ^ a + 1) < 2 ^ 59)
    (hrate : rate ≠ 0) (hthr : threshold < 28) :
    ∃ mat imp out, mat.length = impChannels * impSize ∧
      (∀ c < impChannels, ∀ i < impSize, mat[c * impSize + i]? = some ((filter.getD c []).getD i 0)) ∧
      normalizeImpulseMat false (MatView.right impChannels impSize) mat = .ok imp ∧
      sparseConvolve channels size signal impChannels impSize filter (2 ^ a) rate threshold
        ((2 ^ a + 1 : ℕ) : ℤ) = .ok out ∧
      out.length = channels ∧ ∀ c < channels, ∃ o, out[c]? = some o ∧ o.length = size ∧
        ∀ n < size, o[n]?
          = some (Spec.conv (fun i => if i < impSize then imp.getD (c * impSize + i) 0 else 0)
              (fun i => if i < size then (signal.getD c []).getD i 0 else 0) n) := by
  obtain ⟨mat, imp, out, h1, h2, h3, h4, h5, h6⟩ := C63_pruned_convolution channels size impSize a impChannels
    (2 ^ a + 1) rate threshold signal filter hsl hsig hfl hfilt hch hC ha ha2 hsize hS hS2 hsz hrate le_rfl
  refine ⟨mat, imp, out, h1, h2, h3, h4, h5, fun c hc => ?_⟩
  obtain ⟨o, pk, k1, k2, -, k4⟩ := h6 c hc
  refine ⟨o, k1, k2, fun n hn => ?_⟩
  rw [k4 n hn, C63_lossless_pruning Nat.one_le_two_pow]
  · intro m hm
    rw [if_neg]
    intro hlt
    have := Nat.lt_div_mul_add (a := impSize - 1) (b := 2 ^ a) (by positivity)
    rw [add_mul, one_mul] at hm
    omega
  · intro j _ k hk
    left
    unfold Spec.audible
    rw [if_pos (by omega)]
    have : -72 ≤ Spec.level pk (Spec.binPower (2 ^ a) (fun i => if i < impSize then imp.getD (c * impSize + i) 0
        else 0) j k) := by
      unfold Spec.level
      split
      · exact le_rfl
      · exact le_max_left _ _
    linarith

/-- **C63**, observation: without protected bins the DC bin is dropped whatever the threshold, so every
pruned response sums to zero and a constant signal is silenced. -/
theorem C63_dc_always_dropped {B : ℕ} (hB : 1 ≤ B) (rate threshold peak : ℝ) (h : ℕ → ℝ) (j : ℕ) :
    ∑ n ∈ range (2 * B), Spec.pruned B (Spec.audible B 0 rate threshold peak h) h j n = 0 := by
  have e := dft_pruned hB (Spec.audible B 0 rate threshold peak h) h j (k := 0) (by omega)
  rw [if_neg (by unfold Spec.audible; simp)] at e
  unfold Spec.dft at e
  have : ((∑ n ∈ range (2 * B), Spec.pruned B (Spec.audible B 0 rate threshold peak h) h j n : ℝ) : ℂ) = 0 := by
    rw [← e]
    push_cast
    apply sum_congr rfl
    intro n _
    simp
  exact_mod_cast this

/-- **C63**, the weighting function: for every frequency except 0 `a_weighting` is the IEC 61672 curve; at
0 Hz it is `-∞`. -/
theorem C63_a_weighting (f : ℝ) :
    aWeighting f = if f = 0 then ⊥ else ((Spec.aWeight f : ℝ) : EReal) := by
  split
  · next h => rw [h, aWeighting_zero]
  · next h => exact aWeighting_eq h

/-- **C63**, limit: a number of protected bins that is negative or larger than the number of bins runs out
of bounds of the weight table. -/
theorem C63_low_bins_out_of_range (K bins : ℕ) (low : ℤ) (rate : ℝ) (h : low < 0 ∨ (bins : ℤ) < low) :
    sparseWeights K bins low rate = .error .oob := by
  unfold sparseWeights
  rw [if_pos h]
  rfl

/-- Two channels, five samples, blocks of four, three protected bins, threshold -40 dB. -/
example : ∃ out, sparseConvolve 2 5 [[1, 2, 3, 4, 5], [6, 7, 8, 9, 10]] 2 3 [[1, 0, 0], [1, 2, 2]] (2 ^ 2)
    44100 (-40) (3 : ℕ) = .ok out ∧ out.length = 2 := by
  obtain ⟨mat, imp, out, -, -, -, e, h, -⟩ := C63_pruned_convolution 2 5 3 2 2 3 44100 (-40)
    [[1, 2, 3, 4, 5], [6, 7, 8, 9, 10]] [[1, 0, 0], [1, 2, 2]] rfl (by simp) rfl (by simp) le_rfl
    (by norm_num) (by norm_num) (by norm_num) (by norm_num) (by norm_num) (by norm_num) (by norm_num)
    (by norm_num) (by norm_num)
  exact ⟨out, e, h⟩

end Neo.Props
