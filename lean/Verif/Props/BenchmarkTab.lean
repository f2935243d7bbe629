import Verif.Lemmas.BenchmarkTab

/-! # C94: impulse analysis and sparse quality test of the benchmark tab -/

namespace Neo.Props

open Neo Finset

/-- The matrix of an audio buffer is determined by its elements. -/
theorem mat_unique {C L : ℕ} {m m' : List ℝ} {f : ℕ → ℕ → ℝ} (h : m.length = C * L) (h' : m'.length = C * L)
    (e : ∀ c < C, ∀ i < L, m[c * L + i]? = some (f c i)) (e' : ∀ c < C, ∀ i < L, m'[c * L + i]? = some (f c i)) :
    m = m' := by
  apply List.ext_getElem?
  intro n
  by_cases hn : n < C * L
  · have hL : 0 < L := by
      rcases Nat.eq_zero_or_pos L with rfl | h
      · simp at hn
      · exact h
    have hd : n / L * L + n % L = n := Nat.div_add_mod' n L
    have hc : n / L < C := Nat.div_lt_of_lt_mul (by rwa [mul_comm])
    have h1 := e _ hc _ (Nat.mod_lt n hL)
    have h2 := e' _ hc _ (Nat.mod_lt n hL)
    rw [hd] at h1 h2
    rw [h1, h2]
  · rw [List.getElem?_eq_none (by omega), List.getElem?_eq_none (by omega)]

/-- **C94**, the error measure: for two spectrograms of the same shape `maxChannelRMSError` is the largest
root-mean-square difference of the magnitudes of a channel; it is zero exactly if all magnitudes agree. -/
theorem C94_max_rmse (C N M : ℕ) (x y : List ℂ) (hC : C < 2 ^ 32) (hN : 1 ≤ N) (hM : 1 ≤ M)
    (hx : x.length = C * N * M) (hy : y.length = C * N * M) :
    ∃ e, maxChannelRmse C N M x N M y = .ok e ∧
      IsGreatest (insert 0 {r | ∃ c < C, r = Spec.rmsDiff N M
        (fun t k => ‖x.getD ((c * N + t) * M + k) 0‖) (fun t k => ‖y.getD ((c * N + t) * M + k) 0‖)}) e ∧
      (e = 0 ↔ ∀ c < C, ∀ t < N, ∀ k < M,
        ‖x.getD ((c * N + t) * M + k) 0‖ = ‖y.getD ((c * N + t) * M + k) 0‖) := by
  obtain ⟨e, h1, h2⟩ := maxChannelRmse_ok hC hN hM hx hy
    (fun c t k => ‖x.getD ((c * N + t) * M + k) 0‖) (fun c t k => ‖y.getD ((c * N + t) * M + k) 0‖)
    (fun _ _ _ _ _ _ => rfl) (fun _ _ _ _ _ _ => rfl)
  have hpos : (0 : ℝ) < (N * M : ℕ) := by
    rw [Nat.cast_pos]; positivity
  refine ⟨e, h1, h2, ?_, ?_⟩
  · rintro rfl c hc t ht k hk
    have h := h2.2 (Set.mem_insert_of_mem _ ⟨c, hc, rfl⟩)
    have h0 := le_antisymm h (Real.sqrt_nonneg _)
    unfold Spec.rmsDiff at h0
    have hnn : 0 ≤ ∑ t ∈ range N, ∑ k ∈ range M, (‖x.getD ((c * N + t) * M + k) 0‖
        - ‖y.getD ((c * N + t) * M + k) 0‖) ^ 2 :=
      sum_nonneg (fun _ _ => sum_nonneg (fun _ _ => sq_nonneg _))
    rw [Real.sqrt_eq_zero (div_nonneg hnn hpos.le), div_eq_zero_iff, or_iff_left hpos.ne',
      sum_eq_zero_iff_of_nonneg (fun _ _ => sum_nonneg (fun _ _ => sq_nonneg _))] at h0
    have h3 := h0 t (mem_range.2 ht)
    rw [sum_eq_zero_iff_of_nonneg (fun _ _ => sq_nonneg _)] at h3
    have h4 := h3 k (mem_range.2 hk)
    exact sub_eq_zero.1 (pow_eq_zero_iff (by norm_num) |>.1 h4)
  · intro h
    rcases h2.1 with h0 | ⟨c, hc, rfl⟩
    · exact h0
    · unfold Spec.rmsDiff
      rw [sum_eq_zero (fun t ht => sum_eq_zero (fun k hk => by
        beta_reduce
        rw [h c hc t (mem_range.1 ht) k (mem_range.1 hk), sub_self, zero_pow (by norm_num)])), zero_div, Real.sqrt_zero]

/-- One channel, one frame, two bins: magnitudes 5, 1 against 5, 3. -/
example : ∃ e, maxChannelRmse 1 1 2 [⟨3, 4⟩, 1] 1 2 [5, 3] = .ok e ∧ e ≠ 0 := by
  obtain ⟨e, h1, -, h2⟩ := C94_max_rmse 1 1 2 [⟨3, 4⟩, 1] [5, 3] (by norm_num) le_rfl (by norm_num) rfl rfl
  refine ⟨e, h1, fun h => ?_⟩
  have := h2.1 h 0 one_pos 0 one_pos 1 (by norm_num)
  norm_num at this

/-- A peak gain scales equal signals to equal signals. -/
theorem peakGain_unique {C S : ℕ} {x y : ℕ → ℕ → ℝ} {g g' : ℝ} (h : Spec.IsPeakGain C S x g)
    (h' : Spec.IsPeakGain C S y g') (e : ∀ c < C, ∀ n < S, x c n = y c n) :
    ∀ c < C, ∀ n < S, x c n * g = y c n * g' := by
  intro c hc n hn
  rw [e c hc n hn]
  by_cases h0 : y c n = 0
  · rw [h0, zero_mul, zero_mul]
  obtain ⟨⟨c1, hc1, n1, hn1, k1⟩, k2⟩ := h.2 ⟨c, hc, n, hn, by rw [e c hc n hn]; exact h0⟩
  obtain ⟨⟨c2, hc2, n2, hn2, k3⟩, k4⟩ := h'.2 ⟨c, hc, n, hn, h0⟩
  have a1 := k2 ⟨c2, hc2, n2, hn2, rfl⟩
  have a2 := k4 ⟨c1, hc1, n1, hn1, rfl⟩
  rw [e c2 hc2 n2 hn2] at a1
  rw [e c1 hc1 n1 hn1] at k1
  have b1 : 0 < |y c1 n1| := by
    by_contra hb
    have : |y c1 n1| = 0 := le_antisymm (not_lt.1 hb) (abs_nonneg _)
    rw [this, zero_mul] at k1
    norm_num at k1
  have b2 : 0 < |y c2 n2| := by
    by_contra hb
    have : |y c2 n2| = 0 := le_antisymm (not_lt.1 hb) (abs_nonneg _)
    rw [this, zero_mul] at k3
    norm_num at k3
  rw [k3] at a1
  rw [k1] at a2
  rw [le_antisymm (le_of_mul_le_mul_left a1 b2) (le_of_mul_le_mul_left a2 b1)]

theorem peakGain_congr {C S : ℕ} {x y : ℕ → ℕ → ℝ} {g : ℝ} (h : Spec.IsPeakGain C S x g)
    (e : ∀ c < C, ∀ n < S, x c n = y c n) : Spec.IsPeakGain C S y g := by
  refine ⟨h.1, ?_⟩
  rintro ⟨c, hc, n, hn, hne⟩
  obtain ⟨⟨c1, hc1, n1, hn1, k1⟩, k2⟩ := h.2 ⟨c, hc, n, hn, by rw [e c hc n hn]; exact hne⟩
  refine ⟨⟨c1, hc1, n1, hn1, by rw [← e c1 hc1 n1 hn1]; exact k1⟩, ?_⟩
  rintro v ⟨c, hc, n, hn, rfl⟩
  exact k2 ⟨c, hc, n, hn, by rw [e c hc n hn]⟩

theorem spectrogram_congr {F H K S : ℕ} {x y : ℕ → ℝ} (h : ∀ n < S, x n = y n) (t k : ℕ) :
    Spec.spectrogram F H K S x t k = Spec.spectrogram F H K S y t k := by
  unfold Spec.spectrogram
  congr 2
  funext n
  refine congrArg (fun z : ℝ => (z : ℂ)) ?_
  by_cases hn : n < F ∧ t * H + n < S
  · rw [if_pos hn, if_pos hn, h _ hn.2]
  · rw [if_neg hn, if_neg hn]

theorem rmsDiff_self {N M : ℕ} {a b : ℕ → ℕ → ℝ} (h : ∀ t k, a t k = b t k) : Spec.rmsDiff N M a b = 0 := by
  unfold Spec.rmsDiff
  rw [sum_eq_zero (fun t _ => sum_eq_zero (fun k _ => by rw [h t k, sub_self, zero_pow (by norm_num)])), zero_div,
    Real.sqrt_zero]

/-- **C94**, the quality test.  For every signal, impulse response with at least as many channels, window size
`2^w ≥ 2`, sample rate and number of protected low bins, `runSparseQualityTests` runs without a fault and prints
180 lines.  Line `j` holds the dynamic range `90 - j · 89/179` and the largest channel error between the
magnitude spectrograms of two peak-normalised signals: the convolution with the normalised impulse, and its
sparse rendering with the threshold `-range`.  The error is zero if every spectral bin of the impulse is above the
threshold or has no power. -/
theorem C94_quality (channels size impSize impChannels low w : ℕ) (rate : ℝ) (signal filter : List (List ℝ))
    (hsl : signal.length = channels) (hsig : ∀ s ∈ signal, s.length = size) (hfl : filter.length = impChannels)
    (hfilt : ∀ s ∈ filter, s.length = impSize) (hch : channels ≤ impChannels) (hC : channels < 2 ^ 31)
    (hsize1 : 1 ≤ size) (hsize : size + 4096 ≤ 2 ^ 31) (hS : 1 ≤ impSize) (hS2 : impSize < 2 ^ 64)
    (hsz : impChannels * ((impSize - 1) / 4096 + 1) * 4097 < 2 ^ 59) (hw : 1 ≤ w) (hw2 : w ≤ 26)
    (hsz2 : channels * ((size + (2 ^ (w - 1) - 1)) / 2 ^ (w - 1)) * (2 ^ w + 1) < 2 ^ 59)
    (hrate : rate ≠ 0) (hlow : low ≤ 4097) :
    ∃ mat imp out gd, mat.length = impChannels * impSize ∧
      (∀ c < impChannels, ∀ i < impSize, mat[c * impSize + i]? = some ((filter.getD c []).getD i 0)) ∧
      normalizeImpulseMat false (MatView.right impChannels impSize) mat = .ok imp ∧
      sparseQuality (2 ^ w) channels size signal impChannels impSize filter rate low = .ok out ∧ out.length = 180 ∧
      let h : ℕ → ℕ → ℝ := fun c i => if i < impSize then imp.getD (c * impSize + i) 0 else 0
      let x : ℕ → ℕ → ℝ := fun c i => if i < size then (signal.getD c []).getD i 0 else 0
      let P := (impSize - 1) / 4096 + 1
      let dense : ℕ → ℕ → ℝ := fun c => Spec.conv (h c) (x c)
      let H := 2 ^ (w - 1)
      let spectrogram := Spec.spectrogram (2 ^ w) H (2 ^ (w + 1)) size
      Spec.IsPeakGain channels size dense gd ∧
      ∀ j : ℕ, j < 180 → ∃ range e gs, ∃ peak : ℕ → ℝ, range = 90 - j * (89 / 179 : ℝ) ∧ out[j]? = some (range, e) ∧
        (∀ c < channels, IsGreatest {p | ∃ j < P, ∃ k < 4097, p = Spec.binPower 4096 (h c) j k} (peak c)) ∧
        let keep : ℕ → ℕ → ℕ → Prop := fun c => Spec.audible 4096 low rate (-range) (peak c) (h c)
        let sparse : ℕ → ℕ → ℝ := fun c => Spec.blockFilter 4096 P (Spec.pruned 4096 (keep c) (h c)) (x c)
        Spec.IsPeakGain channels size sparse gs ∧
        IsGreatest (insert 0 {r | ∃ c < channels, r = Spec.rmsDiff ((size + (H - 1)) / H) (2 ^ w + 1)
          (spectrogram (fun n => dense c n * gd)) (spectrogram (fun n => sparse c n * gs))}) e ∧
        ((∀ c < channels, ∀ b < P, ∀ k ≤ 4096, keep c b k ∨ Spec.binPower 4096 (h c) b k = 0) → e = 0) := by
  have h12 : (2 : ℕ) ^ 12 = 4096 := by norm_num
  obtain ⟨mat, imp, dn, hml, hmv, hn, hd, hdl, hdv⟩ := C57_plugin .upols channels size impSize 12 impChannels signal
    filter hsl hsig hfl hfilt hch hC (by norm_num) (by norm_num) (by rw [h12]; exact hsize) hS hS2
    (by rw [h12]; exact hsz)
  rw [h12] at hd
  have hs2 : size < 2 ^ 64 := lt_of_lt_of_le (by omega : size < 2 ^ 31) (by norm_num)
  choose! dc hdc1 hdc2 hdc3 using hdv
  have hget : ∀ {l : List (List ℝ)} {c : ℕ} {o : List ℝ}, l[c]? = some o → l.getD c [] = o := by
    intro l c o h
    rw [List.getD_eq_getElem?_getD, h]; rfl
  have hlen : ∀ {l : List (List ℝ)} {o : ℕ → List ℝ}, l.length = channels → (∀ c < channels, l[c]? = some (o c)) →
      (∀ c < channels, (o c).length = size) → ∀ s ∈ l, s.length = size := by
    intro l o h1 h2 h3 s hs
    obtain ⟨c, hc, rfl⟩ := List.mem_iff_getElem.1 hs
    have := h2 c (by omega)
    rw [List.getElem?_eq_getElem hc] at this
    rw [Option.some.inj this]
    exact h3 c (by omega)
  obtain ⟨gd, D, hD, hDl, hgd, hDv⟩ := renderSpectrogram_ok (buffer := dn) hw hw2 hdl (hlen hdl hdc1 hdc2) hsize1 hs2
    hsz2
  set H := 2 ^ (w - 1) with hH
  have hHpos : 1 ≤ H := Nat.one_le_two_pow
  set N := (size + (H - 1)) / H with hN
  have hN1 : 1 ≤ N := by
    rw [hN, Nat.one_le_div_iff hHpos]; omega
  set h : ℕ → ℕ → ℝ := fun c i => if i < impSize then imp.getD (c * impSize + i) 0 else 0 with hh
  set x : ℕ → ℕ → ℝ := fun c i => if i < size then (signal.getD c []).getD i 0 else 0 with hx
  set P := (impSize - 1) / 4096 + 1 with hP
  have hdense : ∀ c < channels, ∀ n < size, (dn.getD c []).getD n 0 = Spec.conv (h c) (x c) n := by
    intro c hc n hn'
    rw [hget (hdc1 c hc), List.getD_eq_getElem?_getD, hdc3 c hc n hn']
    rfl
  -- one line
  have hline : ∀ j : ℕ, j < 180 → ∃ sp e gs, ∃ peak : ℕ → ℝ, ∃ T,
      sparseConvolve channels size signal impChannels impSize filter 4096 rate (-(90 - j * (89 / 179 : ℝ))) (low : ℕ) = .ok sp ∧
      renderSpectrogram (2 ^ w) channels size sp = .ok (N, 2 ^ w + 1, T) ∧
      maxChannelRmse channels N (2 ^ w + 1) D N (2 ^ w + 1) T = .ok e ∧
      (∀ c < channels, IsGreatest {p | ∃ j < P, ∃ k < 4097, p = Spec.binPower 4096 (h c) j k} (peak c)) ∧
      Spec.IsPeakGain channels size (fun c => Spec.blockFilter 4096 P (Spec.pruned 4096
        (Spec.audible 4096 low rate (-(90 - j * (89 / 179 : ℝ))) (peak c) (h c)) (h c)) (x c)) gs ∧
      IsGreatest (insert 0 {r | ∃ c < channels, r = Spec.rmsDiff N (2 ^ w + 1)
          (Spec.spectrogram (2 ^ w) H (2 ^ (w + 1)) size (fun n => Spec.conv (h c) (x c) n * gd))
          (Spec.spectrogram (2 ^ w) H (2 ^ (w + 1)) size (fun n => Spec.blockFilter 4096 P (Spec.pruned 4096
            (Spec.audible 4096 low rate (-(90 - j * (89 / 179 : ℝ))) (peak c) (h c)) (h c)) (x c) n * gs))}) e := by
    intro j hj
    obtain ⟨mat', imp', sp, hml', hmv', hn', hs, hsl', hsv⟩ := C63_pruned_convolution channels size impSize 12 impChannels
      low rate (-(90 - j * (89 / 179 : ℝ))) signal filter hsl hsig hfl hfilt hch hC (by norm_num) (by norm_num)
      (by rw [h12]; exact hsize) hS hS2 (by rw [h12]; exact hsz) hrate (by rw [h12]; exact hlow)
    have hmm := mat_unique hml' hml hmv' hmv
    rw [hmm, hn] at hn'
    have hii : imp = imp' := by injection hn'
    subst hii
    rw [h12] at hs hsv
    choose! sc peak hsc1 hsc2 hpk hsc3 using hsv
    obtain ⟨gs, T, hT, hTl, hgs, hTv⟩ := renderSpectrogram_ok (buffer := sp) hw hw2 hsl' (hlen hsl' hsc1 hsc2) hsize1 hs2
      hsz2
    have hsparse : ∀ c < channels, ∀ n < size, (sp.getD c []).getD n 0 = Spec.blockFilter 4096 P (Spec.pruned 4096
        (Spec.audible 4096 low rate (-(90 - j * (89 / 179 : ℝ))) (peak c) (h c)) (h c)) (x c) n := by
      intro c hc n hn'
      rw [hget (hsc1 c hc), List.getD_eq_getElem?_getD, hsc3 c hc n hn']
      rfl
    obtain ⟨e, he1, he2⟩ := maxChannelRmse_ok (C := channels) (by omega) hN1 (Nat.le_add_left 1 _) hDl hTl _ _ hDv hTv
    refine ⟨sp, e, gs, peak, T, hs, hT, he1, hpk, ?_, ?_⟩
    · exact peakGain_congr hgs hsparse
    · convert he2 using 3
      ext v
      have hcong : ∀ c < channels, Spec.rmsDiff N (2 ^ w + 1)
          (Spec.spectrogram (2 ^ w) H (2 ^ (w + 1)) size (fun n => Spec.conv (h c) (x c) n * gd))
          (Spec.spectrogram (2 ^ w) H (2 ^ (w + 1)) size (fun n => Spec.blockFilter 4096 P (Spec.pruned 4096
            (Spec.audible 4096 low rate (-(90 - j * (89 / 179 : ℝ))) (peak c) (h c)) (h c)) (x c) n * gs))
          = Spec.rmsDiff N (2 ^ w + 1)
          (Spec.spectrogram (2 ^ w) H (2 ^ (w + 1)) size (fun n => (dn.getD c []).getD n 0 * gd))
          (Spec.spectrogram (2 ^ w) H (2 ^ (w + 1)) size (fun n => (sp.getD c []).getD n 0 * gs)) := by
        intro c hc
        congr 1
        · funext t k
          exact spectrogram_congr (fun n hn' => by rw [hdense c hc n hn']) t k
        · funext t k
          exact spectrogram_congr (fun n hn' => by rw [hsparse c hc n hn']) t k
      constructor
      · rintro ⟨c, hc, rfl⟩
        exact ⟨c, hc, hcong c hc⟩
      · rintro ⟨c, hc, rfl⟩
        exact ⟨c, hc, (hcong c hc).symm⟩
  choose! sp e gs peak T l1 l2 l3 l4 l5 l6 using hline
  have hgd' : Spec.IsPeakGain channels size (fun c => Spec.conv (h c) (x c)) gd := by
    exact peakGain_congr hgd hdense
  refine ⟨mat, imp, vec 180 (fun j => (90 - j * (89 / 179 : ℝ), e j)), gd, hml, hmv, hn, ?_, length_vec _ _, hgd', ?_⟩
  · unfold sparseQuality
    change denseConvolve (upcConvOps olsOps denseFdlOps denseFilterOps { rows := 0, cols := 0, data := [] })
      channels size signal impChannels impSize filter 4096 = .ok dn at hd
    rw [hd, bind_ok, hD, bind_ok]
    refine forN_eq' (fun t => vec t (fun j => (90 - j * (89 / 179 : ℝ), e j))) rfl rfl ?_
    intro j hj
    have hr : qualityRange (180 - j) = 90 - j * (89 / 179 : ℝ) := by
      unfold qualityRange
      rw [Nat.cast_sub hj.le]
      push_cast
      ring
    dsimp only
    rw [hr, l1 j hj, bind_ok, l2 j hj, bind_ok]
    dsimp only
    rw [l3 j hj, bind_ok, pure_eq_ok, vec_succ]
  · intro j hj
    refine ⟨_, e j, gs j, peak j, rfl, by rw [getElem?_vec, if_pos hj], l4 j hj, l5 j hj, l6 j hj, ?_⟩
    intro hk
    rcases (l6 j hj).1 with h0 | ⟨c, hc, he⟩
    · exact h0
    · rw [he]
      apply rmsDiff_self
      intro t k
      apply spectrogram_congr
      refine peakGain_unique hgd' (l5 j hj) ?_ c hc
      intro c hc n hn'
      refine (C63_lossless_pruning (by norm_num) _ (h c) (x c) ?_ (fun b hb k hk' => hk c hc b hb k hk') n).symm
      intro m hm
      rw [hh]
      dsimp only
      rw [if_neg]
      have : impSize - 1 < P * 4096 := by
        rw [hP]
        omega
      omega

/-- A stereo signal of three samples, a stereo impulse of two, window size 512. -/
example : ∃ out, sparseQuality (2 ^ 9) 2 3 [[1, 2, 3], [4, 5, 6]] 2 2 [[1, 0], [1, 2]] 44100 (10 : ℕ) = .ok out ∧
    out.length = 180 := by
  obtain ⟨-, -, out, -, -, -, -, e, h, -⟩ := C94_quality 2 3 2 2 10 9 44100 [[1, 2, 3], [4, 5, 6]] [[1, 0], [1, 2]]
    rfl (by simp) rfl (by simp) le_rfl (by norm_num) (by norm_num) (by norm_num) (by norm_num) (by norm_num)
    (by norm_num) (by norm_num) (by norm_num) (by norm_num) (by norm_num) (by norm_num)
  exact ⟨out, e, h⟩

/-- Between 50 Hz and 22.05 kHz the A curve is above -90 dB. -/
theorem aWeight_gt {f : ℝ} (h1 : 50 ≤ f) (h2 : f ≤ 22050) : -90 < Spec.aWeight f := by
  unfold Spec.aWeight
  set u := f ^ 2 with hu
  have hu1 : 2500 ≤ u := by rw [hu]; nlinarith
  have hu2 : u ≤ 486202500 := by rw [hu]; nlinarith
  have h4 : f ^ 4 = u ^ 2 := by rw [hu]; ring
  rw [h4]
  have hs : Real.sqrt ((u + 107.65265 ^ 2) * (u + 737.86223 ^ 2)) ≤ 219 * u := by
    apply Real.sqrt_le_iff.2
    constructor
    · linarith
    · have a1 : u + (107.65265 : ℝ) ^ 2 ≤ 219 * u := by norm_num; linarith
      have a2 : u + (737.86223 : ℝ) ^ 2 ≤ 219 * u := by norm_num; linarith
      calc _ ≤ (219 * u) * (219 * u) := mul_le_mul a1 a2 (by positivity) (by linarith)
        _ = _ := by ring
  have hsp : 0 < Real.sqrt ((u + 107.65265 ^ 2) * (u + 737.86223 ^ 2)) := by
    apply Real.sqrt_pos.2
    positivity
  have b1 : u + (20.598997 : ℝ) ^ 2 ≤ 2 * u := by norm_num; linarith
  have b2 : u + (12194.217 : ℝ) ^ 2 ≤ 5 * 12194.217 ^ 2 := by norm_num; linarith
  have key : (1 / 10000 : ℝ) ≤ 12194.217 ^ 2 * u ^ 2 /
      ((u + 20.598997 ^ 2) * Real.sqrt ((u + 107.65265 ^ 2) * (u + 737.86223 ^ 2)) * (u + 12194.217 ^ 2)) := by
    rw [le_div_iff₀ (by positivity)]
    have c1 : (u + 20.598997 ^ 2) * Real.sqrt ((u + 107.65265 ^ 2) * (u + 737.86223 ^ 2)) ≤ (2 * u) * (219 * u) :=
      mul_le_mul b1 hs hsp.le (by linarith)
    have c2 := mul_le_mul c1 b2 (by positivity) (by positivity)
    have c3 : 0 ≤ 12194.217 ^ 2 * u ^ 2 := by positivity
    nlinarith
  have hlog : (-4 : ℝ) ≤ Real.logb 10 (12194.217 ^ 2 * u ^ 2 /
      ((u + 20.598997 ^ 2) * Real.sqrt ((u + 107.65265 ^ 2) * (u + 737.86223 ^ 2)) * (u + 12194.217 ^ 2))) := by
    rw [Real.le_logb_iff_rpow_le (by norm_num) (lt_of_lt_of_le (by norm_num) key)]
    refine le_trans (le_of_eq ?_) key
    rw [show (-4 : ℝ) = ((-4 : ℤ) : ℝ) by norm_num, Real.rpow_intCast]
    norm_num
  linarith

/-- The unit impulse (44.1 kHz, ten protected bins, the defaults of the user interface): with the full range of 90 dB
nothing is pruned and the first line reports an error of exactly 0, for every mono signal. -/
theorem C94_unit_impulse (x : List ℝ) (hx : 1 ≤ x.length) (hx2 : x.length + 4096 ≤ 2 ^ 31) :
    ∃ out, sparseQuality 512 1 x.length [x] 1 1 [[1]] 44100 (10 : ℕ) = .ok out ∧ out[0]? = some (90, 0) := by
  obtain ⟨mat, imp, out, gd, hml, hmv, hn, he, hl, -, h⟩ := C94_quality 1 x.length 1 1 10 9 44100 [x] [[1]]
    rfl (by simp) rfl (by simp) le_rfl (by norm_num) hx hx2 (by norm_num) (by norm_num)
    (by norm_num) (by norm_num) (by norm_num) (by
      have : (x.length + (2 ^ (9 - 1) - 1)) / 2 ^ (9 - 1) ≤ 2 ^ 31 := by
        rw [show (2 : ℕ) ^ (9 - 1) = 256 by norm_num]
        omega
      calc _ ≤ 1 * 2 ^ 31 * (2 ^ 9 + 1) := by
            apply Nat.mul_le_mul_right
            apply Nat.mul_le_mul_left
            exact this
        _ < _ := by norm_num) (by norm_num) (by norm_num)
  refine ⟨out, he, ?_⟩
  obtain ⟨range, e, gs, peak, hr, ho, hpk, -, -, hz⟩ := h 0 (by norm_num)
  rw [ho, hz ?_, hr]
  · norm_num
  -- the normalised impulse
  have hmat : mat = [1] := by
    have := hmv 0 one_pos 0 one_pos
    rw [List.length_eq_one_iff] at hml
    obtain ⟨a, rfl⟩ := hml
    simpa using this
  subst hmat
  obtain ⟨d, a, hd, ha, hdl, hrow, -⟩ := C48_normalize_impulse_partial false (MatView.right 1 1) [1]
    (MatView.right_valid 1 1)
  rw [hn] at hd
  injection hd with hd
  subst hd
  have himp : imp = [a] := by
    obtain ⟨b, rfl⟩ := List.length_eq_one_iff.1 hdl
    have := hrow 0 one_pos
    simpa [Spec.row, MatView.right, MatView.idx] using this
  subst himp
  clear hn hdl hrow he ho hz
  intro c hc b hb k hk
  obtain rfl : c = 0 := by omega
  obtain rfl : b = 0 := by omega
  left
  have hp : ∀ k, Spec.binPower 4096 (fun i => if i < 1 then [a].getD (0 * 1 + i) 0 else 0) 0 k = a ^ 2 := by
    intro k
    unfold Spec.binPower Spec.dft Spec.block
    rw [sum_eq_single 0]
    · simp [abs_of_pos ha]
    · intro m _ hm
      have : ¬ m < 1 := by omega
      simp [this]
    · intro h0
      exact absurd (mem_range.2 (by norm_num)) h0
  have hpk0 : peak 0 = a ^ 2 := by
    obtain ⟨j, hj, k, -, hp'⟩ := (hpk 0 one_pos).1
    obtain rfl : j = 0 := by omega
    rw [hp', hp]
  have hlev : Spec.level (peak 0) (Spec.binPower 4096 (fun i => if i < 1 then [a].getD (0 * 1 + i) 0 else 0) 0 k) = 0 := by
    rw [hp, hpk0]
    unfold Spec.level
    rw [if_neg (not_le.2 (by positivity)), div_self (by positivity), Real.logb_one]
    norm_num
  unfold Spec.audible
  beta_reduce
  rw [hlev, hr]
  split
  · norm_num
  · next hk10 =>
    refine ⟨by omega, ?_⟩
    have hk10' : (10 : ℝ) ≤ k := by exact_mod_cast not_lt.1 hk10
    have hk' : (k : ℝ) ≤ 4096 := by exact_mod_cast hk
    have := aWeight_gt (f := k * 44100 / (2 * (4096 : ℕ))) (by norm_num; linarith) (by norm_num; linarith)
    norm_num at this ⊢
    exact this

/-- **C94**, what is wrong: if the impulse has fewer channels than the signal (or no impulse has been loaded), the
quality test never returns: it forms a partition view of a channel that does not exist. -/
theorem C94_missing_channels (stftSize channels size impChannels impSize : ℕ) (signal filter : List (List ℝ))
    (rate : ℝ) (low : ℤ) (h : impChannels < channels) (out : List (ℝ × ℝ)) :
    sparseQuality stftSize channels size signal impChannels impSize filter rate low ≠ .ok out := by
  intro e
  unfold sparseQuality at e
  cases hd : denseConvolve (upcConvOps olsOps denseFdlOps denseFilterOps { rows := 0, cols := 0, data := [] })
      channels size signal impChannels impSize filter 4096 with
  | error f => rw [hd] at e; exact absurd e (by simp [bind, Except.bind])
  | ok dn =>
    clear e
    unfold denseConvolve at hd
    obtain ⟨m, -, hd⟩ := bind_eq_ok hd
    obtain ⟨m', -, hd⟩ := bind_eq_ok hd
    obtain ⟨q, -, hd⟩ := bind_eq_ok hd
    obtain ⟨u, -, hd⟩ := bind_eq_ok hd
    obtain ⟨cs, hcs, -⟩ := bind_eq_ok hd
    obtain ⟨s', s'', -, h2⟩ := forN_ok_step hcs impChannels h
    rw [if_pos le_rfl] at h2
    exact absurd h2 (by simp [bind, Except.bind])

/-- No impulse loaded: the buffer has no channels. -/
example (out : List (ℝ × ℝ)) : sparseQuality 512 1 2 [[1, 2]] 0 0 [] 44100 10 ≠ .ok out :=
  C94_missing_channels 512 1 2 0 0 [[1, 2]] [] 44100 10 one_pos out

/-- **C94**, the analysis of an impulse of more than 512 samples: `_spectrum` is the Hann-windowed spectrogram of
the impulse (frames of 1024 samples, 512 apart, all samples covered).  `_partitions` are the spectra of the blocks of
512 samples of the normalised impulse **from its second block on**: the first 512 samples are missing. -/
theorem C94_analysis_partial (channels size : ℕ) (filter : List (List ℝ)) (hl : filter.length = channels)
    (hf : ∀ s ∈ filter, s.length = size) (hS : 512 < size) (hS2 : size < 2 ^ 64)
    (hsz : channels * ((size + 511) / 512) * 513 < 2 ^ 59) :
    ∃ mat imp gain r, analyseImpulse channels size filter = .ok r ∧ mat.length = channels * size ∧
      (∀ c < channels, ∀ i < size, mat[c * size + i]? = some ((filter.getD c []).getD i 0)) ∧
      normalizeImpulseMat false (MatView.right channels size) mat = .ok imp ∧ 0 < gain ∧
      (∀ c < channels, ∀ i < size, imp.getD (c * size + i) 0 = (filter.getD c []).getD i 0 * gain) ∧
      r.spectrumFrames = (size + 511) / 512 ∧ r.spectrumBins = 513 ∧
      r.spectrum.length = channels * r.spectrumFrames * r.spectrumBins ∧
      (∀ c < channels, ∀ t < r.spectrumFrames, ∀ k < 513, ‖r.spectrum.getD ((c * r.spectrumFrames + t) * 513 + k) 0‖
        = Spec.spectrogram 1024 512 1024 size (fun n => (filter.getD c []).getD n 0) t k) ∧
      r.partitions = (size - 512 + 511) / 512 ∧ r.partitionBins = 513 ∧
      (∀ c < channels, ∀ t < r.partitions, ∀ k < 513, r.partition.getD ((c * r.partitions + t) * 513 + k) 0
        = Spec.dft 1024 (fun m => ((Spec.block 512 (fun i => if i < size then imp.getD (c * size + i) 0 else 0)
            (t + 1) m : ℝ) : ℂ)) k) := by
  have harith : ∀ t m, t * 512 + m < size - 512 ↔ (t + 1) * 512 + m < size := by
    clear hsz hS2
    intro t m
    omega
  have hval := MatView.right_valid channels size
  obtain ⟨mat, hm, hml, hmv⟩ := toMdarray_ok (C := channels) (L := size) hl hf
  obtain ⟨imp, a, hn, ha, hil, hrow, -⟩ := C48_normalize_impulse_partial false (MatView.right channels size) mat
    (by rw [hml]; exact hval)
  have hvm : (MatView.right channels size).InRange mat.length := by rw [hml]; exact hval.1
  have hvi : (MatView.right channels size).InRange imp.length := by rw [hil]; exact hvm
  have hst := C31_stft (MatView.right channels size) mat
    { frameSize := 1024, transformSize := 1024, overlapSize := 512, window := hannWindow } hvm
    (by norm_num) (by norm_num) (by show 1 ≤ size; omega) hS2 le_rfl (by norm_num) (by norm_num)
    (by
      rw [show Nat.clog 2 (1024 : ℕ) = 10 from (show (1024 : ℕ) = 2 ^ 10 by norm_num) ▸ Nat.clog_pow 2 10 (by norm_num)]
      exact hsz)
  dsimp only at hst
  rw [show Nat.clog 2 (1024 : ℕ) = 10 from (show (1024 : ℕ) = 2 ^ 10 by norm_num) ▸ Nat.clog_pow 2 10 (by norm_num)] at hst
  obtain ⟨sp, h1, h2, -, h3⟩ := hst
  change stft _ _ _ = .ok ((size + 511) / 512, 513, sp) at h1
  change sp.length = channels * ((size + 511) / 512) * 513 at h2
  change ∀ c < channels, ∀ t < (size + 511) / 512, ∀ k < 513, sp.getD ((c * ((size + 511) / 512) + t) * 513 + k) 0 = _ at h3
  set v : MatView := { rows := channels, cols := size - 512, off := 512, s0 := size, s1 := 1 } with hv
  have hvidx : ∀ c i, v.idx c i = c * size + (512 + i) := by
    intro c i
    show 512 + c * size + i * 1 = _
    ring
  have hvr : v.InRange imp.length := by
    intro c hc i hi
    have hi' : i < size - 512 := hi
    have := hvi c hc (512 + i) (by show 512 + i < size; omega)
    rw [right_idx] at this
    rw [hvidx]
    exact this
  have hP : (size - 512 - 1) / 512 + 1 = (size - 512 + 511) / 512 := by omega
  obtain ⟨part, hp1, hp2⟩ := uniformPartition_eq hvr (B := 512) (b := 10) (by norm_num)
    (by rw [show 512 * 2 = 2 ^ 10 by norm_num]; exact Nat.clog_pow 2 10 (by norm_num)) (by norm_num)
    (by show 1 ≤ size - 512; omega) (by show size - 512 < 2 ^ 64; omega)
    (by
      show channels * ((size - 512 - 1) / 512 + 1) * 513 < 2 ^ 59
      refine lt_of_le_of_lt ?_ hsz
      apply Nat.mul_le_mul_right
      apply Nat.mul_le_mul_left
      omega)
  change uniformPartition v imp 512 = .ok ((size - 512 - 1) / 512 + 1, 513, part) at hp1
  change ∀ c < channels, _ ∧ ∀ t < (size - 512 - 1) / 512 + 1, ∀ k < 513,
    matAt (partitionView ((size - 512 - 1) / 512 + 1) 513 c) part t k = _ at hp2
  rw [hP] at hp1 hp2
  refine ⟨mat, imp, a, ⟨(size + 511) / 512, 513, sp, (size - 512 + 511) / 512, 513, part⟩, ?_, hml,
    fun c hc i hi => by rw [← right_idx channels]; exact hmv c hc i hi, hn, ha, ?_, rfl, rfl, h2, ?_, rfl, rfl, ?_⟩
  · unfold analyseImpulse stftOfSize
    rw [hm, bind_ok]
    rw [show (1024 : ℕ) / 2 = 512 from rfl, h1, bind_ok]
    dsimp only
    rw [bind_ok, hn, bind_ok, if_neg (by omega), bind_ok, ← hv, hp1]
    rfl
  · intro c hc i hi
    have := hrow c hc
    rw [row_eq_map hvi hc, row_eq_map hvm hc, List.map_map] at this
    have h := List.map_inj_left.1 this i (List.mem_range.2 hi)
    have e : matAt (MatView.right channels size) mat c i = (filter.getD c []).getD i 0 := by
      unfold matAt
      rw [List.getD_eq_getElem?_getD, hmv c hc i hi]
      rfl
    rw [Function.comp, e] at h
    unfold matAt at h
    rw [right_idx] at h
    exact h
  · intro c hc t ht k hk
    dsimp only
    rw [h3 c hc t ht k hk]
    unfold Spec.spectrogram
    show ‖Spec.dft 1024 _ k‖ = _
    congr 2
    funext n
    refine congrArg (fun z : ℝ => (z : ℂ)) ?_
    by_cases h : n < 1024 ∧ t * 512 + n < size
    · rw [if_pos h, if_pos (show _ ∧ t * 512 + n < (MatView.right channels size).cols from h),
        List.getD_eq_getElem?_getD, hmv c hc _ h.2]
      show _ * hannWindow n 1024 = _
      rw [hannWindow_eq (by norm_num)]
      rfl
    · rw [if_neg h]
      exact if_neg h
  · intro c hc t ht k hk
    dsimp only at ht ⊢
    have e := (hp2 c hc).2 t ht k hk
    unfold matAt at e
    rw [show (partitionView ((size - 512 + 511) / 512) 513 c).idx t k
      = (c * ((size - 512 + 511) / 512) + t) * 513 + k by
        show c * ((size - 512 + 511) / 512) * 513 + t * 513 + k * 1 = _
        ring] at e
    rw [e, show (2 : ℕ) ^ 10 = 1024 by norm_num]
    refine congrArg (fun f => Spec.dft 1024 f k) ?_
    funext m
    refine congrArg (fun z : ℝ => (z : ℂ)) ?_
    unfold seg Spec.block
    by_cases hm' : m < 512
    · rw [if_pos hm', if_pos hm']
      unfold chanAt
      rw [hvidx]
      show (if t * 512 + m < size - 512 then _ else _) = _
      beta_reduce
      by_cases h : t * 512 + m < size - 512
      · rw [if_pos h, if_pos ((harith t m).1 h),
          show c * size + (512 + (t * 512 + m)) = c * size + ((t + 1) * 512 + m) by ring]
      · rw [if_neg h, if_neg (fun q => h ((harith t m).2 q))]
    · rw [if_neg hm', if_neg hm']

/-- **C94**, what is wrong: an impulse whose first 512 samples hold everything (a click, a short room response) is
analysed as silence: all stored coefficients are zero. -/
theorem C94_start_ignored (channels size : ℕ) (filter : List (List ℝ)) (hl : filter.length = channels)
    (hf : ∀ s ∈ filter, s.length = size) (hS : 512 < size) (hS2 : size < 2 ^ 64)
    (hsz : channels * ((size + 511) / 512) * 513 < 2 ^ 59)
    (h0 : ∀ c < channels, ∀ i < size, 512 ≤ i → (filter.getD c []).getD i 0 = 0) :
    ∃ r, analyseImpulse channels size filter = .ok r ∧
      ∀ c < channels, ∀ t < r.partitions, ∀ k < 513, r.partition.getD ((c * r.partitions + t) * 513 + k) 0 = 0 := by
  obtain ⟨mat, imp, a, r, e, -, -, -, -, hi, -, -, -, -, -, -, h⟩ :=
    C94_analysis_partial channels size filter hl hf hS hS2 hsz
  refine ⟨r, e, fun c hc t ht k hk => ?_⟩
  rw [h c hc t ht k hk]
  unfold Spec.dft Spec.block
  apply sum_eq_zero
  intro m _
  beta_reduce
  split
  · split
    · next h1 h2 =>
      rw [hi c hc _ h2, h0 c hc _ h2 (by omega), zero_mul]
      simp
    · simp
  · simp

/-- A unit impulse of 1024 samples. -/
example : ∃ r, analyseImpulse 1 1024 [1 :: List.replicate 1023 0] = .ok r ∧
    ∀ c < 1, ∀ t < r.partitions, ∀ k < 513, r.partition.getD ((c * r.partitions + t) * 513 + k) 0 = 0 := by
  refine C94_start_ignored 1 1024 _ rfl
    (by rintro s (_ | ⟨_, h⟩); · rw [List.length_cons, List.length_replicate]
        · cases h) (by norm_num) (by norm_num) (by norm_num) ?_
  intro c hc i hi h
  obtain rfl : c = 0 := by omega
  obtain ⟨j, rfl⟩ : ∃ j, i = j + 1 := ⟨i - 1, by omega⟩
  show (List.replicate 1023 (0 : ℝ)).getD j 0 = 0
  rw [List.getD_eq_getElem?_getD, List.getElem?_replicate]
  split <;> rfl

theorem stftFrame_options {v : MatView} {data : List ℝ} {n b c t : ℕ} {s s' : StftState}
    (h : stftFrame v data n b c t s = .ok s') : s'.plan.options = s.plan.options := by
  unfold stftFrame at h
  dsimp only at h
  split at h
  swap
  · exact absurd h (by simp [bind, Except.bind])
  obtain ⟨_, -, h⟩ := bind_eq_ok h
  obtain ⟨_, -, h⟩ := bind_eq_ok h
  obtain ⟨_, -, h⟩ := bind_eq_ok h
  obtain ⟨_, -, h⟩ := bind_eq_ok h
  obtain ⟨_, -, h⟩ := bind_eq_ok h
  obtain ⟨⟨_, _⟩, -, h⟩ := bind_eq_ok h
  obtain ⟨_, -, h⟩ := bind_eq_ok h
  obtain ⟨_, -, h⟩ := bind_eq_ok h
  injection h with h
  rw [← h]

/-- Partitioning an impulse without samples never returns: the number of blocks wraps around to `2^55`, and the
second block lies outside. -/
theorem uniformPartition_empty {v : MatView} {data : List ℝ} (hr : 1 ≤ v.rows) (hc : v.cols = 0)
    (r : ℕ × ℕ × List ℂ) : uniformPartition v data 512 ≠ .ok r := by
  intro h
  unfold uniformPartition stft at h
  obtain ⟨p, hp, h⟩ := bind_eq_ok h
  obtain ⟨q, hq, -⟩ := bind_eq_ok h
  have hopt : p.options.frameSize = 512 ∧ p.options.overlapSize = 0 := by
    unfold StftPlan.make at hp
    obtain ⟨_, -, hp⟩ := bind_eq_ok hp
    obtain ⟨_, -, hp⟩ := bind_eq_ok hp
    injection hp with hp
    rw [← hp]
    exact ⟨rfl, rfl⟩
  unfold StftPlan.call at hq
  dsimp only at hq
  obtain ⟨n, hn, hq⟩ := bind_eq_ok hq
  rw [hopt.1, hopt.2, hc] at hn
  have hn2 : n = 2 ^ 55 := by
    have : numStftFrames 0 512 0 = .ok (2 ^ 55) := by
      norm_num [numStftFrames, idivW, wsub, w64, bind, Except.bind, pure, Except.pure]
    rw [this] at hn
    injection hn with hn
    exact hn.symm
  split at hq
  swap
  · exact absurd hq (by simp [bind, Except.bind])
  obtain ⟨_, -, hq⟩ := bind_eq_ok hq
  obtain ⟨s, hs, -⟩ := bind_eq_ok hq
  obtain ⟨s0, s1, h0, h1⟩ := forN_ok_step hs 0 hr
  injection h0 with h0
  obtain ⟨s2, s3, h2, h3⟩ := forN_ok_step h1 1 (by rw [hn2]; norm_num)
  have h2' : stftFrame v data n (p.rfft.size / 2 + 1) 0 0 s0 = .ok s2 := h2
  have ho := stftFrame_options h2'
  rw [← h0] at ho
  unfold stftFrame at h3
  dsimp only at h3 ho
  rw [ho, hopt.1, hopt.2, hc] at h3
  split at h3
  · next h4 => norm_num [wsub, w64] at h4
  · exact absurd h3 (by simp [bind, Except.bind])

/-- **C94**, what is wrong: an impulse of at most 512 samples (less than 11.7 ms at 44.1 kHz) cannot be
loaded: `setImpulseResponseFile` takes a sub-range that starts behind its end or partitions nothing, and
runs out of bounds either way. -/
theorem C94_short_impulse (channels size : ℕ) (filter : List (List ℝ)) (hc : 1 ≤ channels) (hs : size ≤ 512)
    (r : ImpulseAnalysis) : analyseImpulse channels size filter ≠ .ok r := by
  intro h
  unfold analyseImpulse at h
  obtain ⟨_, -, h⟩ := bind_eq_ok h
  obtain ⟨_, -, h⟩ := bind_eq_ok h
  obtain ⟨_, -, h⟩ := bind_eq_ok h
  obtain ⟨_, -, h⟩ := bind_eq_ok h
  split at h
  · exact absurd h (by simp [bind, Except.bind])
  obtain ⟨_, -, h⟩ := bind_eq_ok h
  obtain ⟨q, hq, -⟩ := bind_eq_ok h
  exact uniformPartition_empty (v := { rows := channels, cols := size - 512, off := 512, s0 := size, s1 := 1 }) hc
    (by show size - 512 = 0; omega) q hq

/-- A mono impulse of one sample. -/
example (r : ImpulseAnalysis) : analyseImpulse 1 1 [[1]] ≠ .ok r :=
  C94_short_impulse 1 1 [[1]] le_rfl (by norm_num) r

end Neo.Props
