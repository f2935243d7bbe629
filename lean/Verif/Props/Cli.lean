import Verif.Model.Cli
import Verif.Props.Render

/-! # C86: the program `neo_convolver` -/

namespace Neo.Props

open Neo Spec

/-- Index of frame `n`, channel `c` in a `layout_left` buffer. -/
theorem left_idx (R L c n : ℕ) : (MatView.left R L).idx c n = n * R + c := by
  simp only [MatView.left, MatView.idx]; ring

/-- The whole buffer is visited: `normalize_peak` is one positive factor, and the largest sample gets magnitude 1. -/
theorem normalizePeakMat_left (C L : ℕ) (data : List ℝ) (h : data.length = C * L) :
    ∃ d a, normalizePeakMat true (MatView.left C L) data = .ok d ∧ 0 < a ∧ d = data.map (· * a) ∧
      ((∃ w ∈ data, w ≠ 0) → (∀ w ∈ d, |w| ≤ 1) ∧ ∃ w ∈ d, |w| = 1) := by
  have hv : (MatView.left C L).Valid data.length := by rw [h]; exact MatView.left_valid C L
  have mem : ∀ z : List ℝ, z.length = C * L → ∀ w, w ∈ entries (MatView.left C L) z ↔ w ∈ z := by
    intro z hz w
    rw [mem_entries]
    constructor
    · rintro ⟨r, _, c, _, e⟩
      exact List.mem_of_getElem? e
    · intro hw
      obtain ⟨m, hm⟩ := List.mem_iff_getElem?.1 hw
      have hm' : m < C * L := by
        by_contra hc
        rw [List.getElem?_eq_none (by omega)] at hm
        exact absurd hm (by simp)
      have hC : 0 < C := by
        by_contra h0
        obtain rfl : C = 0 := by omega
        simp at hm'
      refine ⟨m % C, Nat.mod_lt _ hC, m / C, ?_, ?_⟩
      · exact Nat.div_lt_of_lt_mul hm'
      · rw [left_idx, Nat.mul_comm, Nat.div_add_mod]; exact hm
  obtain ⟨d, a, e1, ha, hl, hent, -, -, hpk, -⟩ := C49_peak_mat true (MatView.left C L) data hv
  have e2 := e1
  unfold normalizePeakMat at e2
  obtain ⟨f, -, e3⟩ := bind_eq_ok e2
  obtain ⟨d', e4, -, hpt, -⟩ := C60_matrix_unary true (fun x : ℝ => x * f) (MatView.left C L) data hv
  obtain ⟨d'', e5, -, -, hent', -⟩ := scaleMat_spec true f (MatView.left C L) data hv
  have e6 : scaleMat true f (MatView.left C L) data = .ok d' := e4
  rw [e3] at e5 e6
  cases e5
  cases e6
  have hdm : d = data.map (· * f) := by
    apply List.ext_getElem?
    intro m
    rw [List.getElem?_map]
    by_cases hm : m < C * L
    · have hC : 0 < C := by
        by_contra h0
        obtain rfl : C = 0 := by omega
        simp at hm
      have := hpt (m % C) (Nat.mod_lt _ hC) (m / C) (Nat.div_lt_of_lt_mul hm)
      rwa [left_idx, Nat.mul_comm, Nat.div_add_mod] at this
    · rw [List.getElem?_eq_none (by omega), List.getElem?_eq_none (by omega)]
      rfl
  by_cases hz : ∃ w ∈ data, w ≠ 0
  · obtain ⟨w, hw, hw0⟩ := hz
    have hfa : f = a := by
      rw [hent'] at hent
      have := List.map_inj_left.1 hent w ((mem data h w).2 hw)
      exact mul_left_cancel₀ hw0 this
    subst hfa
    refine ⟨d, f, e1, ha, hdm, fun _ => ?_⟩
    obtain ⟨p1, w', p2, p3⟩ := hpk ⟨w, (mem data h w).2 hw, hw0⟩
    have hl' : d.length = C * L := by rw [hl, h]
    exact ⟨fun u hu => p1 u ((mem d hl' u).2 hu), w', (mem d hl' w').1 p2, p3⟩
  · push Not at hz
    refine ⟨d, 1, e1, one_pos, ?_, fun hc => ?_⟩
    · rw [hdm]
      apply List.map_congr_left
      intro w hw
      rw [hz w hw]; ring
    · obtain ⟨w, hw, h0⟩ := hc
      exact absurd (hz w hw) h0

/-- A file the loader accepts: at least the announced frames are there. -/
def WavFile.Complete (w : WavFile) : Prop := 1 ≤ w.channels ∧ w.channels * w.frames ≤ w.samples.length

/-- What the loader returns for it. -/
theorem loadWav_complete {disk : Disk} {path : String} {w : WavFile} (hf : disk.files path = some w)
    (hw : WavFile.Complete w) : loadWav disk path
      = { channels := w.channels, frames := w.frames, data := w.samples.take (w.channels * w.frames),
          rate := w.rate } := by
  unfold loadWav
  rw [hf]
  dsimp only
  rw [if_neg]
  rw [not_not, Nat.min_eq_left]
  rw [Nat.le_div_iff_mul_le hw.1, Nat.mul_comm]
  exact hw.2

/-- A file that is missing, that the decoder rejects, or that has fewer frames than announced. -/
def Unreadable (disk : Disk) (path : String) : Prop :=
  ∀ w, disk.files path = some w → w.samples.length < w.channels * w.frames

theorem loadWav_unreadable {disk : Disk} {path : String} (h : Unreadable disk path) :
    loadWav disk path = LoadedWav.none := by
  unfold loadWav
  cases hf : disk.files path with
  | none => rfl
  | some w =>
    dsimp only
    rw [if_pos]
    have := h w hf
    rcases Nat.eq_zero_or_pos w.channels with hc | hc
    · rw [hc, Nat.zero_mul] at this; omega
    · have h2 : w.samples.length / w.channels < w.frames := by
        rw [Nat.div_lt_iff_lt_mul hc, Nat.mul_comm]; exact this
      omega

/-- The two convolvers that are always compiled in, `convolver.cpp:100,116`. -/
noncomputable def cliVariants : List AnyConv := [⟨_, RenderConv.ops .upola⟩, ⟨_, RenderConv.ops .splitUpola⟩]

/-- What the file should hold: the first `frames` frames of the convolution of each channel of the signal with
the same channel of the filter, scaled to peak 1.  `g` is the positive gain (the impulse is normalised too). -/
def IsRendered (signal filter out : WavFile) : Prop :=
  out.channels = signal.channels ∧ out.frames = signal.frames ∧ out.rate = signal.rate ∧
  out.samples.length = signal.channels * signal.frames ∧
  (∃ g : ℝ, 0 < g ∧ ∀ c < signal.channels, ∀ n < signal.frames,
    out.samples[n * signal.channels + c]? = some (g * Spec.conv
      (fun i => if i < filter.frames then filter.samples.getD (i * filter.channels + c) 0 else 0)
      (fun i => if i < signal.frames then signal.samples.getD (i * signal.channels + c) 0 else 0) n)) ∧
  ((∃ w ∈ out.samples, w ≠ 0) → (∀ w ∈ out.samples, |w| ≤ 1) ∧ ∃ w ∈ out.samples, |w| = 1)

/-- `normalize_impulse` is one positive factor for the whole buffer. -/
theorem normalizeImpulseMat_left (C L : ℕ) (data : List ℝ) (h : data.length = C * L) :
    ∃ d f, normalizeImpulseMat true (MatView.left C L) data = .ok d ∧ 0 < f ∧ d = data.map (· * f) := by
  have hv : (MatView.left C L).Valid data.length := by rw [h]; exact MatView.left_valid C L
  unfold normalizeImpulseMat
  rcases Nat.eq_zero_or_pos C with h0 | h0
  · refine ⟨data, 1, if_pos (by show C < 1; omega), one_pos, ?_⟩
    simp
  · rw [if_neg (by show ¬ C < 1; omega)]
    obtain ⟨f, h1, hpos, -⟩ := impulseFactor_spec (MatView.left C L) data hv.1 h0
    obtain ⟨d, e4, hl, hpt, -⟩ := C60_matrix_unary true (fun x : ℝ => x * f) (MatView.left C L) data hv
    refine ⟨d, f, ?_, hpos, ?_⟩
    · rw [h1, bind_ok]; exact e4
    · apply List.ext_getElem?
      intro m
      rw [List.getElem?_map]
      by_cases hm : m < C * L
      · have := hpt (m % C) (Nat.mod_lt _ h0) (m / C) (Nat.div_lt_of_lt_mul hm)
        rwa [left_idx, Nat.mul_comm, Nat.div_add_mod] at this
      · rw [List.getElem?_eq_none (by omega), List.getElem?_eq_none (by omega)]
        rfl

/-- The sizes the program can handle: `int` loop counters, the allocation of the partitions. -/
structure Renderable (signal filter : WavFile) : Prop where
  complete : WavFile.Complete signal ∧ WavFile.Complete filter
  channels : signal.channels = filter.channels
  bound : signal.channels < 2 ^ 31
  frames : signal.frames + 2 ^ 15 ≤ 2 ^ 31
  filterFrames : 1 ≤ filter.frames ∧ filter.frames < 2 ^ 64
  memory : filter.channels * ((filter.frames - 1) / 2 ^ 15 + 1) * (2 ^ 15 + 1) < 2 ^ 59

/-- Reading the announced part of the samples is reading the samples. -/
theorem getD_take_frames {w : WavFile} {i c : ℕ} (hi : i < w.frames) (hc : c < w.channels) :
    (w.samples.take (w.channels * w.frames)).getD (i * w.channels + c) 0 = w.samples.getD (i * w.channels + c) 0 := by
  have : i * w.channels + c < w.channels * w.frames := by
    calc i * w.channels + c < i * w.channels + w.channels := by omega
      _ = (i + 1) * w.channels := by ring
      _ ≤ w.frames * w.channels := Nat.mul_le_mul_right _ hi
      _ = w.channels * w.frames := by ring
  rw [List.getD_eq_getElem?_getD, List.getD_eq_getElem?_getD, List.getElem?_take_of_lt this]

/-- Each block of `main` replaces the output file by the rendered one, the same for all convolvers. -/
theorem cliRender_ok {disk : Disk} {sp fp op : String} {s f : WavFile} (hs : disk.files sp = some s)
    (hf : disk.files fp = some f) (h : Renderable s f) :
    ∃ out, IsRendered s f out ∧ ∀ (k : RenderConv) (d : Disk), d.writable op = true →
      cliRender ⟨_, k.ops⟩ (loadWav disk sp) (loadWav disk fp) op d
        = .ok { d with files := Function.update d.files op (some out) } := by
  obtain ⟨⟨hsc, hfc⟩, hch, hC, hL, ⟨hF1, hF2⟩, hmem⟩ := h
  have ls : (s.samples.take (s.channels * s.frames)).length = s.channels * s.frames := by
    rw [List.length_take]; exact Nat.min_eq_left hsc.2
  have lf : (f.samples.take (f.channels * f.frames)).length = f.channels * f.frames := by
    rw [List.length_take]; exact Nat.min_eq_left hfc.2
  obtain ⟨imp, g, hi, hg, himp⟩ := normalizeImpulseMat_left f.channels f.frames _ lf
  have conv : ∀ k : RenderConv, ∃ out, cliConvolve k.ops s.channels s.frames (s.samples.take (s.channels * s.frames))
      f.channels f.frames (f.samples.take (f.channels * f.frames)) (8192 * 4) = .ok out ∧
      out.length = s.channels * s.frames ∧ ∀ c < s.channels, ∀ n < s.frames, out[n * s.channels + c]?
        = some (g * Spec.conv
          (fun i => if i < f.frames then f.samples.getD (i * f.channels + c) 0 else 0)
          (fun i => if i < s.frames then s.samples.getD (i * s.channels + c) 0 else 0) n) := by
    intro k
    obtain ⟨imp', out, e1, e2, e3, e4⟩ := C57_cli k s.channels s.frames f.frames 15 f.channels
      (s.samples.take (s.channels * s.frames)) (f.samples.take (f.channels * f.frames)) ls lf (by omega) hC
      (by norm_num) (by norm_num) hL hF1 hF2 hmem
    rw [hi] at e1
    cases e1
    refine ⟨out, e2, e3, fun c hc n hn => ?_⟩
    rw [e4 c hc n hn]
    congr 1
    unfold Spec.conv
    rw [Finset.mul_sum]
    apply Finset.sum_congr rfl
    intro m _
    rw [← mul_assoc]
    dsimp only
    congr 1
    · by_cases hm : m < f.frames
      · rw [if_pos hm, if_pos hm, himp, ← getD_take_frames hm (hch ▸ hc), List.getD_eq_getElem?_getD,
          List.getD_eq_getElem?_getD, List.getElem?_map]
        cases (f.samples.take (f.channels * f.frames))[m * f.channels + c]? with
        | none => simp
        | some v => simp [mul_comm]
      · rw [if_neg hm, if_neg hm, mul_zero]
    · by_cases hm : n - m < s.frames
      · rw [if_pos hm, if_pos hm, getD_take_frames hm hc]
      · rw [if_neg hm, if_neg hm]
  obtain ⟨out0, c1, c2, c3⟩ := conv .upola
  obtain ⟨d, a, p1, p2, p3, p4⟩ := normalizePeakMat_left s.channels s.frames out0 c2
  refine ⟨⟨s.channels, s.frames, s.rate, d⟩, ⟨rfl, rfl, rfl, ?_, ⟨a * g, mul_pos p2 hg, ?_⟩, ?_⟩, ?_⟩
  · show d.length = _
    rw [p3, List.length_map, c2]
  · intro c hc n hn
    show d[n * s.channels + c]? = _
    rw [p3, List.getElem?_map, c3 c hc n hn, Option.map_some]
    congr 1
    ring
  · rintro ⟨w, hw, hw0⟩
    apply p4
    have hw' : w ∈ out0.map (· * a) := p3 ▸ hw
    obtain ⟨u, hu, rfl⟩ := List.mem_map.1 hw'
    exact ⟨u, hu, fun h0 => hw0 (by rw [h0, zero_mul])⟩
  · intro k dk hwr
    obtain ⟨out1, k1, k2, k3⟩ := conv k
    have hout : out1 = out0 := by
      apply List.ext_getElem?
      intro m
      by_cases hm : m < s.channels * s.frames
      · have h0 : 0 < s.channels := hsc.1
        have hq : m / s.channels * s.channels + m % s.channels = m := by
          rw [Nat.mul_comm]; exact Nat.div_add_mod _ _
        have a1 := k3 (m % s.channels) (Nat.mod_lt _ h0) (m / s.channels) (Nat.div_lt_of_lt_mul hm)
        have a2 := c3 (m % s.channels) (Nat.mod_lt _ h0) (m / s.channels) (Nat.div_lt_of_lt_mul hm)
        rw [hq] at a1 a2
        rw [a1, a2]
      · rw [List.getElem?_eq_none (by omega), List.getElem?_eq_none (by omega)]
    unfold cliRender
    rw [loadWav_complete hs hsc, loadWav_complete hf hfc]
    dsimp only
    rw [k1, bind_ok, hout, p1, bind_ok, pure_eq_ok]
    unfold writeWav
    rw [if_pos hwr, Nat.floor_natCast]

/-- **C86** (the program does its job): both files complete, the same number of channels and the same rate, sizes in
range, the output writeable: status 0, the output file is the rendered one, and no other file changes. -/
theorem C86_success_partial (prog sp fp op : String) (disk : Disk) {s f : WavFile} (hs : disk.files sp = some s)
    (hf : disk.files fp = some f) (hrate : s.rate = f.rate) (h : Renderable s f) (hw : disk.writable op = true) :
    ∃ out disk', cliMain cliVariants [prog, sp, fp, op] disk = .ok (0, disk') ∧ IsRendered s f out ∧
      disk'.files op = some out ∧ ∀ path, path ≠ op → disk'.files path = disk.files path := by
  obtain ⟨out, ho, hr⟩ := cliRender_ok (op := op) hs hf h
  refine ⟨out, { disk with files := Function.update disk.files op (some out) }, ?_, ho, ?_, ?_⟩
  · unfold cliMain cliVariants
    dsimp only
    rw [if_neg, if_neg]
    · unfold cliRenderAll
      rw [hr .upola disk hw, bind_ok]
      unfold cliRenderAll
      rw [hr .splitUpola _ (by exact hw), bind_ok]
      unfold cliRenderAll
      rw [bind_ok, pure_eq_ok]
      simp
    · rw [loadWav_complete hs h.complete.1, loadWav_complete hf h.complete.2]
      simp [hrate]
    · rw [loadWav_complete hs h.complete.1, loadWav_complete hf h.complete.2]
      simp [h.channels]
  · simp
  · intro path hp
    simp [Function.update_of_ne hp]

/-- Where the compiler has `_Float16`, a third convolver runs last and its rendering is what remains: the two
single-precision renderings are overwritten. -/
theorem C86_last_variant_wins (prog sp fp op : String) (disk : Disk) {s f : WavFile} (hs : disk.files sp = some s)
    (hf : disk.files fp = some f) (hrate : s.rate = f.rate) (h : Renderable s f) (hw : disk.writable op = true)
    (k : AnyConv) :
    cliMain (cliVariants ++ [k]) [prog, sp, fp, op] disk
      = (do
        let d ← cliRender k (loadWav disk sp) (loadWav disk fp) op disk
        pure (0, d)) := by
  obtain ⟨out, ho, hr⟩ := cliRender_ok (op := op) hs hf h
  unfold cliMain cliVariants
  dsimp only [List.cons_append, List.nil_append]
  rw [if_neg, if_neg]
  · unfold cliRenderAll
    rw [hr .upola disk hw, bind_ok]
    unfold cliRenderAll
    rw [hr .splitUpola _ (by exact hw), bind_ok]
    unfold cliRenderAll cliRender
    cases cliConvolve k.ops (loadWav disk sp).channels (loadWav disk sp).frames (loadWav disk sp).data
      (loadWav disk fp).channels (loadWav disk fp).frames (loadWav disk fp).data (8192 * 4) with
    | error e => rfl
    | ok x =>
      rw [bind_ok, bind_ok]
      cases normalizePeakMat true (MatView.left (loadWav disk sp).channels (loadWav disk sp).frames) x with
      | error e => rfl
      | ok y =>
        unfold cliRenderAll writeWav
        simp only [bind_ok, pure_eq_ok, hw, if_true, Function.update_idem]
  · rw [loadWav_complete hs h.complete.1, loadWav_complete hf h.complete.2]
    simp [hrate]
  · rw [loadWav_complete hs h.complete.1, loadWav_complete hf h.complete.2]
    simp [h.channels]

/-- **C86** (refusals): the wrong number of arguments, different numbers of channels or different rates give status 1
and leave all files alone. -/
theorem C86_refused (variants : List AnyConv) (args : List String) (disk : Disk)
    (h : args.length ≠ 4 ∨ ∃ prog sp fp op s f, args = [prog, sp, fp, op] ∧ disk.files sp = some s ∧
      disk.files fp = some f ∧ WavFile.Complete s ∧ WavFile.Complete f ∧
      (s.channels ≠ f.channels ∨ s.rate ≠ f.rate)) :
    cliMain variants args disk = .ok (1, disk) := by
  rcases h with h | ⟨prog, sp, fp, op, s, f, rfl, hs, hf, hsc, hfc, h⟩
  · unfold cliMain
    split
    · simp at h
    · rfl
  · unfold cliMain
    dsimp only
    rw [loadWav_complete hs hsc, loadWav_complete hf hfc]
    dsimp only
    by_cases hc : s.channels = f.channels
    · rw [if_neg (by simpa using hc), if_pos]
      intro e
      rcases h with h | h
      · exact h hc
      · exact h (by exact_mod_cast e)
    · rw [if_pos hc]

/-- **C86** (one unreadable input): status 1, all files left alone. -/
theorem C86_one_unreadable (variants : List AnyConv) (prog sp fp op : String) (disk : Disk) {w : WavFile}
    (hw : WavFile.Complete w)
    (h : (Unreadable disk sp ∧ disk.files fp = some w) ∨ (Unreadable disk fp ∧ disk.files sp = some w)) :
    cliMain variants [prog, sp, fp, op] disk = .ok (1, disk) := by
  have h1 := hw.1
  unfold cliMain
  dsimp only
  rw [if_pos]
  rcases h with ⟨hu, hf⟩ | ⟨hu, hf⟩
  · rw [loadWav_unreadable hu, loadWav_complete hf hw]
    show 0 ≠ w.channels
    omega
  · rw [loadWav_unreadable hu, loadWav_complete hf hw]
    show w.channels ≠ 0
    omega

/-- A convolution without channels. -/
theorem cliConvolve_none (k : RenderConv) : cliConvolve k.ops 0 0 [] 0 0 [] (8192 * 4) = .ok [] := by
  have hp : ∃ N bins part, uniformPartition (MatView.left 0 0) [] (8192 * 4) = .ok (N, bins, part) := by
    have hn : nextOrder (w64 (8192 * 4 * 2)) = 16 := by decide +kernel
    have hq : numStftFrames 0 (8192 * 4) 0 = .ok (2 ^ 49) := by decide +kernel
    have hcall : ∀ p : StftPlan, p.options.frameSize = 8192 * 4 → p.options.overlapSize = 0 →
        ∃ r, p.call (MatView.left 0 0) [] = .ok r := by
      intro p h1 h2
      unfold StftPlan.call
      dsimp only [MatView.left]
      rw [h1, h2, hq, bind_ok, Nat.zero_mul, Nat.zero_mul, if_pos (by decide)]
      exact ⟨_, rfl⟩
    unfold uniformPartition stft StftPlan.make
    dsimp only
    rw [hn, rfftPlan_make_eq (by norm_num), bind_ok, fillWindow_vec, bind_ok, pure_eq_ok, bind_ok]
    have fin : ∀ p : StftPlan, p.options.frameSize = 8192 * 4 → p.options.overlapSize = 0 →
        ∃ N bins part, (do
          let (_, numFrames, numBins, result) ← p.call (MatView.left 0 0) []
          pure (numFrames, numBins, result) : Res (ℕ × ℕ × List ℂ)) = .ok (N, bins, part) := by
      intro p h1 h2
      obtain ⟨r, hr⟩ := hcall p h1 h2
      rw [hr, bind_ok]
      exact ⟨_, _, _, rfl⟩
    exact fin _ rfl rfl
  obtain ⟨N, bins, part, hp⟩ := hp
  unfold cliConvolve
  rw [show normalizeImpulseMat true (MatView.left 0 0) [] = .ok [] from by
    unfold normalizeImpulseMat; exact if_pos (by decide), bind_ok, hp, bind_ok]
  dsimp only
  rw [forInt_eq (by norm_num), forN_zero]
  rfl

/-- **C86** (false): if *both* inputs are unreadable the program does not notice: it reports success and replaces the
output by a file without channels and without a sample rate. -/
theorem C86_both_unreadable_false (prog sp fp op : String) (disk : Disk) (hs : Unreadable disk sp)
    (hf : Unreadable disk fp) (hw : disk.writable op = true) :
    ∃ disk', cliMain cliVariants [prog, sp, fp, op] disk = .ok (0, disk') ∧
      disk'.files op = some { channels := 0, frames := 0, rate := 0, samples := [] } := by
  have hpk : normalizePeakMat true (MatView.left 0 0) [] = .ok [] := by
    obtain ⟨d, a, e, -, hd, -⟩ := normalizePeakMat_left 0 0 [] rfl
    rw [e, hd]; rfl
  have hr : ∀ (k : RenderConv) (d : Disk), d.writable op = true →
      cliRender ⟨_, k.ops⟩ LoadedWav.none LoadedWav.none op d
        = .ok ⟨Function.update d.files op (some ⟨0, 0, 0, []⟩), d.writable⟩ := by
    intro k d hd
    unfold cliRender LoadedWav.none
    dsimp only
    rw [cliConvolve_none, bind_ok, hpk, bind_ok, pure_eq_ok]
    unfold writeWav
    rw [if_pos hd, Nat.floor_zero]
  refine ⟨⟨Function.update disk.files op (some ⟨0, 0, 0, []⟩), disk.writable⟩, ?_, ?_⟩
  · unfold cliMain cliVariants
    dsimp only
    rw [loadWav_unreadable hs, loadWav_unreadable hf, if_neg (by simp), if_neg (by simp)]
    unfold cliRenderAll
    rw [hr .upola disk hw, bind_ok]
    unfold cliRenderAll
    rw [hr .splitUpola _ (by exact hw), bind_ok]
    unfold cliRenderAll
    rw [bind_ok, pure_eq_ok]
    simp
  · simp

/-- **C86** (false): an output that cannot be opened is not noticed: the status is 0 and no file has changed. -/
theorem C86_unwritable_false (prog sp fp op : String) (disk : Disk) {s f : WavFile} (hs : disk.files sp = some s)
    (hf : disk.files fp = some f) (hrate : s.rate = f.rate) (h : Renderable s f) (hw : disk.writable op = false) :
    cliMain cliVariants [prog, sp, fp, op] disk = .ok (0, disk) := by
  obtain ⟨out, ho, hr⟩ := cliRender_ok (op := op) hs hf h
  have hr' : ∀ k : RenderConv, cliRender ⟨_, k.ops⟩ (loadWav disk sp) (loadWav disk fp) op disk = .ok disk := by
    intro k
    have e := hr k { disk with writable := fun _ => true } rfl
    unfold cliRender at e ⊢
    obtain ⟨x, e1, e2⟩ := bind_eq_ok e
    obtain ⟨y, e3, e4⟩ := bind_eq_ok e2
    rw [e1, bind_ok, e3, bind_ok, pure_eq_ok]
    unfold writeWav
    rw [if_neg (by simp [hw])]
  unfold cliMain cliVariants
  dsimp only
  rw [if_neg, if_neg]
  · unfold cliRenderAll
    rw [hr' .upola, bind_ok]
    unfold cliRenderAll
    rw [hr' .splitUpola, bind_ok]
    rfl
  · rw [loadWav_complete hs h.complete.1, loadWav_complete hf h.complete.2]
    simp [hrate]
  · rw [loadWav_complete hs h.complete.1, loadWav_complete hf h.complete.2]
    simp [h.channels]

/-- Two mono files of three and two frames. -/
example : Renderable ⟨1, 3, 48000, [1, 2, 3]⟩ ⟨1, 2, 48000, [1, -1]⟩ := by
  refine ⟨⟨⟨le_rfl, ?_⟩, ⟨le_rfl, ?_⟩⟩, rfl, ?_, ?_, ⟨?_, ?_⟩, ?_⟩ <;> simp

/-- A file cut off after one of two announced frames is unreadable. -/
example : Unreadable ⟨fun _ => some ⟨1, 2, 48000, [1]⟩, fun _ => true⟩ "a.wav" := by
  intro w h
  cases h
  simp

end Neo.Props
