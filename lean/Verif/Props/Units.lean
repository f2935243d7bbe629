import Verif.Model.Units
import Verif.Lemmas.Stats
import Verif.Lemmas.Algo
import Verif.Lemmas.IntT
import Verif.Lemmas.Fixed
import Verif.Lemmas.Out

/-!
# Properties C51, C52, C53, C55: units, windows, bin frequencies, the complex type
-/

namespace Neo.Props

/-! ## C51: mel and decibel -/

/-- **C51** (mel): the two conversions are mutually inverse (`hertz` above `-700`, the domain of the
logarithm, in particular all non-negative frequencies), map non-negative values to non-negative
values and are strictly increasing. -/
theorem C51_mel :
    (∀ h : ℝ, -700 < h → melToHertz (hertzToMel h) = h) ∧
    (∀ m : ℝ, hertzToMel (melToHertz m) = m) ∧
    (∀ h h' : ℝ, -700 < h → h < h' → hertzToMel h < hertzToMel h') ∧
    (∀ m m' : ℝ, m < m' → melToHertz m < melToHertz m') ∧
    hertzToMel 0 = 0 ∧ melToHertz 0 = 0 := by
  refine ⟨?_, ?_, ?_, ?_, ?_, ?_⟩
  · intro h hh
    unfold melToHertz hertzToMel
    rw [mul_div_cancel_left₀ _ (by norm_num : (2595 : ℝ) ≠ 0),
      Real.rpow_logb (by norm_num) (by norm_num) (by linarith)]
    ring
  · intro m
    unfold melToHertz hertzToMel
    rw [mul_div_cancel_left₀ _ (by norm_num : (700 : ℝ) ≠ 0)]
    rw [show (1 : ℝ) + (10 ^ (m / 2595) - 1) = 10 ^ (m / 2595) by ring,
      Real.logb_rpow (by norm_num) (by norm_num)]
    ring
  · intro h h' hh hlt
    unfold hertzToMel
    have := Real.logb_lt_logb (b := 10) (by norm_num) (x := 1 + h / 700) (y := 1 + h' / 700)
      (by linarith) (by linarith)
    linarith
  · intro m m' hlt
    unfold melToHertz
    have := Real.rpow_lt_rpow_of_exponent_lt (x := 10) (by norm_num)
      (show m / 2595 < m' / 2595 by linarith)
    linarith
  · simp [hertzToMel]
  · simp [melToHertz]

example : melToHertz (hertzToMel 440) = 440 := C51_mel.1 440 (by norm_num)

/-- **C51** (mel): `mel_frequencies` fills a vector of `n ≥ 2` elements with strictly increasing
frequencies from `fmin` to `fmax`, equally spaced on the mel scale; for `n = 1` it stores `fmin`, and
an empty vector is left alone. -/
theorem C51_mel_frequencies (out : List ℝ) (fmin fmax : ℝ) (h0 : -700 < fmin) (h1 : -700 < fmax)
    (hl : out.length < 2 ^ 31) :
    (out.length = 0 → melFrequencies out fmin fmax = .ok []) ∧
    (out.length = 1 → melFrequencies out fmin fmax = .ok [fmin]) ∧
    (2 ≤ out.length → ∃ f : ℕ → ℝ, melFrequencies out fmin fmax = .ok (vec out.length f) ∧
      f 0 = fmin ∧ f (out.length - 1) = fmax ∧
      (∀ i < out.length, hertzToMel (f i)
        = hertzToMel fmin + (hertzToMel fmax - hertzToMel fmin) * i / ((out.length - 1 : ℕ) : ℝ)) ∧
      (fmin < fmax → ∀ i j, i < j → j < out.length → f i < f j)) := by
  obtain ⟨k1, k2, k3, k4, -, -⟩ := C51_mel
  refine ⟨?_, ?_, ?_⟩
  · intro h
    unfold melFrequencies
    rw [if_pos h, List.eq_nil_of_length_eq_zero h]
  · intro h
    unfold melFrequencies
    rw [if_neg (by omega), if_pos h]
    obtain ⟨a, rfl⟩ := List.length_eq_one_iff.1 h
    rfl
  · intro h
    have hd : ((out.length - 1 : ℕ) : ℝ) ≠ 0 := by rw [Nat.cast_ne_zero]; omega
    have hdp : (0 : ℝ) < ((out.length - 1 : ℕ) : ℝ) := lt_of_le_of_ne (Nat.cast_nonneg _) hd.symm
    unfold melFrequencies
    rw [if_neg (by omega), if_neg (by omega)]
    dsimp only
    rw [fdiv_ok hd, bind_ok, forInt_eq hl]
    generalize hn : out.length = n at *
    obtain ⟨g, rfl⟩ : ∃ g, out = vec n g := ⟨_, list_eq_vec 0 hn⟩
    set step := (hertzToMel fmax - hertzToMel fmin) / ((n - 1 : ℕ) : ℝ) with hstep
    refine ⟨fun i => melToHertz (hertzToMel fmin + step * i), ?_, ?_, ?_, ?_, ?_⟩
    · exact forN_map g (fun i _ => melToHertz (hertzToMel fmin + step * i)) _
        (fun i hi h' _ => by rw [wr_vec_ok hi])
    · simp [k1 fmin h0]
    · show melToHertz (hertzToMel fmin + step * ((n - 1 : ℕ) : ℝ)) = fmax
      rw [hstep, div_mul_cancel₀ _ hd, add_sub_cancel, k1 fmax h1]
    · intro i hi
      show hertzToMel (melToHertz _) = _
      rw [k2, hstep]; ring
    · intro hlt i j hij hj
      apply k4
      have hs : 0 < step := div_pos (sub_pos.2 (k3 fmin fmax h0 hlt)) hdp
      have : (i : ℝ) < j := by exact_mod_cast hij
      nlinarith

example : ∃ f : ℕ → ℝ, melFrequencies [0, 0, 0] 0 8000 = .ok (vec 3 f) ∧ f 0 = 0 ∧ f 2 = 8000 := by
  obtain ⟨f, h1, h2, h3, -⟩ := (C51_mel_frequencies [0, 0, 0] 0 8000 (by norm_num) (by norm_num)
    (by decide)).2.2 (by decide)
  exact ⟨f, h1, h2, h3⟩

/-- **C51** (decibel): `amplitude_to_db` never goes below the floor and is the floor for non-positive
gains; above the floor it is `20 log10`, so that `10^(dB/20)` gives the amplitude back, and conversely
every level at or above the floor is recovered from its amplitude; it is increasing, strictly so above
the floor.  (The library has no `db_to_amplitude`; the inverse is stated with `10^(dB/20)`.) -/
theorem C51_decibel (floor : ℝ) :
    (∀ g, floor ≤ amplitudeToDb g floor) ∧
    (∀ g, g ≤ (10 : ℝ) ^ (floor / 20) → amplitudeToDb g floor = floor) ∧
    (∀ g, (10 : ℝ) ^ (floor / 20) ≤ g → (10 : ℝ) ^ (amplitudeToDb g floor / 20) = g) ∧
    (∀ d, floor ≤ d → amplitudeToDb ((10 : ℝ) ^ (d / 20)) floor = d) ∧
    (∀ g g', g ≤ g' → amplitudeToDb g floor ≤ amplitudeToDb g' floor) ∧
    (∀ g g', (10 : ℝ) ^ (floor / 20) ≤ g → g < g' → amplitudeToDb g floor < amplitudeToDb g' floor) := by
  have hten : ∀ x : ℝ, (0 : ℝ) < 10 ^ x := fun x => Real.rpow_pos_of_pos (by norm_num) _
  have hlow : ∀ g, g ≤ (10 : ℝ) ^ (floor / 20) → amplitudeToDb g floor = floor := by
    intro g hg
    unfold amplitudeToDb
    split
    · rfl
    · rename_i h
      push Not at h
      apply max_eq_left
      have := (Real.logb_le_iff_le_rpow (b := 10) (by norm_num) h).2 hg
      linarith
  have hhigh : ∀ g, (10 : ℝ) ^ (floor / 20) ≤ g → amplitudeToDb g floor = 20 * Real.logb 10 g := by
    intro g hg
    have hp : 0 < g := (hten _).trans_le hg
    unfold amplitudeToDb
    rw [if_neg (by linarith)]
    apply max_eq_right
    have := (Real.le_logb_iff_rpow_le (b := 10) (by norm_num) hp).2 hg
    linarith
  have hinv : ∀ g, (10 : ℝ) ^ (floor / 20) ≤ g → (10 : ℝ) ^ (amplitudeToDb g floor / 20) = g := by
    intro g hg
    rw [hhigh g hg, mul_div_cancel_left₀ _ (by norm_num : (20 : ℝ) ≠ 0)]
    exact Real.rpow_logb (by norm_num) (by norm_num) ((hten _).trans_le hg)
  have hfl : ∀ g, floor ≤ amplitudeToDb g floor := by
    intro g
    unfold amplitudeToDb
    split
    · exact le_rfl
    · exact le_max_left _ _
  have hstrict : ∀ g g', (10 : ℝ) ^ (floor / 20) ≤ g → g < g' →
      amplitudeToDb g floor < amplitudeToDb g' floor := by
    intro g g' hg hlt
    rw [hhigh g hg, hhigh g' (hg.trans hlt.le)]
    have := Real.logb_lt_logb (b := 10) (by norm_num) ((hten _).trans_le hg) hlt
    linarith
  refine ⟨hfl, hlow, hinv, ?_, ?_, hstrict⟩
  · intro d hd
    rw [hhigh _ (Real.rpow_le_rpow_of_exponent_le (by norm_num) (by linarith)),
      Real.logb_rpow (by norm_num) (by norm_num)]
    ring
  · intro g g' hle
    rcases le_total g ((10 : ℝ) ^ (floor / 20)) with h | h
    · rw [hlow g h]; exact hfl g'
    · rcases eq_or_lt_of_le hle with rfl | h'
      · exact le_rfl
      · exact (hstrict g g' h h').le

example : amplitudeToDbDefault 1 = 0 := by
  have := (C51_decibel (-144)).2.2.2.1 0 (by norm_num)
  simpa [amplitudeToDbDefault] using this

/-! ## C52: windows -/

/-- The value of a window at position `i` of `n` (`n ≥ 2`). -/
theorem Window.eval_ok (w : Window) (i n : ℕ) (hn : 2 ≤ n) :
    ∃ x, w.eval i n = .ok x ∧ 0 ≤ x ∧ x ≤ 1 := by
  have hd : ((n - 1 : ℕ) : ℝ) ≠ 0 := by rw [Nat.cast_ne_zero]; omega
  have hb := fun t : ℝ => Real.neg_one_le_cos t
  have hb' := fun t : ℝ => Real.cos_le_one t
  cases w with
  | rectangular => exact ⟨1, rfl, by norm_num, le_rfl⟩
  | hann =>
    refine ⟨_, by unfold Window.eval; dsimp only; rw [fdiv_ok hd, bind_ok, pure_eq_ok], ?_, ?_⟩
    · have := hb' (Real.pi * 2 * i / ((n - 1 : ℕ) : ℝ)); norm_num; linarith
    · have := hb (Real.pi * 2 * i / ((n - 1 : ℕ) : ℝ)); norm_num; linarith
  | hamming =>
    refine ⟨_, by unfold Window.eval; dsimp only; rw [fdiv_ok hd, bind_ok, pure_eq_ok], ?_, ?_⟩
    · have := hb' (Real.pi * 2 * i / ((n - 1 : ℕ) : ℝ)); norm_num; linarith
    · have := hb (Real.pi * 2 * i / ((n - 1 : ℕ) : ℝ)); norm_num; linarith

theorem Window.eval_symm (w : Window) (i n : ℕ) (hn : 2 ≤ n) (hi : i < n) :
    w.eval (n - 1 - i) n = w.eval i n := by
  have hd : ((n - 1 : ℕ) : ℝ) ≠ 0 := by rw [Nat.cast_ne_zero]; omega
  have hc : Real.cos (Real.pi * 2 * ((n - 1 - i : ℕ) : ℝ) / ((n - 1 : ℕ) : ℝ))
      = Real.cos (Real.pi * 2 * i / ((n - 1 : ℕ) : ℝ)) := by
    rw [Nat.cast_sub (by omega : i ≤ n - 1)]
    rw [show Real.pi * 2 * (((n - 1 : ℕ) : ℝ) - i) / ((n - 1 : ℕ) : ℝ)
      = 2 * Real.pi - Real.pi * 2 * i / ((n - 1 : ℕ) : ℝ) by field_simp]
    exact Real.cos_two_pi_sub _
  cases w with
  | rectangular => rfl
  | hann => unfold Window.eval; dsimp only; rw [fdiv_ok hd, fdiv_ok hd, bind_ok, bind_ok, hc]
  | hamming => unfold Window.eval; dsimp only; rw [fdiv_ok hd, fdiv_ok hd, bind_ok, bind_ok, hc]

/-- **C52**: every generated window of size `n ≥ 2` has `n` values, is symmetric, and has values in
`[0, 1]`; the Hann window starts and ends with `0`, the Hamming window with `0.08`. -/
theorem C52_window (w : Window) (n : ℕ) (hn : 2 ≤ n) :
    ∃ f : ℕ → ℝ, generateWindow n w = .ok (vec n f) ∧
      (∀ i < n, f (n - 1 - i) = f i) ∧ (∀ i < n, 0 ≤ f i ∧ f i ≤ 1) ∧
      (∀ i < n, w = .rectangular → f i = 1) ∧
      (w = .hann → f 0 = 0) ∧ (w = .hamming → f 0 = 0.08) := by
  choose f hf h0 h1 using fun i => Window.eval_ok w i n hn
  refine ⟨f, ?_, ?_, fun i _ => ⟨h0 i, h1 i⟩, ?_, ?_, ?_⟩
  · unfold generateWindow fillWindowR
    rw [show List.replicate n (0 : ℝ) = vec n (fun _ => 0) by
      simp [vec], length_vec]
    exact forN_map (fun _ => (0 : ℝ)) (fun i _ => f i) _ (fun i hi h _ => by
      show (do let x ← w.eval i n; wr (vec n h) i x) = _
      rw [hf, bind_ok, wr_vec_ok hi])
  · intro i hi
    have := Window.eval_symm w i n hn hi
    rw [hf, hf] at this
    exact Except.ok.inj this
  · rintro i hi rfl
    exact (Except.ok.inj (hf i)).symm
  · rintro rfl
    have := hf 0
    unfold Window.eval at this
    dsimp only at this
    rw [fdiv_ok (by rw [Nat.cast_ne_zero]; omega), bind_ok, pure_eq_ok] at this
    rw [← Except.ok.inj this]; simp
  · rintro rfl
    have := hf 0
    unfold Window.eval at this
    dsimp only at this
    rw [fdiv_ok (by rw [Nat.cast_ne_zero]; omega), bind_ok, pure_eq_ok] at this
    rw [← Except.ok.inj this]; norm_num

example : ∃ f : ℕ → ℝ, generateWindow 5 .hann = .ok (vec 5 f) ∧ f 4 = 0 := by
  obtain ⟨f, h, hs, -, -, h0, -⟩ := C52_window .hann 5 (by norm_num)
  refine ⟨f, h, ?_⟩
  have := hs 0 (by norm_num)
  rw [h0 rfl] at this
  exact this

/-- **C52**, the excluded sizes: the empty window is empty; the Hann and Hamming windows of size `1`
divide zero by zero. -/
theorem C52_small (w : Window) :
    generateWindow 0 w = .ok [] ∧
    generateWindow 1 .hann = .error .divZero ∧ generateWindow 1 .hamming = .error .divZero := by
  refine ⟨rfl, ?_, ?_⟩ <;>
  · unfold generateWindow fillWindowR
    simp [forN, Window.eval, fdiv_zero]

/-! ## C53: bin frequencies -/

/-- **C53** (scalar): `rfftfreq(n, i, d)` is `i / (n d)` and strictly increasing in `i`, for every
non-zero size and positive sample interval. -/
theorem C53_scalar (n : ℤ) (d : ℝ) (hn : 0 < n) (hd : 0 < d) :
    (∀ i, rfftfreq n i d = .ok (i / (n * d))) ∧
    (∀ i j : ℤ, i < j → (i : ℝ) / (n * d) < j / (n * d)) := by
  have hn' : (0 : ℝ) < n := by exact_mod_cast hn
  constructor
  · intro i
    unfold rfftfreq
    rw [fdiv_ok hd.ne', bind_ok, fdiv_ok hn'.ne', bind_ok, pure_eq_ok]
    congr 1
    field_simp
  · intro i j hij
    have : (i : ℝ) < j := by exact_mod_cast hij
    exact div_lt_div_of_pos_right this (by positivity)

example : rfftfreq 1024 512 (1 / 48000) = .ok 24000 := by
  rw [(C53_scalar 1024 (1 / 48000) (by norm_num) (by norm_num)).1]
  norm_num

/-- **C53** (vector): the vector overload fills element `i` with the frequency of bin `i` of a
transform whose size is the number of elements of the vector. -/
theorem C53_vector (out : List ℝ) (d : ℝ) (hd : 0 < d) (hl : out.length < 2 ^ 31) :
    rfftfreqVec out d = .ok (vec out.length (fun i => (i : ℝ) / (out.length * d))) := by
  have hc : i32.conv (out.length : ℤ) = (out.length : ℤ) := by
    apply i32_conv
    constructor
    · show -(2 ^ 31 : ℤ) ≤ _
      have : (0 : ℤ) ≤ out.length := Int.natCast_nonneg _
      have h2 : (0 : ℤ) ≤ 2 ^ 31 := by positivity
      linarith
    · show (out.length : ℤ) ≤ 2 ^ 31 - 1
      have : ((out.length : ℕ) : ℤ) < ((2 ^ 31 : ℕ) : ℤ) := by exact_mod_cast hl
      push_cast at this
      linarith
  unfold rfftfreqVec
  rw [hc, Int.toNat_natCast]
  generalize hn : out.length = n at *
  obtain ⟨g, rfl⟩ : ∃ g, out = vec n g := ⟨_, list_eq_vec 0 hn⟩
  exact forN_map g (fun i _ => (i : ℝ) / (n * d)) _ (fun i hi h _ => by
    show (do let f ← rfftfreq (n : ℤ) i d; wr (vec n h) i f) = _
    rw [(C53_scalar (n : ℤ) d (by omega) hd).1 i, bind_ok, wr_vec_ok hi]
    push_cast
    rfl)

example : rfftfreqVec [0, 0] (1 / 48000) = .ok [0, 24000] := by
  rw [C53_vector [0, 0] (1 / 48000) (by norm_num) (by decide)]
  norm_num [vec, List.range_succ]

/-- **C53**: the vector of the `n/2+1` bins of a real transform of size `n` (its length being the
number of bins) is therefore **not** filled with the bin centre frequencies `i/(n d)`, for any even
size above `2`: the last element, the Nyquist bin, is wrong. -/
theorem C53_half_spectrum_false (m : ℕ) (hm : 2 ≤ m) (d : ℝ) (hd : 0 < d) (out : List ℝ)
    (hlen : out.length = 2 * m / 2 + 1) (hl : out.length < 2 ^ 31) :
    ∃ f : ℕ → ℝ, rfftfreqVec out d = .ok (vec out.length f) ∧ f m ≠ (m : ℝ) / ((2 * m : ℕ) * d) := by
  refine ⟨_, C53_vector out d hd hl, ?_⟩
  have h1 : out.length = m + 1 := by omega
  rw [h1]
  have hm' : (2 : ℝ) ≤ m := by exact_mod_cast hm
  push_cast
  intro h
  rw [div_eq_div_iff (by positivity) (by positivity)] at h
  have hmd : 0 < (m : ℝ) * d := by positivity
  have : (m : ℝ) * d * (2 * m - (m + 1)) = 0 := by linarith
  rcases mul_eq_zero.1 this with h | h <;> linarith

/-! ## C55: `scalar_complex` -/

/-- The complex number represented by a `scalar_complex`. -/
def SComplex.toC (z : SComplex ℝ) : ℂ := ⟨z.d0, z.d1⟩

theorem SComplex.toC_inj {a b : SComplex ℝ} (h : SComplex.toC a = SComplex.toC b) : a = b := by
  cases a; cases b
  simp only [SComplex.toC, Complex.mk.injEq] at h
  rw [h.1, h.2]

/-- **C55**: the operators of `scalar_complex` are those of the complex numbers. -/
theorem C55_operators (a b : SComplex ℝ) (s : ℝ) :
    SComplex.toC a.pos = SComplex.toC a ∧ SComplex.toC a.neg = -SComplex.toC a ∧
    SComplex.toC (a.add b) = SComplex.toC a + SComplex.toC b ∧
    SComplex.toC (a.sub b) = SComplex.toC a - SComplex.toC b ∧
    SComplex.toC (a.mul b) = SComplex.toC a * SComplex.toC b ∧
    SComplex.toC (a.mulScalar s) = SComplex.toC a * (s : ℂ) ∧
    SComplex.toC a.conj = (starRingEnd ℂ) (SComplex.toC a) ∧
    a.abs = ‖SComplex.toC a‖ := by
  refine ⟨rfl, ?_, ?_, ?_, ?_, ?_, ?_, ?_⟩
  · apply Complex.ext <;> simp [SComplex.toC, SComplex.neg]
  · apply Complex.ext <;> simp [SComplex.toC, SComplex.add]
  · apply Complex.ext <;> simp [SComplex.toC, SComplex.sub]
  · apply Complex.ext <;> simp [SComplex.toC, SComplex.mul]
  · apply Complex.ext <;> simp [SComplex.toC, SComplex.mulScalar]
  · apply Complex.ext <;> simp [SComplex.toC, SComplex.conj]
  · rw [Complex.norm_def, Complex.normSq_apply]; rfl

/-- **C55**: division by a non-zero complex number or scalar is complex division. -/
theorem C55_division (a b : SComplex ℝ) (s : ℝ) :
    (SComplex.toC b ≠ 0 → ∃ q, a.div b = .ok q ∧ SComplex.toC q = SComplex.toC a / SComplex.toC b) ∧
    (s ≠ 0 → ∃ q, a.divScalar s = .ok q ∧ SComplex.toC q = SComplex.toC a / (s : ℂ)) ∧
    (SComplex.toC b = 0 → a.div b = .error .divZero) := by
  have hns : Complex.normSq (SComplex.toC b) = b.d0 * b.d0 + b.d1 * b.d1 := Complex.normSq_apply _
  refine ⟨?_, ?_, ?_⟩
  · intro hb
    have hd : b.d0 * b.d0 + b.d1 * b.d1 ≠ 0 := by
      rw [← hns]; exact (Complex.normSq_pos.2 hb).ne'
    refine ⟨_, by
      unfold SComplex.div
      dsimp only
      rw [fdiv_ok hd, bind_ok, fdiv_ok hd, bind_ok, pure_eq_ok], ?_⟩
    apply Complex.ext
    · rw [Complex.div_re, hns]
      simp only [SComplex.toC]; field_simp
    · rw [Complex.div_im, hns]
      simp only [SComplex.toC]; field_simp
  · intro hs
    refine ⟨_, by
      unfold SComplex.divScalar
      rw [fdiv_ok hs, bind_ok, fdiv_ok hs, bind_ok, pure_eq_ok], ?_⟩
    apply Complex.ext
    · rw [Complex.div_ofReal_re]; rfl
    · rw [Complex.div_ofReal_im]; rfl
  · intro hb
    have hd : b.d0 * b.d0 + b.d1 * b.d1 = 0 := by rw [← hns, hb, map_zero]
    unfold SComplex.div
    dsimp only
    rw [hd, fdiv_zero]; rfl

example : ∃ q, SComplex.div ⟨1, 2⟩ ⟨0, 1⟩ = .ok q ∧ SComplex.toC q = ⟨2, -1⟩ := by
  have hne : SComplex.toC ⟨0, 1⟩ ≠ 0 := by
    intro h
    have := congrArg Complex.im h
    norm_num [SComplex.toC] at this
  obtain ⟨q, h1, h2⟩ := (C55_division ⟨1, 2⟩ ⟨0, 1⟩ 1).1 hne
  refine ⟨q, h1, ?_⟩
  rw [h2]
  apply Complex.ext <;> norm_num [SComplex.toC, Complex.div_re, Complex.div_im, Complex.normSq_apply]

/-- **C55**: a compound assignment stores the complex result in its left operand and changes nothing
else, whether or not the right operand is the same object. -/
theorem C55_compound (mem : List (SComplex ℝ)) (l r : ℕ) (hl : l < mem.length)
    (hr : r < mem.length) :
    (SComplex.assignOp (fun a b => .ok (a.add b)) mem l r = .ok (mem.set l (mem[l].add mem[r]))) ∧
    (SComplex.assignOp (fun a b => .ok (a.sub b)) mem l r = .ok (mem.set l (mem[l].sub mem[r]))) ∧
    (SComplex.assignOp (fun a b => .ok (a.mul b)) mem l r = .ok (mem.set l (mem[l].mul mem[r]))) ∧
    (SComplex.toC mem[r] ≠ 0 → ∃ q, SComplex.assignOp SComplex.div mem l r = .ok (mem.set l q) ∧
      SComplex.toC q = SComplex.toC mem[l] / SComplex.toC mem[r]) := by
  have key : ∀ (op : SComplex ℝ → SComplex ℝ → Res (SComplex ℝ)) (q : SComplex ℝ),
      op mem[l] mem[r] = .ok q → SComplex.assignOp op mem l r = .ok (mem.set l q) := by
    intro op q hq
    unfold SComplex.assignOp
    rw [rd_ok hl, bind_ok, rd_ok hr, bind_ok, hq, bind_ok, wr, if_pos hl]
  refine ⟨key _ _ rfl, key _ _ rfl, key _ _ rfl, ?_⟩
  intro hb
  obtain ⟨q, h1, h2⟩ := (C55_division mem[l] mem[r] 1).1 hb
  exact ⟨q, key _ _ h1, h2⟩

/-- The aliased case: `z *= z` squares, `z -= z` gives zero, `z /= z` gives one. -/
theorem C55_aliased (z : SComplex ℝ) (hz : SComplex.toC z ≠ 0) :
    ∃ a b c, SComplex.assignOp (fun a b => .ok (a.mul b)) [z] 0 0 = .ok [a] ∧
      SComplex.assignOp (fun a b => .ok (a.sub b)) [z] 0 0 = .ok [b] ∧
      SComplex.assignOp SComplex.div [z] 0 0 = .ok [c] ∧
      SComplex.toC a = SComplex.toC z ^ 2 ∧ SComplex.toC b = 0 ∧ SComplex.toC c = 1 := by
  obtain ⟨-, h2, h3, h4⟩ := C55_compound [z] 0 0 (by simp) (by simp)
  obtain ⟨q, hq, hq'⟩ := h4 hz
  refine ⟨_, _, q, h3, h2, hq, ?_, ?_, ?_⟩
  · rw [pow_two]; exact (C55_operators z z 0).2.2.2.2.1
  · exact (C55_operators z z 0).2.2.2.1.trans (sub_self _)
  · rw [hq']; exact div_self hz

example : SComplex.toC ⟨3, 4⟩ ≠ 0 := by
  intro h
  have := congrArg Complex.re h
  norm_num [SComplex.toC] at this

end Neo.Props
