import Verif.Props.Stats
import Verif.Props.Units
import Verif.Lemmas.UnitsIeee

/-! # C111: windows, bin frequencies, units and comparisons in IEEE 754 arithmetic -/

namespace Neo.Props

open Neo Spec

variable {f : Fmt}

/-! ## Bin frequencies -/

/-- **C111** (order of the bin frequencies).  For every size up to half the largest finite number and every sample interval
whose rounded value has a finite reciprocal, the computed frequency of bin 0 is 0 and the computed frequencies do not
decrease and are not NaN, overflow of `index * fs` included. -/
theorem C111_rfftfreq_order (hf : f.Ieee) {n : ℕ} (hn : 1 ≤ n) (ho : 2 * (n : ℝ) ≤ (2 : ℝ) ^ f.emax) {v : FVal} {d : ℝ}
    (hv : f.round v = .fin d) (hd : (2 : ℝ) ^ (-f.emax) < d) :
    rfftfreqI f n 0 v = .fin 0 ∧ ∀ i j, i ≤ j → (rfftfreqI f n i v).Le (rfftfreqI f n j v) := by
  have hp : 1 ≤ f.p := by have := hf.1; omega
  obtain ⟨hg, hlt⟩ := round_eq_fin hp hv
  obtain ⟨r, hr, er⟩ := recip_pos hf hg hd ((le_abs_self _).trans_lt hlt)
  obtain ⟨s, hs, es, hsg, hslt⟩ := ofNat_pos hf hn ho
  have h8 := eight_le_emax hf
  have hs' : (2 : ℝ) ^ (-f.emax) < s := by
    refine lt_of_lt_of_le ?_ hs
    rw [zpow_neg]
    exact inv_lt_one_of_one_lt₀ (by linarith)
  obtain ⟨q, hq, eq⟩ := recip_pos hf hsg hs' hslt
  have h0 : f.round (.fin 0) = .fin 0 := round_mem (onGrid_zero f) (by rw [abs_zero]; exact two_zpow_pos _)
  unfold rfftfreqI
  simp only [hv, er, es, eq]
  refine ⟨?_, fun i j hij => ?_⟩
  · rw [ofNat_zero]
    simp only [FVal.mul, zero_mul, h0]
  · exact (((ofNat_mono hp hij).mul_const hr).round hp |>.mul_const hq).round hp

/-- **C111** (accuracy of the bin frequencies).  The computed frequency of bin `i` is within `8 u` of `i / (n d)`, relative to
it, as long as the size and the quotient of size and interval are at most an eighth of `2 ^ emax` and the frequency of bin 1
is not near the subnormal numbers. -/
theorem C111_rfftfreq_accuracy (hf : f.Ieee) (hu : f.u ≤ 1 / 64) {n i : ℕ} (hn : 1 ≤ n) (hi : i ≤ n) {d : ℝ} (hd : 0 < d)
    (h1 : 8 * (n : ℝ) ≤ (2 : ℝ) ^ f.emax) (h2 : 8 * n ≤ d * (2 : ℝ) ^ f.emax) (h3 : 8 * f.minNormal * (n * d) ≤ 1) :
    ∃ y, rfftfreqI f n i (.fin d) = .fin y ∧ |y - i / (n * d)| ≤ 8 * f.u * (i / (n * d)) := by
  have hu0 := u_pos f
  have hν := minNormal_pos f
  have hE := two_zpow_pos f.emax
  have hmn := minNormal_mul_emax hf
  have h8 := eight_le_emax hf
  have hn' : (1 : ℝ) ≤ n := by exact_mod_cast hn
  have hn0 : (0 : ℝ) < n := by linarith
  have hk : ∀ k : ℕ, k ≤ 6 → (k : ℝ) * f.u ≤ 1 / 8 := fun k hk => by
    have : (k : ℝ) ≤ 6 := by exact_mod_cast hk
    nlinarith
  have hνd : 8 * f.minNormal * d ≤ 1 := le_trans (mul_le_mul_of_nonneg_left (le_mul_of_one_le_left hd.le hn') (by positivity)) h3
  have b1 : 2 * f.minNormal ≤ d := by
    have : 2 * f.minNormal * (2 : ℝ) ^ f.emax ≤ d * (2 : ℝ) ^ f.emax := by linarith
    exact le_of_mul_le_mul_right this hE
  have b2 : 2 * d ≤ (2 : ℝ) ^ f.emax := by
    have : f.minNormal * (2 * d) ≤ f.minNormal * (2 : ℝ) ^ f.emax := by linarith
    exact le_of_mul_le_mul_left this hν
  have hD : Ap f 1 d (f.round (.fin d)) := by
    have := Ap.round hf (Fac.one hf 0) (hk 0 (by norm_num)) b1 b2
    rwa [mul_one] at this
  have b3 : 2 * f.minNormal ≤ 1 / d := by
    rw [le_div_iff₀ hd]
    linarith
  have b4 : 2 * (1 / d) ≤ (2 : ℝ) ^ f.emax := by
    rw [← mul_div_assoc, div_le_iff₀ hd, mul_comm _ d]
    linarith
  have hFs := Ap.div hf (Ap.exact hf 1) hD hd (hk _ (by norm_num)) b3 b4
  have hN := ofNat_ap hf hn (by linarith)
  have b5 : 2 * f.minNormal ≤ 1 / (n : ℝ) := by
    rw [le_div_iff₀ hn0]
    have : 8 * (n : ℝ) * f.minNormal ≤ (2 : ℝ) ^ f.emax * f.minNormal := mul_le_mul_of_nonneg_right h1 hν.le
    linarith
  have b6 : 2 * (1 / (n : ℝ)) ≤ (2 : ℝ) ^ f.emax := by
    have : 1 / (n : ℝ) ≤ 1 := (div_le_one hn0).2 hn'
    linarith
  have hIs := Ap.div hf (Ap.exact hf 1) hN hn0 (hk _ (by norm_num)) b5 b6
  unfold rfftfreqI
  rcases Nat.eq_zero_or_pos i with rfl | hi0
  · have h0 : f.round (.fin 0) = .fin 0 := round_mem (onGrid_zero f) (by rw [abs_zero]; exact two_zpow_pos _)
    obtain ⟨a, ea, -⟩ := hFs
    obtain ⟨b, eb, -⟩ := hIs
    refine ⟨0, ?_, by simp⟩
    rw [ofNat_zero]
    simp only [ea, eb, FVal.mul, zero_mul, h0]
  have hi' : (1 : ℝ) ≤ i := by exact_mod_cast hi0
  have hin : (i : ℝ) ≤ n := by exact_mod_cast hi
  have hI := ofNat_ap hf hi0 (by linarith)
  have ei : (i : ℝ) * (1 / d) = i / d := by ring
  have b7 : 2 * f.minNormal ≤ (i : ℝ) * (1 / d) := by
    rw [ei, le_div_iff₀ hd]
    linarith
  have b8 : 2 * ((i : ℝ) * (1 / d)) ≤ (2 : ℝ) ^ f.emax := by
    rw [ei, ← mul_div_assoc, div_le_iff₀ hd, mul_comm _ d]
    linarith
  have hP := Ap.mul hf hI hFs (hk _ (by norm_num)) b7 b8
  have hnd : 0 < n * d := by positivity
  have eq : (i : ℝ) * (1 / d) * (1 / n) = i / (n * d) := by field_simp
  have b9 : 2 * f.minNormal ≤ (i : ℝ) * (1 / d) * (1 / n) := by
    rw [eq, le_div_iff₀ hnd]
    linarith
  have b10 : 2 * ((i : ℝ) * (1 / d) * (1 / n)) ≤ (2 : ℝ) ^ f.emax := by
    rw [eq]
    refine le_trans ?_ b8
    rw [ei, ← one_mul d, ← mul_assoc, mul_one]
    have : (i : ℝ) / (n * d) ≤ i / d := div_le_div_of_nonneg_left (by linarith) hd (le_mul_of_one_le_left hd.le hn')
    rw [one_mul]
    linarith
  have hY := Ap.mul hf hP hIs (hk _ (by norm_num)) b9 b10
  have h7 : ((1 + (0 + 1 + 1) + 1 + (0 + 1 + 1) + 1 : ℕ) : ℝ) = 7 := by norm_num
  have := hY.err hf (e := 8 * f.u) (by rw [eq]; positivity) (by rw [h7]; linarith) (by rw [h7]; nlinarith)
  rwa [eq] at this

/-- **C111** (the vector of bin frequencies): element `i` of a vector of fewer than `2 ^ 31` elements is the frequency of bin
`i` of a transform whose size is the number of elements. -/
theorem C111_rfftfreq_vec (out : List FVal) (v : FVal) (hl : out.length < 2 ^ 31) :
    rfftfreqVecI f out v = .ok (vec out.length fun i => rfftfreqI f out.length i v) := by
  have hc : (i32.conv (out.length : ℤ)).toNat = out.length := by
    rw [i32_conv]
    · simp
    constructor
    · show -(2 ^ 31 : ℤ) ≤ _
      have : (0 : ℤ) ≤ out.length := Int.natCast_nonneg _
      have h2 : (0 : ℤ) ≤ 2 ^ 31 := by positivity
      linarith
    · show _ ≤ (2 ^ 31 - 1 : ℤ)
      have : (out.length : ℤ) < 2 ^ 31 := by exact_mod_cast hl
      linarith
  unfold rfftfreqVecI
  simp only [hc]
  obtain ⟨g, hg⟩ : ∃ g, out = vec out.length g := ⟨_, eq_vec_getD out (.fin 0)⟩
  obtain ⟨n, hn⟩ : ∃ n, n = out.length := ⟨_, rfl⟩
  rw [← hn] at hg ⊢
  rw [hg]
  exact forN_map g (fun i _ => rfftfreqI f n i v) _ (fun i hi h _ => wr_vec_ok hi)

/-! ## Decibels -/

/-- What is assumed of `std::log10`: it does not decrease on positive values, and maps NaN to NaN. -/
structure LogOk (log10 : FVal → FVal) : Prop where
  mono : ∀ a b : FVal, (FVal.fin 0).Lt a → a.Le b → (log10 a).Le (log10 b)
  nan : log10 .nan = .nan

private theorem le_of_lt {a b : FVal} (h : a.Lt b) : a.Le b := by
  cases a <;> cases b <;> simp only [FVal.Lt, FVal.Le] at h ⊢ <;> first | exact h.le | tauto

private theorem le_of_not_lt {a b : FVal} (ha : a ≠ .nan) (hb : b ≠ .nan) (h : ¬ a.Lt b) : b.Le a := by
  cases a with
  | nan => exact absurd rfl ha
  | fin x =>
    cases b with
    | nan => exact absurd rfl hb
    | fin y => exact not_lt.1 h
    | inf t => cases t <;> simp_all [FVal.Lt, FVal.Le]
  | inf s =>
    cases b with
    | nan => exact absurd rfl hb
    | fin y => cases s <;> simp_all [FVal.Lt, FVal.Le]
    | inf t => cases s <;> cases t <;> simp_all [FVal.Lt, FVal.Le]

private theorem le_maxI {c : FVal} (hc : c ≠ .nan) (x : FVal) : c.Le (maxI c x) := by
  unfold maxI
  split
  · rename_i h; exact le_of_lt h
  · exact FVal.le_refl hc

private theorem maxI_mono {c x y : FVal} (hc : c ≠ .nan) (h : x.Le y) : (maxI c x).Le (maxI c y) := by
  by_cases h1 : c.Lt x
  · have h2 : c.Lt y := by
      by_contra h2
      have := h.trans (le_of_not_lt hc h.ne_nan.2 h2)
      cases c <;> cases x <;> simp only [FVal.Lt, FVal.Le] at h1 this <;> first | linarith | simp_all
    unfold maxI
    rw [if_pos h1, if_pos h2]
    exact h
  · have e : maxI c x = c := by unfold maxI; rw [if_neg h1]
    rw [e]
    exact le_maxI hc y

private theorem ofNat_const (hf : f.Ieee) {n : ℕ} (hn : 1 ≤ n) (ho : 2 * (n : ℝ) ≤ (2 : ℝ) ^ f.emax) :
    ∃ s, 0 < s ∧ ofNat f n = .fin s := by
  obtain ⟨s, h1, h2, -⟩ := ofNat_pos hf hn ho
  exact ⟨s, by linarith, h2⟩

/-- **C111** (decibels).  In any format with more than 40 as half its largest power, for every floor that is not NaN:
the result is never below the floor; a gain that is NaN gives the floor; a gain at most zero gives the floor; and the
result does not decrease with the gain, infinities included. -/
theorem C111_decibel (hf : f.Ieee) (ho : (40 : ℝ) ≤ (2 : ℝ) ^ f.emax) {log10 : FVal → FVal} (hl : LogOk log10) {floor : FVal}
    (h0 : floor ≠ .nan) :
    (∀ g, floor.Le (amplitudeToDbI f log10 g floor)) ∧ amplitudeToDbI f log10 .nan floor = floor ∧
    (∀ g, g.Le (.fin 0) → amplitudeToDbI f log10 g floor = floor) ∧
    ∀ a b : FVal, a.Le b → (amplitudeToDbI f log10 a floor).Le (amplitudeToDbI f log10 b floor) := by
  have hp : 1 ≤ f.p := by have := hf.1; omega
  obtain ⟨c, hc, ec⟩ := ofNat_const (f := f) hf (n := 20) (by norm_num) (by push_cast; linarith)
  have hge : ∀ g, floor.Le (amplitudeToDbI f log10 g floor) := fun g => by
    unfold amplitudeToDbI
    split
    · exact FVal.le_refl h0
    · exact le_maxI h0 _
  refine ⟨hge, ?_, fun g hg => by unfold amplitudeToDbI; rw [if_pos hg], fun a b hab => ?_⟩
  · unfold amplitudeToDbI
    rw [if_neg (by simp [FVal.Le]), hl.nan, ec]
    unfold maxI
    rw [if_neg]
    cases floor <;> simp [FVal.mul, Fmt.round, FVal.Lt]
  · by_cases ha : a.Le (.fin 0)
    · have : amplitudeToDbI f log10 a floor = floor := by unfold amplitudeToDbI; rw [if_pos ha]
      rw [this]
      exact hge b
    · have hb : ¬ b.Le (.fin 0) := fun h => ha (hab.trans h)
      have ha' : (FVal.fin 0).Lt a := by
        have := hab.ne_nan.1
        cases a <;> simp only [FVal.Lt, FVal.Le] at ha ⊢ <;> simp_all
      unfold amplitudeToDbI
      rw [if_neg ha, if_neg hb, ec]
      exact maxI_mono h0 (((hl.mono a b ha' hab).const_mul hc).round hp)

/-- **C111** (accuracy of decibels).  With a logarithm accurate to `κ` and of magnitude at most `L`, the result is within
`20 κ + 20 u L` of the larger of floor and `20 log10 gain`. -/
theorem C111_decibel_accuracy (hf : f.Ieee) (h5 : 5 ≤ f.p) (h6 : 6 ≤ f.emax) {log10 : FVal → FVal} {g l κ L F : ℝ}
    (hg : 0 < g) (hl : log10 (.fin g) = .fin l) (hκ : |l - Real.logb 10 g| ≤ κ) (hL : |l| ≤ L) (h1 : 1 ≤ L)
    (ho : (1 + f.u) * (20 * L) < (2 : ℝ) ^ f.emax) :
    ∃ y, amplitudeToDbI f log10 (.fin g) (.fin F) = .fin y ∧
      |y - max F (20 * Real.logb 10 g)| ≤ 20 * κ + 20 * f.u * L := by
  have hp : 1 ≤ f.p := by omega
  have h20 : ofNat f 20 = .fin 20 := by
    refine round_mem ⟨20, 0, ?_, ?_, by norm_num⟩ ?_
    · have : (2 : ℤ) ^ 5 ≤ 2 ^ f.p := pow_le_pow_right₀ (by norm_num) h5
      rw [abs_of_pos (by norm_num)]
      linarith
    · have := hf.2.2; omega
    · have : (2 : ℝ) ^ (6 : ℤ) ≤ (2 : ℝ) ^ f.emax := zpow_le_zpow_right₀ (by norm_num) h6
      norm_num at this ⊢
      linarith
  have hν := minNormal_le_one hf
  obtain ⟨z, ez, hz⟩ := round_ok hf (t := 20 * l) (T := 20 * L) (by rw [abs_mul]; norm_num; linarith) (by linarith) ho
  have e : amplitudeToDbI f log10 (.fin g) (.fin F) = .fin (max F z) := by
    unfold amplitudeToDbI
    rw [if_neg (by simp only [FVal.Le, not_le]; exact hg), hl, h20]
    simp only [FVal.mul, ez]
    unfold maxI
    by_cases h : F < z
    · rw [if_pos (show (FVal.fin F).Lt (.fin z) from h), max_eq_right h.le]
    · rw [if_neg (show ¬ (FVal.fin F).Lt (.fin z) from h), max_eq_left (not_lt.1 h)]
  refine ⟨_, e, ?_⟩
  rw [max_comm F, max_comm F]
  refine (abs_max_sub_max_le_abs z (20 * Real.logb 10 g) F).trans ?_
  have e2 : z - 20 * Real.logb 10 g = (z - 20 * l) + 20 * (l - Real.logb 10 g) := by ring
  rw [e2]
  refine (abs_add_le _ _).trans ?_
  rw [abs_mul, abs_of_pos (by norm_num : (0 : ℝ) < 20)]
  linarith

/-! ## Mel frequencies -/

/-- **C111** (mel).  `hertz_to_mel` does not decrease on frequencies from 0 to infinity, and `mel_to_hertz` does not
decrease, if the logarithm and the power do not. -/
theorem C111_mel (hf : f.Ieee) (ho : (5190 : ℝ) ≤ (2 : ℝ) ^ f.emax) {log10 pow10 : FVal → FVal} (hl : LogOk log10)
    (hw : ∀ a b : FVal, a.Le b → (pow10 a).Le (pow10 b)) :
    (∀ a b : FVal, (FVal.fin 0).Le a → a.Le b → (hertzToMelI f log10 a).Le (hertzToMelI f log10 b)) ∧
    ∀ a b : FVal, a.Le b → (melToHertzI f pow10 a).Le (melToHertzI f pow10 b) := by
  have hp : 1 ≤ f.p := by have := hf.1; omega
  obtain ⟨c, hc, ec⟩ := ofNat_const (f := f) hf (n := 2595) (by norm_num) (by push_cast; linarith)
  obtain ⟨d, hd, ed⟩ := ofNat_const (f := f) hf (n := 700) (by norm_num) (by push_cast; linarith)
  have h0 : f.round (.fin 0) = .fin 0 := round_mem (onGrid_zero f) (by rw [abs_zero]; exact two_zpow_pos _)
  have h8 := eight_le_emax hf
  have h1 : f.round (.fin 1) = .fin 1 := round_mem (one_onGrid hf) (by rw [abs_one]; linarith)
  refine ⟨fun a b h hab => ?_, fun a b hab => ?_⟩
  · unfold hertzToMelI
    rw [ec, ed]
    refine ((hl.mono _ _ ?_ ((((hab.div_const hd).round hp).const_add 1).round hp)).const_mul hc).round hp
    have := (((h.div_const hd).round hp).const_add 1).round hp
    have ed0 : (FVal.fin 0).div (.fin d) = .fin 0 := by simp [FVal.div, hd.ne']
    have e10 : (FVal.fin 1).add (.fin 0) = .fin 1 := by simp [FVal.add]
    rw [ed0, h0, e10, h1] at this
    generalize f.round ((FVal.fin 1).add (f.round (a.div (.fin d)))) = v at this ⊢
    cases v with
    | nan => simp [FVal.Le] at this
    | inf s => exact this
    | fin x => exact lt_of_lt_of_le one_pos this
  · unfold melToHertzI
    rw [ec, ed]
    exact ((((hw _ _ ((hab.div_const hc).round hp)).sub_const 1).round hp).const_mul hd).round hp

/-- **C111** (mel table).  The table of at least two and fewer than `2 ^ 31` frequencies starts with the frequency of the
lower limit converted to mel and back and does not decrease, as long as the difference of the limits in mel is finite. -/
theorem C111_mel_frequencies (hf : f.Ieee) (ho : (5190 : ℝ) ≤ (2 : ℝ) ^ f.emax) {log10 pow10 : FVal → FVal}
    (hl : LogOk log10) (hw : ∀ a b : FVal, a.Le b → (pow10 a).Le (pow10 b)) (out : List FVal) (h2 : 2 ≤ out.length)
    (hn : out.length < 2 ^ 31) (ho' : 2 * (out.length : ℝ) ≤ (2 : ℝ) ^ f.emax) {fmin fmax : FVal} {a b : ℝ}
    (h0 : (FVal.fin 0).Le fmin) (hle : fmin.Le fmax) (ha : hertzToMelI f log10 fmin = .fin a)
    (hb : hertzToMelI f log10 fmax = .fin b) (hd : 2 * (b - a) ≤ (2 : ℝ) ^ f.emax) :
    ∃ g : ℕ → FVal, melFrequenciesI f log10 pow10 out fmin fmax = .ok (vec out.length g) ∧
      g 0 = melToHertzI f pow10 (hertzToMelI f log10 fmin) ∧ ∀ i j, i ≤ j → j < out.length → (g i).Le (g j) := by
  have hp : 1 ≤ f.p := by have := hf.1; omega
  have hE := two_zpow_pos f.emax
  have h8 := eight_le_emax hf
  have hu := u_le hf
  have hν := minNormal_le_one hf
  have hm := C111_mel hf ho hl hw
  have hab : a ≤ b := by
    have := hm.1 _ _ h0 hle
    rwa [ha, hb] at this
  have hag := round_eq_fin hp (f := f) (by unfold hertzToMelI at ha; exact ha)
  have ez : f.round (.fin 0) = .fin 0 := round_mem (onGrid_zero f) (by rw [abs_zero]; exact two_zpow_pos _)
  obtain ⟨t, et, -⟩ := round_ok hf (t := b - a) (T := max (b - a) 1) (by
      rw [abs_of_nonneg (by linarith)]; exact le_max_left _ _) (hν.trans (le_max_right _ _)) (by
      rcases max_cases (b - a) 1 with ⟨h, -⟩ | ⟨h, -⟩
      · rw [h]; nlinarith
      · rw [h]; linarith)
  have ht : 0 ≤ t := by
    have : (f.round (.fin 0)).Le (f.round (.fin (b - a))) := FVal.Le.round hp (show (0 : ℝ) ≤ b - a by linarith)
    rwa [ez, et] at this
  have hcast : ∀ i, i < out.length → 2 * (i : ℝ) ≤ (2 : ℝ) ^ f.emax := fun i hi => by
    have : (i : ℝ) ≤ out.length := by exact_mod_cast hi.le
    linarith
  obtain ⟨m, hm1, em, -⟩ := ofNat_pos hf (n := out.length - 1) (by omega) (hcast _ (by omega))
  have htg := round_eq_fin hp et
  have hstep : ∃ s, 0 ≤ s ∧ f.round ((FVal.fin t).div (.fin m)) = .fin s := by
    have hle : t / m ≤ t := div_le_self ht hm1
    have h1 : f.rndInf (t / m) ≤ t := rndInf_le_grid hp htg.1 hle
    have h2 : 0 ≤ f.rndInf (t / m) := grid_le_rndInf hp (onGrid_zero f) (by positivity)
    refine ⟨_, h2, ?_⟩
    unfold FVal.div
    dsimp only
    rw [if_neg (by linarith)]
    refine round_fin_of_lt ?_
    rw [abs_of_nonneg h2]
    exact h1.trans_lt ((le_abs_self t).trans_lt htg.2)
  obtain ⟨s, hs, es⟩ := hstep
  have hi : ∀ i, i < out.length → ∃ c, 0 ≤ c ∧ ofNat f i = .fin c := fun i hi => by
    rcases Nat.eq_zero_or_pos i with rfl | hi0
    · exact ⟨0, le_rfl, ofNat_zero⟩
    · obtain ⟨c, h1, h2, -⟩ := ofNat_pos hf hi0 (hcast i hi)
      exact ⟨c, by linarith, h2⟩
  refine ⟨fun i => melToHertzI f pow10 (f.round ((FVal.fin a).add (f.round ((FVal.fin s).mul (ofNat f i))))), ?_, ?_,
    fun i j hij hj => ?_⟩
  · unfold melFrequenciesI
    rw [if_neg (by omega), if_neg (by omega), ha, hb]
    have esub : (FVal.fin b).sub (.fin a) = .fin (b - a) := by
      simp only [FVal.sub, FVal.neg, FVal.add, sub_eq_add_neg]
    simp only [esub, et, em, es]
    rw [forInt_eq hn]
    obtain ⟨g, hg⟩ : ∃ g, out = vec out.length g := ⟨_, eq_vec_getD out (.fin 0)⟩
    obtain ⟨n, hn⟩ : ∃ n, n = out.length := ⟨_, rfl⟩
    rw [← hn] at hg ⊢
    rw [hg]
    exact forN_map g (fun i _ => melToHertzI f pow10 (f.round ((FVal.fin a).add (f.round ((FVal.fin s).mul (ofNat f i))))))
      _ (fun i hi h _ => wr_vec_ok hi)
  · rw [ha]
    dsimp only
    rw [ofNat_zero]
    simp only [FVal.mul, mul_zero, ez, FVal.add, add_zero]
    rw [round_mem hag.1 hag.2]
  · refine hm.2 _ _ (FVal.Le.round hp (FVal.Le.const_add a (FVal.Le.round hp ?_)))
    obtain ⟨c, -, ec⟩ := hi i (by omega)
    obtain ⟨d, -, ed⟩ := hi j hj
    have := ofNat_mono hp hij
    rw [ec, ed] at this ⊢
    exact mul_le_mul_of_nonneg_left this hs

/-! ## Comparisons -/

private theorem closeI_iff {α : Type} (dist : α → α → FVal) (tol : FVal) (l r : α) :
    closeI dist tol l r = true ↔ (dist l r).Le tol := by
  classical
  unfold closeI
  exact decide_eq_true_iff

private theorem neg_mul_neg_self (a : FVal) : a.neg.mul a.neg = a.mul a := by
  cases a with
  | fin x => simp [FVal.neg, FVal.mul]
  | inf s => cases s <;> simp [FVal.neg, FVal.mul]
  | nan => rfl

private theorem round_neg' (v : FVal) : f.round v.neg = (f.round v).neg := by
  cases v with
  | nan => rfl
  | inf s => rfl
  | fin x =>
    unfold FVal.neg Fmt.round
    dsimp only
    rw [rndInf_neg, abs_neg]
    split
    · rfl
    · rename_i h
      have hn : f.rndInf x ≠ 0 := by
        intro h0
        rw [h0, abs_zero] at h
        exact h (two_zpow_pos _)
      dsimp only
      congr 1
      rcases lt_or_gt_of_ne hn with h | h
      · simp [h, h.le]
      · simp [h, h.le]

private theorem sub_comm_neg (l r : FVal) : l.sub r = (r.sub l).neg := by
  cases l with
  | nan => cases r <;> rfl
  | fin x =>
    cases r with
    | fin y => simp only [FVal.sub, FVal.neg, FVal.add]; congr 1; ring
    | inf s => simp [FVal.sub, FVal.neg, FVal.add]
    | nan => rfl
  | inf s =>
    cases r with
    | fin y => simp [FVal.sub, FVal.neg, FVal.add]
    | inf t => cases s <;> cases t <;> simp [FVal.sub, FVal.neg, FVal.add]
    | nan => rfl

private theorem abs_neg' (v : FVal) : v.neg.abs = v.abs := by
  cases v <;> simp [FVal.neg, FVal.abs]

private theorem distI_comm (l r : FVal) : distI f l r = distI f r l := by
  unfold distI
  rw [sub_comm_neg, round_neg', abs_neg']

private theorem scDist_comm (l r : IC f) : scAbsI f (l - r) = scAbsI f (r - l) := by
  have h1 : (l - r).re = ((r - l).re).neg := by
    show f.round (l.re.sub r.re) = (f.round (r.re.sub l.re)).neg
    rw [sub_comm_neg, round_neg']
  have h2 : (l - r).im = ((r - l).im).neg := by
    show f.round (l.im.sub r.im) = (f.round (r.im.sub l.im)).neg
    rw [sub_comm_neg, round_neg']
  unfold scAbsI
  rw [h1, h2, neg_mul_neg_self, neg_mul_neg_self]

/-- **C111** (comparison is symmetric).  Exchanging the operands of `allclose` does not change the result, for real numbers
and for `neo::scalar_complex`, infinities and NaN included and whatever the tolerance is. -/
theorem C111_allclose_symm (tol : FVal) :
    (∀ x y : List FVal, x.length < 2 ^ 31 → x.length = y.length →
      allcloseVecI (distI f) x y tol = allcloseVecI (distI f) y x tol) ∧
    ∀ x y : List (IC f), x.length < 2 ^ 31 → x.length = y.length →
      allcloseVecI (fun l r => scAbsI f (l - r)) x y tol = allcloseVecI (fun l r => scAbsI f (l - r)) y x tol := by
  have key : ∀ {α : Type} (dist : α → α → FVal), (∀ l r, dist l r = dist r l) → ∀ x y : List α, x.length < 2 ^ 31 →
      x.length = y.length → allcloseVecI dist x y tol = allcloseVecI dist y x tol := by
    intro α dist hs x y hx he
    have hc : ∀ l r, closeI dist tol l r = closeI dist tol r l := fun l r => by unfold closeI; rw [hs]
    obtain ⟨b, h1, h2⟩ := (C54_allmatch_vec (closeI dist tol) x y hx).1 he
    obtain ⟨c, h3, h4⟩ := (C54_allmatch_vec (closeI dist tol) y x (he ▸ hx)).1 he.symm
    unfold allcloseVecI
    rw [h1, h3]
    congr 1
    rw [Bool.eq_iff_iff, h2, h4]
    exact ⟨fun h i u w hu hw => hc w u ▸ h i w u hw hu, fun h i u w hu hw => hc w u ▸ h i w u hw hu⟩
  exact ⟨key _ distI_comm, key _ scDist_comm⟩

/-- **C111** (when a vector is close to itself): exactly if it holds no infinity and no NaN. -/
theorem C111_allclose_refl (x : List FVal) (hx : x.length < 2 ^ 31) {t : ℝ} (ht : 0 ≤ t) :
    ∃ b, allcloseVecI (distI f) x x (.fin t) = .ok b ∧ (b = true ↔ ∀ v ∈ x, ∃ r, v = .fin r) := by
  obtain ⟨b, h1, h2⟩ := (C54_allmatch_vec (closeI (distI f) (.fin t)) x x hx).1 rfl
  refine ⟨b, h1, ?_⟩
  have ez : f.round (.fin 0) = .fin 0 := round_mem (onGrid_zero f) (by rw [abs_zero]; exact two_zpow_pos _)
  have hone : ∀ v, closeI (distI f) (.fin t) v v = true ↔ ∃ r, v = .fin r := fun v => by
    rw [closeI_iff]
    unfold distI
    cases v with
    | nan => simp [FVal.sub, FVal.neg, FVal.add, Fmt.round, FVal.abs, FVal.Le]
    | inf s => cases s <;> simp [FVal.sub, FVal.neg, FVal.add, Fmt.round, FVal.abs, FVal.Le]
    | fin r =>
      simp only [FVal.sub, FVal.neg, FVal.add, add_neg_cancel, ez, FVal.abs, abs_zero, FVal.Le]
      exact ⟨fun _ => ⟨r, rfl⟩, fun _ => ht⟩
  rw [h2]
  constructor
  · intro h v hv
    obtain ⟨i, hi⟩ := List.mem_iff_getElem?.1 hv
    exact (hone v).1 (h i v v hi hi)
  · intro h i u w hu hw
    rw [hu] at hw
    injection hw with hw
    subst hw
    exact (hone u).2 (h u (List.mem_of_getElem? hu))

private theorem sub_onGrid (hp : 1 ≤ f.p) {x y : ℝ} (hx : f.OnGrid x) (hy : f.OnGrid y) (h : |x - y| < f.minNormal) :
    f.OnGrid (x - y) := by
  obtain ⟨m, k, -, hk, rfl⟩ := hx
  obtain ⟨n, l, -, hl, rfl⟩ := hy
  obtain ⟨a, ha⟩ := Int.le.dest hk
  obtain ⟨b, hb⟩ := Int.le.dest hl
  have e1 : (2 : ℝ) ^ k = 2 ^ a * (2 : ℝ) ^ f.emin := by rw [← ha, zpow_add₀ (by norm_num), zpow_natCast, mul_comm]
  have e2 : (2 : ℝ) ^ l = 2 ^ b * (2 : ℝ) ^ f.emin := by rw [← hb, zpow_add₀ (by norm_num), zpow_natCast, mul_comm]
  have e3 : (m : ℝ) * (2 : ℝ) ^ k - n * (2 : ℝ) ^ l = ((m * 2 ^ a - n * 2 ^ b : ℤ) : ℝ) * (2 : ℝ) ^ f.emin := by
    rw [e1, e2]; push_cast; ring
  rw [e3] at h ⊢
  refine ⟨_, f.emin, ?_, le_rfl, rfl⟩
  have hE := two_zpow_pos f.emin
  rw [abs_mul, abs_of_pos hE] at h
  have e4 : f.minNormal = 2 ^ (f.p - 1) * (2 : ℝ) ^ f.emin := by
    unfold Fmt.minNormal
    rw [← zpow_natCast, ← zpow_add₀ (by norm_num)]
    congr 1
    omega
  rw [e4] at h
  have := lt_of_mul_lt_mul_right h hE.le
  have h' : |(m * 2 ^ a - n * 2 ^ b : ℤ)| < 2 ^ (f.p - 1) := by exact_mod_cast this
  exact h'.trans_le (pow_le_pow_right₀ (by norm_num) (by omega))

/-- **C111** (what closeness says about real numbers).  For finite numbers `l` and `r` and tolerance `t` of the format:
numbers within the tolerance are always found close; numbers found close are within `t / (1 - u)`.  In particular with
tolerance 0 exactly equal numbers are close. -/
theorem C111_close (hf : f.Ieee) {l r t : ℝ} (hl : f.Mem (.fin l)) (hr : f.Mem (.fin r)) (ht : f.Mem (.fin t)) :
    (|l - r| ≤ t → closeI (distI f) (.fin t) (.fin l) (.fin r) = true) ∧
    (closeI (distI f) (.fin t) (.fin l) (.fin r) = true → |l - r| * (1 - f.u) ≤ t) ∧
    (t = 0 → (closeI (distI f) (.fin t) (.fin l) (.fin r) = true ↔ l = r)) := by
  have hp : 1 ≤ f.p := by have := hf.1; omega
  have hu := u_le hf
  have hu0 := u_pos f
  have esub : (FVal.fin l).sub (.fin r) = .fin (l - r) := by
    simp only [FVal.sub, FVal.neg, FVal.add, sub_eq_add_neg]
  have hA : |l - r| ≤ t → closeI (distI f) (.fin t) (.fin l) (.fin r) = true := fun h => by
    have h1 : |f.rndInf (l - r)| ≤ t := by
      rw [rndInf_abs f hp]
      exact rndInf_le_grid hp ht.1 h
    rw [closeI_iff]
    unfold distI
    rw [esub, round_fin_of_lt (lt_of_le_of_lt (h1.trans (le_abs_self t)) ht.2)]
    exact h1
  have hB : closeI (distI f) (.fin t) (.fin l) (.fin r) = true → |l - r| * (1 - f.u) ≤ t := fun h => by
    rw [closeI_iff] at h
    unfold distI at h
    rw [esub] at h
    have h1 : |f.rndInf (l - r)| ≤ t := by
      unfold Fmt.round at h
      dsimp only at h
      split at h
      · exact h
      · simp [FVal.abs, FVal.Le] at h
    rcases lt_or_ge (|l - r|) f.minNormal with hs | hs
    · rw [rndInf_exact (sub_onGrid hp hl.1 hr.1 hs)] at h1
      have := abs_nonneg (l - r)
      nlinarith
    · have := rndInf_abs_err hf (le_refl |l - r|) hs
      have h3 := abs_sub_abs_le_abs_sub (l - r) (f.rndInf (l - r))
      rw [abs_sub_comm (l - r) (f.rndInf (l - r))] at h3
      linarith
  refine ⟨hA, hB, fun h0 => ⟨fun h => ?_, fun h => hA (by rw [h, sub_self, abs_zero, h0])⟩⟩
  have := hB h
  rw [h0] at this
  have hn := abs_nonneg (l - r)
  have : |l - r| = 0 := by nlinarith
  rw [abs_eq_zero] at this
  linarith

private theorem rndInf_tiny {x : ℝ} (h : |x| < (2 : ℝ) ^ f.emin / 2) : f.rndInf x = 0 := by
  have := rndInf_of_near (f := f) (x := x) (n := 0) (by
    rw [Int.cast_zero, zero_mul, sub_zero]
    refine h.trans_le ?_
    have : (2 : ℝ) ^ f.emin ≤ (2 : ℝ) ^ f.ulpExp x := zpow_le_zpow_right₀ (by norm_num) (le_max_left _ _)
    linarith)
  rw [this, Int.cast_zero, zero_mul]

/-- **C111** (`neo::scalar_complex` compares squares).  Two complex numbers whose parts differ by less than the square root
of half the smallest subnormal number are close to each other with tolerance zero, although they differ: the squares
underflow.  With float, `2⁻¹⁰⁰` and `0` are an example. -/
theorem C111_complex_close {a b : ℝ} (hg : f.OnGrid a) (hb : f.OnGrid b) (ha1 : |a| < (2 : ℝ) ^ f.emax)
    (hb1 : |b| < (2 : ℝ) ^ f.emax) (ha : a ^ 2 < (2 : ℝ) ^ f.emin / 2) (hb2 : b ^ 2 < (2 : ℝ) ^ f.emin / 2) :
    closeI (fun l r => scAbsI f (l - r)) (.fin 0) (⟨.fin a, .fin b⟩ : IC f) ⟨.fin 0, .fin 0⟩ = true := by
  have ez : ∀ g : Fmt, g.round (.fin 0) = .fin 0 := fun g =>
    round_mem (onGrid_zero g) (by rw [abs_zero]; exact two_zpow_pos _)
  have hsq : ∀ x : ℝ, x ^ 2 < (2 : ℝ) ^ f.emin / 2 → f.round ((FVal.fin x).mul (.fin x)) = .fin 0 := fun x hx => by
    unfold FVal.mul
    dsimp only
    have : f.rndInf (x * x) = 0 := rndInf_tiny (by rw [abs_mul_self, ← sq]; exact hx)
    rw [round_fin_of_lt (by rw [this, abs_zero]; exact two_zpow_pos _), this]
  have er : ((⟨.fin a, .fin b⟩ : IC f) - ⟨.fin 0, .fin 0⟩) = ⟨.fin a, .fin b⟩ := by
    show (⟨f.round ((FVal.fin a).sub (.fin 0)), f.round ((FVal.fin b).sub (.fin 0))⟩ : IC f) = _
    simp only [FVal.sub, FVal.neg, FVal.add, neg_zero, add_zero]
    rw [round_mem hg ha1, round_mem hb hb1]
  rw [closeI_iff]
  beta_reduce
  rw [er]
  unfold scAbsI
  simp only [hsq a ha, hsq b hb2, FVal.add, add_zero, ez, FVal.sqrt, lt_irrefl, if_false, Real.sqrt_zero]
  split <;> exact le_rfl

/-! ## The hypotheses are met -/

/-- The correctly rounded logarithm. -/
noncomputable def log10R (f : Fmt) : FVal → FVal
  | .fin x => if 0 < x then f.round (.fin (Real.logb 10 x)) else .nan
  | .inf false => .inf false
  | _ => .nan

theorem log10R_ok (hp : 1 ≤ f.p) : LogOk (log10R f) := by
  refine ⟨fun a b ha hab => ?_, rfl⟩
  cases a with
  | nan => exact absurd ha (by simp [FVal.Lt])
  | inf s =>
    cases s with
    | true => exact absurd ha (by simp [FVal.Lt])
    | false =>
      cases b with
      | nan => exact absurd hab (by simp [FVal.Le])
      | fin y => exact absurd hab (by simp [FVal.Le])
      | inf t => cases t <;> simp [FVal.Le, log10R] at hab ⊢
  | fin x =>
    have hx : 0 < x := ha
    have e : log10R f (.fin x) = f.round (.fin (Real.logb 10 x)) := if_pos hx
    rw [e]
    cases b with
    | nan => exact absurd hab (by simp [FVal.Le])
    | fin y =>
      have hy : x ≤ y := hab
      rw [show log10R f (.fin y) = f.round (.fin (Real.logb 10 y)) from if_pos (hx.trans_le hy)]
      exact Spec.FVal.Le.round (a := .fin _) (b := .fin _) hp (show Real.logb 10 x ≤ Real.logb 10 y from
        (Real.logb_le_logb (by norm_num) hx (hx.trans_le hy)).2 hy)
    | inf t =>
      have ht : t = false := hab
      subst ht
      exact Spec.FVal.Le.round (a := .fin (Real.logb 10 x)) (b := .inf false) hp rfl

/-- The correctly rounded power of ten. -/
noncomputable def pow10R (f : Fmt) : FVal → FVal
  | .fin x => f.round (.fin ((10 : ℝ) ^ x))
  | .inf false => .inf false
  | .inf true => .fin 0
  | .nan => .nan

theorem pow10R_mono (hp : 1 ≤ f.p) (a b : FVal) (h : a.Le b) : (pow10R f a).Le (pow10R f b) := by
  have h0 : f.round (.fin 0) = .fin 0 := round_mem (onGrid_zero f) (by rw [abs_zero]; exact two_zpow_pos _)
  cases a with
  | nan => exact absurd h (by simp [FVal.Le])
  | fin x =>
    cases b with
    | nan => exact absurd h (by simp [FVal.Le])
    | fin y =>
      exact Spec.FVal.Le.round (a := .fin _) (b := .fin _) hp (show (10 : ℝ) ^ x ≤ (10 : ℝ) ^ y from
        Real.rpow_le_rpow_of_exponent_le (by norm_num) h)
    | inf t =>
      have ht : t = false := h
      subst ht
      exact Spec.FVal.Le.round (a := .fin ((10 : ℝ) ^ x)) (b := .inf false) hp rfl
  | inf s =>
    cases b with
    | nan => cases s <;> exact absurd h (by simp [FVal.Le])
    | fin y =>
      have hs : s = true := h
      subst hs
      have := Spec.FVal.Le.round (f := f) (a := .fin 0) (b := .fin ((10 : ℝ) ^ y)) hp
        (show (0 : ℝ) ≤ (10 : ℝ) ^ y by positivity)
      rw [h0] at this
      exact this
    | inf t => cases s <;> cases t <;> simp [FVal.Le, pow10R] at h ⊢

private theorem ieee32 : binary32.Ieee := by unfold Fmt.Ieee binary32; norm_num

private theorem emax32 : (2 : ℝ) ^ (20 : ℤ) ≤ (2 : ℝ) ^ binary32.emax :=
  zpow_le_zpow_right₀ (by norm_num) (by norm_num [binary32])

/-- The decibel functions in single precision with a correctly rounded logarithm. -/
example : amplitudeToDbI binary32 (log10R binary32) .nan (.fin (-144)) = .fin (-144) :=
  (C111_decibel ieee32 (by have := emax32; norm_num at this ⊢; linarith) (log10R_ok (by norm_num [binary32]))
    (floor := .fin (-144)) (by simp)).2.1

/-- The mel functions in single precision with a correctly rounded logarithm and power. -/
example : (hertzToMelI binary32 (log10R binary32) (.fin 440)).Le (hertzToMelI binary32 (log10R binary32) (.fin 441)) :=
  (C111_mel ieee32 (by have := emax32; norm_num at this ⊢; linarith) (log10R_ok (by norm_num [binary32]))
    (pow10R_mono (f := binary32) (by norm_num [binary32]))).1 _ _ (show (0 : ℝ) ≤ 440 by norm_num) (show (440 : ℝ) ≤ 441 by norm_num)

/-- The bins of a transform of 1024 points at 44100 Hz in double precision: the hypotheses of the accuracy are met. -/
example : ∃ y, rfftfreqI binary64 1024 100 (.fin (1 / 44100)) = .fin y ∧
    |y - (100 : ℕ) / ((1024 : ℕ) * (1 / 44100))| ≤ 8 * binary64.u * ((100 : ℕ) / ((1024 : ℕ) * (1 / 44100))) := by
  have hE : (2 : ℝ) ^ (40 : ℤ) ≤ (2 : ℝ) ^ binary64.emax := zpow_le_zpow_right₀ (by norm_num) (by norm_num [binary64])
  have hν : binary64.minNormal ≤ (2 : ℝ) ^ (-40 : ℤ) := zpow_le_zpow_right₀ (by norm_num) (by norm_num [binary64])
  norm_num at hE hν
  refine C111_rfftfreq_accuracy binary64_ieee (by rw [u_binary64]; norm_num) (by norm_num) (by norm_num) (by norm_num) ?_ ?_ ?_
  · push_cast; linarith
  · push_cast; linarith
  · push_cast; linarith

/-- Two values that differ and are close with tolerance 0: `2 ^ (-100)` and 0 in single precision. -/
example : closeI (fun l r => scAbsI binary32 (l - r)) (.fin 0) (⟨.fin ((2 : ℝ) ^ (-100 : ℤ)), .fin 0⟩ : IC binary32)
    ⟨.fin 0, .fin 0⟩ = true := by
  refine C111_complex_close (two_zpow_onGrid (by norm_num [binary32]) (by norm_num [binary32])) (onGrid_zero _) ?_ ?_ ?_ ?_
  · rw [abs_of_pos (two_zpow_pos _)]
    exact zpow_lt_zpow_right₀ (by norm_num) (by norm_num [binary32])
  · rw [abs_zero]
    exact two_zpow_pos _
  · show ((2 : ℝ) ^ (-100 : ℤ)) ^ 2 < (2 : ℝ) ^ (-149 : ℤ) / 2
    norm_num
  · have := two_zpow_pos binary32.emin
    rw [zero_pow (by norm_num)]
    linarith

/-- A list with an infinity is not close to itself. -/
example : ∃ b, allcloseVecI (distI binary32) [.fin 1, .inf true] [.fin 1, .inf true] (.fin 1) = .ok b ∧ b = false := by
  obtain ⟨b, h1, h2⟩ := C111_allclose_refl (f := binary32) [.fin 1, .inf true] (by norm_num) (t := 1) (by norm_num)
  refine ⟨b, h1, ?_⟩
  cases b
  · rfl
  · have := h2.1 rfl (.inf true) (by simp)
    simp at this

end Neo.Props
