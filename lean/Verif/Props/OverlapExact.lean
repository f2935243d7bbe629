import Verif.Props.Overlap

/-!
# Exactly which sizes `overlap_add` and `overlap_save` stream: C21, C22

The positive theorems of `Props/Overlap.lean` are complemented by counterexamples for *every* other
pair of sizes, which gives equivalences.
-/

namespace Neo.Props

open Finset

/-- A unit impulse at `q`. -/
def unitAt (q k : ℕ) : ℝ := if k = q then 1 else 0

theorem circConv_unit {K q p n : ℕ} (hq : q < K) (hp : p < K) (hn : n < K) :
    Spec.circConv K (unitAt q) (unitAt p) n = unitAt ((q + p) % K) n := by
  unfold Spec.circConv
  rw [sum_eq_single q]
  · have e : unitAt q q = 1 := by simp [unitAt]
    rw [e, one_mul]
    unfold unitAt
    have : (n + K - q) % K = p ↔ n = (q + p) % K := by
      by_cases c : q ≤ n
      · rw [show n + K - q = (n - q) + K by omega, Nat.add_mod_right, Nat.mod_eq_of_lt (by omega)]
        by_cases d : q + p < K
        · rw [Nat.mod_eq_of_lt d]; omega
        · rw [Nat.mod_eq_sub_mod (by omega), Nat.mod_eq_of_lt (by omega)]; omega
      · rw [Nat.mod_eq_of_lt (show n + K - q < K by omega)]
        by_cases d : q + p < K
        · rw [Nat.mod_eq_of_lt d]; omega
        · rw [Nat.mod_eq_sub_mod (by omega), Nat.mod_eq_of_lt (by omega)]; omega
    by_cases c : n = (q + p) % K
    · rw [if_pos (this.2 c), if_pos c]
    · rw [if_neg (fun h => c (this.1 h)), if_neg c]
  · intro j _ hj
    unfold unitAt; rw [if_neg hj, zero_mul]
  · intro h; exact absurd (mem_range.2 hq) h

theorem circConv_zero_left {K : ℕ} (h : ℕ → ℝ) (n : ℕ) : Spec.circConv K (fun _ => 0) h n = 0 := by
  unfold Spec.circConv
  exact sum_eq_zero fun _ _ => zero_mul _

theorem getD_unit {F p : ℕ} (hp : p < F) (i : ℕ) : (vec F (unitAt p)).getD i 0 = unitAt p i := by
  by_cases c : i < F
  · rw [List.getD_eq_getElem?_getD, getElem?_vec, if_pos c]; rfl
  · rw [List.getD_eq_getElem?_getD, List.getElem?_eq_none (by rw [length_vec]; omega)]
    unfold unitAt
    rw [if_neg (by omega)]; rfl

/-! ## C21 -/

/-- **C21** fails for **every** block size `B ≥ 1` and filter length `F ≥ B + 2`: with the filter that
delays by `B + 1` samples (a single tap at index `B + 1`), the last sample of the first block never
arrives at its place, the first sample of the third block. -/
theorem C21_every_long_filter_fails (B F : ℕ) (hB : 1 ≤ B) (hF : B + 2 ≤ F)
    (hsize : B + F - 1 ≤ 2 ^ 27) :
    ∃ h : List ℝ, h.length = F ∧ ∃ blocks : List (List ℝ), (∀ b ∈ blocks, b.length = B) ∧
      ∃ o, OverlapAdd.make B F = .ok o ∧ ∃ s' outs,
        runBlocks (oaProc (halfSpectrum o.rfft.size h)) o blocks = .ok (s', outs) ∧
        2 * B < blocks.flatten.length ∧ outs.flatten[2 * B]? = some 0 ∧
        Spec.conv (fun i => h.getD i 0) (fun i => blocks.flatten.getD i 0) (2 * B) = 1 := by
  have hb : Nat.clog 2 (B + F - 1) ≤ 27 := (Nat.clog_le_iff_le_pow (by norm_num)).2 hsize
  have hcl := Nat.le_pow_clog (b := 2) (by norm_num) (B + F - 1)
  refine ⟨vec F (unitAt (B + 1)), length_vec _ _,
    [vec B (unitAt (B - 1)), vec B (fun _ => 0), vec B (fun _ => 0)], ?_, _,
    overlapAdd_make_eq hb, ?_⟩
  · intro b hb
    simp only [List.mem_cons, List.not_mem_nil, or_false] at hb
    rcases hb with rfl | rfl | rfl <;> exact length_vec _ _
  generalize Nat.clog 2 (B + F - 1) = b at *
  have hb2 : 2 ≤ b := by
    rcases b with _ | _ | b
    · omega
    · omega
    · omega
  have hK : 2 * B + 2 ≤ 2 ^ b := by
    obtain ⟨c, rfl⟩ : ∃ c, b = c + 1 := ⟨b - 1, by omega⟩
    rw [pow_succ] at hcl ⊢; omega
  have hn : ¬ 2 ^ b ∣ 4 * B + 2 := by
    intro h
    have h4 : 2 ^ 2 ∣ 4 * B + 2 := (pow_dvd_pow 2 hb2).trans h
    omega
  have hsz : (oaOf B F b (fun _ => 0) (fun _ => 0) (fun _ => 0) (fun _ => 0)).rfft.size = 2 ^ b :=
    rfftPlanOf_size _ _
  have hh : (fun i => (((vec F (unitAt (B + 1))).getD i 0 : ℝ) : ℂ))
      = fun i => ((unitAt (B + 1) i : ℝ) : ℂ) := by
    funext i; rw [getD_unit (by omega)]
  rw [hsz, halfSpectrum_eq, hh]
  -- first block: impulse at `B - 1`
  obtain ⟨f1, sp1, e1⟩ := oaProc_step (B := B) (F := F) (b := b) (by omega) (by omega) (fun _ => 0)
    (fun _ => 0) (fun _ => 0) (fun _ => 0) (unitAt (B - 1)) (unitAt (B - 1)) (unitAt (B + 1)) (by
      intro k hk
      unfold oaWindow
      by_cases c : k < B
      · rw [if_pos c]
      · rw [if_neg c]; unfold unitAt; rw [if_neg (show ¬ k = B - 1 by omega)]; simp)
  -- second block: silence, the impulse is left at `2 B`
  obtain ⟨f2, sp2, e2⟩ := oaProc_step (B := B) (F := F) (b := b) (by omega) (by omega) f1
    (fun n => Spec.circConv (2 ^ b) (unitAt (B - 1)) (unitAt (B + 1)) n) sp1
    (fun i => Spec.circConv (2 ^ b) (unitAt (B - 1)) (unitAt (B + 1)) (B + i)) (fun _ => 0)
    (unitAt (2 * B)) (unitAt (B + 1)) (by
      intro k hk
      unfold oaWindow
      by_cases c : k < B * 2
      · have : unitAt (2 * B) k = 0 := by unfold unitAt; rw [if_neg (by omega)]
        rw [this, if_pos c]; simp
      · rw [if_neg (by omega), if_neg c]
        beta_reduce
        rw [circConv_unit (by omega) (by omega) hk,
          Nat.mod_eq_of_lt (by omega), show B - 1 + (B + 1) = 2 * B by omega])
  -- third block: nothing arrives at its first sample
  set q := (2 * B + (B + 1)) % 2 ^ b with hq
  have hqlt : q < 2 ^ b := Nat.mod_lt _ (by positivity)
  have hq' : q < B ∨ B * 2 ≤ q := by
    by_cases c : 2 * B + (B + 1) < 2 ^ b
    · rw [hq, Nat.mod_eq_of_lt c]; omega
    · rw [hq, Nat.mod_eq_sub_mod (by omega), Nat.mod_eq_of_lt (by omega)]; omega
  obtain ⟨g, hgw, hg0⟩ : ∃ g : ℕ → ℝ, (∀ k < 2 ^ b, oaWindow B (fun _ => 0)
      (fun n => Spec.circConv (2 ^ b) (unitAt (2 * B)) (unitAt (B + 1)) n) k = g k) ∧
      Spec.circConv (2 ^ b) g (unitAt (B + 1)) 0 = 0 := by
    rcases hq' with c | c
    · refine ⟨fun _ => 0, fun k hk => ?_, circConv_zero_left _ _⟩
      unfold oaWindow
      by_cases d : k < B * 2
      · rw [if_pos d]; simp
      · rw [if_neg (by omega), if_neg d]
        beta_reduce
        rw [circConv_unit (by omega) (by omega) hk, ← hq]
        unfold unitAt; rw [if_neg (by omega)]
    · refine ⟨unitAt q, fun k hk => ?_, ?_⟩
      · unfold oaWindow
        by_cases d : k < B * 2
        · rw [if_pos d]; unfold unitAt; rw [if_neg (show ¬ k = q by omega)]; simp
        · rw [if_neg (by omega), if_neg d]
          beta_reduce
          rw [circConv_unit (by omega) (by omega) hk]
      · rw [circConv_unit hqlt (by omega) (by positivity), hq, Nat.mod_add_mod]
        unfold unitAt
        rw [if_neg]
        intro h0
        exact hn ⟨(2 * B + (B + 1) + (B + 1)) / 2 ^ b, by
          have := Nat.div_add_mod (2 * B + (B + 1) + (B + 1)) (2 ^ b)
          omega⟩
  obtain ⟨f3, sp3, e3⟩ := oaProc_step (B := B) (F := F) (b := b) (by omega) (by omega) f2
    (fun n => Spec.circConv (2 ^ b) (unitAt (2 * B)) (unitAt (B + 1)) n) sp2
    (fun i => Spec.circConv (2 ^ b) (unitAt (2 * B)) (unitAt (B + 1)) (B + i)) (fun _ => 0)
    g (unitAt (B + 1)) hgw
  refine ⟨_, _, by simp only [runBlocks, e1, e2, e3, bind_ok, pure_eq_ok]; rfl, ?_, ?_, ?_⟩
  · simp only [List.flatten_cons, List.flatten_nil, List.length_append, length_vec, List.length_nil]
    omega
  · simp only [List.flatten_cons, List.flatten_nil, List.append_nil]
    rw [List.getElem?_append_right (by rw [length_vec]; omega), length_vec,
      List.getElem?_append_right (by rw [length_vec]; omega), length_vec,
      show 2 * B - B - B = 0 by omega, getElem?_vec, if_pos (by omega), hg0,
      circConv_unit (by omega) (by omega) (by omega)]
    unfold unitAt
    rw [if_neg (by rw [← hq]; omega), add_zero]
  · have hx : ∀ i, ([vec B (unitAt (B - 1)), vec B (fun _ => 0), vec B (fun _ => 0)] :
        List (List ℝ)).flatten.getD i 0 = unitAt (B - 1) i := by
      intro i
      simp only [List.flatten_cons, List.flatten_nil, List.append_nil]
      by_cases c : i < B
      · rw [List.getD_eq_getElem?_getD, List.getElem?_append_left (by rw [length_vec]; omega),
          getElem?_vec, if_pos c]; rfl
      · have h0 : unitAt (B - 1) i = 0 := by unfold unitAt; rw [if_neg (by omega)]
        rw [h0, List.getD_eq_getElem?_getD, List.getElem?_append_right (by rw [length_vec]; omega),
          length_vec]
        by_cases d : i - B < B
        · rw [List.getElem?_append_left (by rw [length_vec]; omega), getElem?_vec, if_pos d]; rfl
        · rw [List.getElem?_append_right (by rw [length_vec]; omega), length_vec]
          by_cases d' : i - B - B < B
          · rw [getElem?_vec, if_pos d']; rfl
          · rw [List.getElem?_eq_none (by rw [length_vec]; omega)]; rfl
    unfold Spec.conv
    rw [sum_eq_single (B + 1)]
    · beta_reduce
      rw [hx, getD_unit (by omega), show 2 * B - (B + 1) = B - 1 by omega]
      simp [unitAt]
    · intro j _ hj
      beta_reduce
      rw [getD_unit (by omega)]; unfold unitAt; rw [if_neg hj, zero_mul]
    · intro hj; exact absurd (mem_range.2 (by omega)) hj

example : (1 : ℕ) ≤ 3 ∧ 3 + 2 ≤ 7 ∧ 3 + 7 - 1 ≤ 2 ^ 27 := by decide

/-- **C21**, exactly: for every block size `B ≥ 1` and filter length, `overlap_add{B, F}` streams the
linear convolution with every `F`-tap filter for every history of blocks **if and only if**
`F ≤ B + 1` and its transform of size `bit_ceil(B + F - 1)` holds two blocks. -/
theorem C21_exact_sizes (B F : ℕ) (hB : 1 ≤ B) (hsize : B + F - 1 ≤ 2 ^ 27) :
    (∀ h : List ℝ, h.length = F → ∀ blocks : List (List ℝ), (∀ b ∈ blocks, b.length = B) →
      ∃ o, OverlapAdd.make B F = .ok o ∧
        StreamsConv (oaProc (halfSpectrum o.rfft.size h)) o blocks (fun i => h.getD i 0))
    ↔ F ≤ B + 1 ∧ 2 * B ≤ 2 ^ Nat.clog 2 (B + F - 1) := by
  constructor
  · intro H
    constructor
    · by_contra hF
      obtain ⟨h, hh, blocks, hlen, o, ho, s', outs, e, hl, e0, e1⟩ :=
        C21_every_long_filter_fails B F hB (by omega) hsize
      obtain ⟨o', ho', s'', outs', e', -, hv⟩ := H h hh blocks hlen
      rw [ho] at ho'
      injection ho' with ho'
      subst ho'
      rw [e] at e'
      injection e' with e'
      injection e' with _ e'
      subst e'
      have := hv _ hl
      rw [e0, e1] at this
      simp at this
    · by_contra hK
      obtain ⟨o, ho, s', outs, e, -⟩ := H (vec F fun _ => 0) (length_vec _ _) [vec B fun _ => 0]
        (by simp [length_vec])
      obtain ⟨o', ho', e'⟩ := C21_short_transform_oob B F (by omega) hsize
        (halfSpectrum o.rfft.size (vec F fun _ => 0)) (vec B fun _ => 0) (length_vec _ _)
      rw [ho] at ho'
      injection ho' with ho'
      subst ho'
      simp only [runBlocks, e', bind_error] at e
      cases e
  · rintro ⟨h1, h2⟩ h hh blocks hlen
    exact C21_overlap_add_partial B F hB h1 h2 hsize h hh blocks hlen

/-! ## C22 -/

/-- **C22** for one tap: the block size need not divide the transform size. -/
theorem C22_one_tap (B : ℕ) (hB : 2 ≤ B) (hsize : B ≤ 2 ^ 27)
    (h : List ℝ) (hh : h.length = 1) (blocks : List (List ℝ)) (hlen : ∀ b ∈ blocks, b.length = B) :
    ∃ o, OverlapSave.make B 1 = .ok o ∧
      StreamsConv (osProc (halfSpectrum o.plan.size h)) o blocks (fun i => h.getD i 0) := by
  have hb : Nat.clog 2 (B + 1 - 1) ≤ 27 := (Nat.clog_le_iff_le_pow (by norm_num)).2 (by omega)
  refine ⟨_, overlapSave_make_eq hb, ?_⟩
  have hcl := Nat.le_pow_clog (b := 2) (by norm_num) (B + 1 - 1)
  have hb1 : 1 ≤ Nat.clog 2 (B + 1 - 1) := Nat.clog_pos (by norm_num) (by omega)
  generalize Nat.clog 2 (B + 1 - 1) = b at *
  have hsz : (osOf B 1 b (fun _ => 0) (fun _ => 0) (fun _ => 0) (fun _ => 0)).plan.size = 2 ^ b :=
    rfftPlanOf_size _ _
  rw [hsz, halfSpectrum_eq]
  have hz : ∀ m, 1 ≤ m → h.getD m 0 = 0 := fun m hm => getD_zero_of_le hh.le hm
  refine streamsConv_of_inv hlen (fun x t o => ∃ f w rb cbuf, o = osOf B 1 b f w rb cbuf)
    (fun x => ⟨_, _, _, _, rfl⟩) ?_
  rintro x t _ ⟨f, w, rb, cbuf, rfl⟩
  obtain ⟨f', rb', cbuf', e⟩ := osProc_step (B := B) (F := 1) hb1 (by omega) (by omega) f w rb cbuf
    (fun i => x (t * B + i)) _ (fun i => h.getD i 0) (fun k _ => rfl)
  suffices hout : (vec B fun i => Spec.circConv (2 ^ b)
        (osWindow (2 ^ b) B (fun i => x (t * B + i)) w) (fun i => h.getD i 0) (2 ^ b - B + i))
      = vec B (fun i => Spec.conv (fun i => h.getD i 0) x (t * B + i)) by
    rw [hout] at e
    exact ⟨_, e, f', _, rb', cbuf', rfl⟩
  apply vec_ext
  intro i hi
  rw [circConv_no_wrap (Q := 1) (by omega) (by omega) hz, conv_support hz]
  apply sum_congr rfl
  intro m hm
  rw [mem_range] at hm
  obtain rfl : m = 0 := by omega
  rw [if_pos (by omega)]
  unfold osWindow
  rw [if_pos (by omega), show 2 ^ b - B + i - 0 - (2 ^ b - B) = i by omega, Nat.sub_zero]

/-- **C22** fails for **every** block size that does not divide the transform size, and every filter
length `F ≥ 2`: the sample in front of the newest block is never written, so the filter that delays by
one sample loses the last sample of every block. -/
theorem C22_every_non_dividing_block_fails (B F : ℕ) (hB : 1 ≤ B) (hF : 2 ≤ F)
    (hdvd : ¬ B ∣ 2 ^ Nat.clog 2 (B + F - 1)) (hsize : B + F - 1 ≤ 2 ^ 27) :
    ∃ h : List ℝ, h.length = F ∧ ∃ blocks : List (List ℝ), (∀ b ∈ blocks, b.length = B) ∧
      ∃ o, OverlapSave.make B F = .ok o ∧ ∃ s' outs,
        runBlocks (osProc (halfSpectrum o.plan.size h)) o blocks = .ok (s', outs) ∧
        B < blocks.flatten.length ∧ outs.flatten[B]? = some 0 ∧
        Spec.conv (fun i => h.getD i 0) (fun i => blocks.flatten.getD i 0) B = 1 := by
  have hb : Nat.clog 2 (B + F - 1) ≤ 27 := (Nat.clog_le_iff_le_pow (by norm_num)).2 hsize
  have hcl := Nat.le_pow_clog (b := 2) (by norm_num) (B + F - 1)
  refine ⟨vec F (unitAt 1), length_vec _ _,
    [vec B (unitAt (B - 1)), vec B (fun _ => 0)], ?_, _, overlapSave_make_eq hb, ?_⟩
  · intro b hb
    simp only [List.mem_cons, List.not_mem_nil, or_false] at hb
    rcases hb with rfl | rfl <;> exact length_vec _ _
  have hb1 : 1 ≤ Nat.clog 2 (B + F - 1) := Nat.clog_pos (by norm_num) (by omega)
  generalize Nat.clog 2 (B + F - 1) = b at *
  have hlt : 2 ^ b / B * B < 2 ^ b := by
    have h1 := Nat.div_mul_le_self (2 ^ b) B
    rcases Nat.lt_or_ge (2 ^ b / B * B) (2 ^ b) with h | h
    · exact h
    · exact absurd ⟨2 ^ b / B, by rw [Nat.mul_comm]; omega⟩ hdvd
  have hsz : (osOf B F b (fun _ => 0) (fun _ => 0) (fun _ => 0) (fun _ => 0)).plan.size = 2 ^ b :=
    rfftPlanOf_size _ _
  have hh : (fun i => (((vec F (unitAt 1)).getD i 0 : ℝ) : ℂ)) = fun i => ((unitAt 1 i : ℝ) : ℂ) := by
    funext i; rw [getD_unit (by omega)]
  rw [hsz, halfSpectrum_eq, hh]
  obtain ⟨f1, rb1, cb1, e1⟩ := osProc_step (F := F) hb1 hB (show B ≤ 2 ^ b by omega) (fun _ => 0)
    (fun _ => 0) (fun _ => 0) (fun _ => 0) (unitAt (B - 1)) _ (unitAt 1) (fun k _ => rfl)
  obtain ⟨f2, rb2, cb2, e2⟩ := osProc_step (F := F) hb1 hB (show B ≤ 2 ^ b by omega) f1
    (osWindow (2 ^ b) B (unitAt (B - 1)) (fun _ => 0)) rb1 cb1 (fun _ => 0) _ (unitAt 1)
    (fun k _ => rfl)
  refine ⟨_, _, by simp only [runBlocks, e1, e2, bind_ok, pure_eq_ok]; rfl, ?_, ?_, ?_⟩
  · simp only [List.flatten_cons, List.flatten_nil, List.length_append, length_vec, List.length_nil]
    omega
  · simp only [List.flatten_cons, List.flatten_nil, List.append_nil]
    rw [List.getElem?_append_right (by rw [length_vec]), length_vec, Nat.sub_self, getElem?_vec,
      if_pos (by omega), circConv_no_wrap (Q := 2) (by omega) (by omega)
        (fun m hm => by unfold unitAt; rw [if_neg (by omega)])]
    rw [sum_range_succ, sum_range_one]
    have u0 : unitAt 1 0 = 0 := by simp [unitAt]
    have w1 : osWindow (2 ^ b) B (fun _ => 0) (osWindow (2 ^ b) B (unitAt (B - 1)) (fun _ => 0))
        (2 ^ b - B + 0 - 1) = 0 := by
      unfold osWindow
      rw [if_neg (by omega), if_neg (by omega), if_neg (by omega)]
      simp
    rw [u0, w1]
    simp
  · have hx : ∀ i, ([vec B (unitAt (B - 1)), vec B (fun _ => 0)] :
        List (List ℝ)).flatten.getD i 0 = unitAt (B - 1) i := by
      intro i
      simp only [List.flatten_cons, List.flatten_nil, List.append_nil]
      by_cases c : i < B
      · rw [List.getD_eq_getElem?_getD, List.getElem?_append_left (by rw [length_vec]; omega),
          getElem?_vec, if_pos c]; rfl
      · have h0 : unitAt (B - 1) i = 0 := by unfold unitAt; rw [if_neg (by omega)]
        rw [h0, List.getD_eq_getElem?_getD, List.getElem?_append_right (by rw [length_vec]; omega),
          length_vec, getElem?_vec]
        split <;> rfl
    unfold Spec.conv
    rw [sum_eq_single 1]
    · beta_reduce
      rw [hx, getD_unit (by omega)]
      simp [unitAt]
    · intro j _ hj
      beta_reduce
      rw [getD_unit (by omega)]; unfold unitAt; rw [if_neg hj, zero_mul]
    · intro hj; exact absurd (mem_range.2 (by omega)) hj

example : (1 : ℕ) ≤ 5 ∧ 2 ≤ 4 ∧ ¬ 5 ∣ 2 ^ Nat.clog 2 (5 + 4 - 1) ∧ 5 + 4 - 1 ≤ 2 ^ 27 := by
  decide +kernel

/-- **C22**, exactly: `overlap_save{B, F}` streams the linear convolution with every `F`-tap filter for
every history of blocks **if and only if** `(B, F) ≠ (1, 1)` and the block size divides the transform
size or the filter has only one tap. -/
theorem C22_exact_sizes (B F : ℕ) (hB : 1 ≤ B) (hF : 1 ≤ F) (hsize : B + F - 1 ≤ 2 ^ 27) :
    (∀ h : List ℝ, h.length = F → ∀ blocks : List (List ℝ), (∀ b ∈ blocks, b.length = B) →
      ∃ o, OverlapSave.make B F = .ok o ∧
        StreamsConv (osProc (halfSpectrum o.plan.size h)) o blocks (fun i => h.getD i 0))
    ↔ ¬ (B = 1 ∧ F = 1) ∧ (B ∣ 2 ^ Nat.clog 2 (B + F - 1) ∨ F = 1) := by
  constructor
  · intro H
    constructor
    · rintro ⟨rfl, rfl⟩
      obtain ⟨o, ho, s', outs, e, -⟩ := H [0] rfl [[0]] (by simp)
      obtain ⟨o', ho', e'⟩ := C22_one_one_oob (halfSpectrum o.plan.size [0]) 0
      rw [ho] at ho'
      injection ho' with ho'
      subst ho'
      simp only [runBlocks, e', bind_error] at e
      cases e
    · by_contra hc
      rw [not_or] at hc
      obtain ⟨h, hh, blocks, hlen, o, ho, s', outs, e, hl, e0, e1⟩ :=
        C22_every_non_dividing_block_fails B F hB (by omega) hc.1 hsize
      obtain ⟨o', ho', s'', outs', e', -, hv⟩ := H h hh blocks hlen
      rw [ho] at ho'
      injection ho' with ho'
      subst ho'
      rw [e] at e'
      injection e' with e'
      injection e' with _ e'
      subst e'
      have := hv _ hl
      rw [e0, e1] at this
      simp at this
  · rintro ⟨h1, h2⟩ h hh blocks hlen
    by_cases hd : B ∣ 2 ^ Nat.clog 2 (B + F - 1)
    · exact C22_overlap_save B F hB hF (by omega) hd hsize h hh blocks hlen
    · obtain rfl : F = 1 := by tauto
      exact C22_one_tap B (by omega) (by omega) h hh blocks hlen

end Neo.Props
