import Verif.Model.SparseRender
import Verif.Spec.Sparse
import Verif.Lemmas.Render
import Verif.Lemmas.DftLaws
import Verif.Lemmas.Bits

/-! # The plugin's sparse renderer -/

namespace Neo

open Finset ComplexConjugate

/-! ## Weights -/

theorem log10F_pos {x : ℝ} (h : 0 < x) : log10F x = ((Real.logb 10 x : ℝ) : EReal) := by
  unfold log10F
  rw [if_neg h.ne']

theorem aWeighting_zero : aWeighting 0 = ⊥ := by
  unfold aWeighting
  dsimp only
  rw [log10F_pos (by norm_num : (0 : ℝ) < 12194.217 * 12194.217),
    log10F_pos (by norm_num : (0 : ℝ) < 0 * 0 + 12194.217 * 12194.217),
    log10F_pos (by norm_num : (0 : ℝ) < 0 * 0 + 20.598997 * 20.598997),
    log10F_pos (by norm_num : (0 : ℝ) < 0 * 0 + 107.65265 * 107.65265),
    log10F_pos (by norm_num : (0 : ℝ) < 0 * 0 + 737.86223 * 737.86223)]
  rw [show log10F (0 * 0) = ⊥ by unfold log10F; rw [if_pos (by norm_num)]]
  rw [EReal.coe_mul_bot_of_pos (by norm_num), EReal.add_bot, EReal.bot_sub, EReal.bot_sub, EReal.bot_sub,
    EReal.bot_sub, EReal.coe_mul_bot_of_pos (by norm_num), EReal.add_bot]

theorem aWeighting_eq {f : ℝ} (hf : f ≠ 0) : aWeighting f = ((Spec.aWeight f : ℝ) : EReal) := by
  have hsq : 0 < f * f := mul_self_pos.2 hf
  unfold aWeighting
  dsimp only
  rw [log10F_pos (by norm_num : (0 : ℝ) < 12194.217 * 12194.217), log10F_pos hsq,
    log10F_pos (by positivity : (0 : ℝ) < f * f + 12194.217 * 12194.217),
    log10F_pos (by positivity : (0 : ℝ) < f * f + 20.598997 * 20.598997),
    log10F_pos (by positivity : (0 : ℝ) < f * f + 107.65265 * 107.65265),
    log10F_pos (by positivity : (0 : ℝ) < f * f + 737.86223 * 737.86223)]
  rw [← EReal.coe_mul, ← EReal.coe_mul, ← EReal.coe_mul, ← EReal.coe_add, ← EReal.coe_sub,
    ← EReal.coe_sub, ← EReal.coe_sub, ← EReal.coe_sub, ← EReal.coe_mul, ← EReal.coe_add]
  congr 1
  unfold Spec.aWeight
  have hc0 : (0 : ℝ) < 12194.217 * 12194.217 := by norm_num
  have e1 : Real.logb 10 (12194.217 ^ 2 * f ^ 4 /
    ((f ^ 2 + 20.598997 ^ 2) * Real.sqrt ((f ^ 2 + 107.65265 ^ 2) * (f ^ 2 + 737.86223 ^ 2))
      * (f ^ 2 + 12194.217 ^ 2)))
      = Real.logb 10 (12194.217 * 12194.217) + 2 * Real.logb 10 (f * f)
        - Real.logb 10 (f * f + 12194.217 * 12194.217) - Real.logb 10 (f * f + 20.598997 * 20.598997)
        - 0.5 * Real.logb 10 (f * f + 107.65265 * 107.65265)
        - 0.5 * Real.logb 10 (f * f + 737.86223 * 737.86223) := by
    rw [show (12194.217 : ℝ) ^ 2 = 12194.217 * 12194.217 by ring, show f ^ 4 = (f * f) ^ 2 by ring,
      show f ^ 2 = f * f by ring,
      show (20.598997 : ℝ) ^ 2 = 20.598997 * 20.598997 by ring,
      show (107.65265 : ℝ) ^ 2 = 107.65265 * 107.65265 by ring,
      show (737.86223 : ℝ) ^ 2 = 737.86223 * 737.86223 by ring]
    generalize (12194.217 : ℝ) * 12194.217 = c0 at *
    rw [Real.logb_div (by positivity) (by positivity), Real.logb_mul hc0.ne' (by positivity),
      Real.logb_mul (by positivity) (by positivity), Real.logb_mul (by positivity) (by positivity),
      Real.sqrt_eq_rpow, Real.logb_rpow_eq_mul_logb_of_pos (by positivity),
      Real.logb_mul (by positivity) (by positivity), Real.logb_pow]
    push_cast
    ring
  rw [e1]

theorem sparseWeights_eq {K bins low : ℕ} {rate : ℝ} (hK : 1 ≤ K) (hlow : low ≤ bins) (hrate : rate ≠ 0) :
    sparseWeights K bins low rate = .ok (vec bins (fun i => if i < low then ((100 : ℝ) : EReal)
      else aWeighting (i * rate / K))) := by
  unfold sparseWeights
  rw [if_neg (by omega), bind_ok]
  simp only [Int.toNat_natCast]
  apply forN_eq' (fun t => vec bins (fun i => if i < low then ((100 : ℝ) : EReal)
      else if i < low + t then aWeighting (i * rate / K) else 0))
  · apply vec_ext
    intro i _
    by_cases c : i < low
    · rw [if_pos c, if_pos c]
    · rw [if_neg c, if_neg c, if_neg (by omega)]
  · apply vec_ext
    intro i hi
    by_cases c : i < low
    · rw [if_pos c, if_pos c]
    · rw [if_neg c, if_neg c, if_pos (by omega)]
  · intro t ht
    have hKr : ((K : ℤ) : ℝ) ≠ 0 := by
      exact_mod_cast (by omega : K ≠ 0)
    have hfd : fdiv 1 rate = .ok (1 / rate) := by unfold fdiv; rw [if_neg hrate]
    have hrf : rfftfreq (K : ℤ) ((low + t : ℕ) : ℤ) (1 / rate)
        = .ok (((low + t : ℕ) : ℝ) * rate / K) := by
      unfold rfftfreq fdiv
      rw [if_neg (one_div_ne_zero hrate), bind_ok, if_neg hKr, bind_ok, pure_eq_ok]
      congr 1
      push_cast
      field_simp
    rw [hfd, bind_ok, hrf, bind_ok, wr_vec_ok (by omega)]
    congr 1
    apply vec_ext
    intro i hi
    by_cases c : i = low + t
    · subst c
      rw [Function.update_self, if_neg (by omega), if_pos (by omega)]
    · rw [Function.update_of_ne c]
      by_cases c1 : i < low
      · rw [if_pos c1, if_pos c1]
      · rw [if_neg c1, if_neg c1]
        by_cases c2 : i < low + t
        · rw [if_pos c2, if_pos (by omega)]
        · rw [if_neg c2, if_neg (by omega)]

/-! ## Normalisation factor -/

theorem normalizationFactor_eq {v : MatView} {data : List ℂ} (hv : v.InRange data.length)
    (hr : 1 ≤ v.rows) (hc : 1 ≤ v.cols) :
    ∃ pk, IsGreatest {p | ∃ j < v.rows, ∃ k < v.cols, p = ‖matAt v data j k‖ ^ 2} pk ∧
      normalizationFactor v data = .ok (if pk = 0 then none else some (1 / pk)) := by
  have hrd : ∀ j < v.rows, ∀ k < v.cols, rd data (v.idx j k) = .ok (matAt v data j k) := by
    intro j hj k hk
    have := hv j hj k hk
    rw [rd_ok this]
    unfold matAt
    rw [List.getD_eq_getElem?_getD, List.getElem?_eq_getElem this, Option.getD_some]
  set P := fun j k => ‖matAt v data j k‖ ^ 2 with hP
  have hinner : ∀ j < v.rows, ∀ m : ℝ, ∃ m', forN v.cols (fun bin (mx : ℝ) => do
      let z ← rd data (v.idx j bin)
      let amplitude := ‖z‖
      pure (max mx (amplitude * amplitude))) m = .ok m' ∧ m ≤ m' ∧ (∀ k < v.cols, P j k ≤ m') ∧
      (m' = m ∨ ∃ k < v.cols, m' = P j k) := by
    intro j hj m
    refine forN_inv (fun t m' => m ≤ m' ∧ (∀ k < t, P j k ≤ m') ∧
      (m' = m ∨ ∃ k < v.cols, m' = P j k)) ⟨le_rfl, by intro k hk; omega, Or.inl rfl⟩ ?_
    intro t ht m' ⟨h1, h2, h3⟩
    refine ⟨max m' (P j t), ?_, le_max_of_le_left h1, ?_, ?_⟩
    · rw [hrd j hj t ht, bind_ok]
      dsimp only
      rw [pure_eq_ok, hP]
      dsimp only
      rw [sq]
    · intro k hk
      rcases Nat.lt_succ_iff_lt_or_eq.1 hk with h | rfl
      · exact le_max_of_le_left (h2 k h)
      · exact le_max_right _ _
    · rcases le_total m' (P j t) with h | h
      · rw [max_eq_right h]; exact Or.inr ⟨t, ht, rfl⟩
      · rw [max_eq_left h]; exact h3
  have houter := forN_inv (n := v.rows) (body := fun p (mx : ℝ) => forN v.cols (fun bin (mx : ℝ) => do
      let z ← rd data (v.idx p bin)
      let amplitude := ‖z‖
      pure (max mx (amplitude * amplitude))) mx) (s := (0 : ℝ))
    (fun t m => 0 ≤ m ∧ (∀ j < t, ∀ k < v.cols, P j k ≤ m) ∧
      (m = 0 ∨ ∃ j < v.rows, ∃ k < v.cols, m = P j k)) ⟨le_rfl, by intro j hj; omega, Or.inl rfl⟩ ?_
  · obtain ⟨m, e, h0, h1, h2⟩ := houter
    refine ⟨m, ⟨?_, ?_⟩, ?_⟩
    · rcases h2 with h2 | ⟨j, hj, k, hk, h⟩
      · refine ⟨0, hr, 0, hc, ?_⟩
        have := h1 0 hr 0 hc
        have hn : 0 ≤ P 0 0 := by positivity
        exact le_antisymm (by rw [h2]; exact hn) this
      · exact ⟨j, hj, k, hk, h⟩
    · rintro p ⟨j, hj, k, hk, rfl⟩
      exact h1 j hj k hk
    · unfold normalizationFactor
      rw [e, bind_ok, pure_eq_ok]
  · intro t ht m ⟨h0, h1, h2⟩
    obtain ⟨m', e, k1, k2, k3⟩ := hinner t ht m
    refine ⟨m', e, h0.trans k1, ?_, ?_⟩
    · intro j hj k hk
      rcases Nat.lt_succ_iff_lt_or_eq.1 hj with h | rfl
      · exact (h1 j h k hk).trans k1
      · exact k2 k hk
    · rcases k3 with h | ⟨k, hk, h⟩
      · rw [h]; exact h2
      · exact Or.inr ⟨t, ht, k, hk, h⟩

/-! ## The predicate -/

theorem scaledDb_eq {pk p : ℝ} (h0 : 0 ≤ p) (h1 : p ≤ pk) :
    scaledDb p (if pk = 0 then none else some (1 / pk)) * ((0.5 : ℝ) : EReal)
      = ((Spec.level pk p : ℝ) : EReal) := by
  unfold Spec.level
  by_cases hz : pk = 0
  · have hp : p = 0 := le_antisymm (hz ▸ h1) h0
    rw [if_pos hz, if_pos hp.le]
    unfold scaledDb
    dsimp only
    rw [if_pos hp, ← EReal.coe_mul]
    norm_num
  · have hpk : 0 < pk := lt_of_le_of_ne (h0.trans h1) (Ne.symm hz)
    rw [if_neg hz]
    unfold scaledDb amplitudeToDbDefault amplitudeToDb
    dsimp only
    rw [← EReal.coe_mul]
    congr 1
    by_cases hp : p ≤ 0
    · have : p = 0 := le_antisymm hp h0
      rw [if_pos (by rw [this]; simp), if_pos hp]
      norm_num
    · have : 0 < p * (1 / pk) := by have := not_le.1 hp; positivity
      rw [if_neg (not_le.2 this), if_neg hp, max_mul_of_nonneg _ _ (by norm_num),
        show p * (1 / pk) = p / pk by ring]
      congr 1
      · norm_num
      · ring

theorem isAboveThreshold_iff {B low k j : ℕ} {rate thr pk : ℝ} {h : ℕ → ℝ} {z : ℂ} (hB : 1 ≤ B)
    (hrate : rate ≠ 0) (hk : k < B + 1) (hz : ‖z‖ ^ 2 = Spec.binPower B h j k) (hpk : Spec.binPower B h j k ≤ pk) :
    isAboveThreshold thr (if pk = 0 then none else some (1 / pk))
      (vec (B + 1) (fun i => if i < low then ((100 : ℝ) : EReal)
      else aWeighting (i * rate / (2 * B : ℕ)))) j k z = true ↔ Spec.audible B low rate thr pk h j k := by
  unfold isAboveThreshold Spec.audible
  dsimp only
  rw [decide_eq_true_iff, ← sq, hz, scaledDb_eq (by unfold Spec.binPower; positivity) hpk,
    getD_vec _ _ _ _ hk]
  by_cases c : k < low
  · rw [if_pos c, if_pos c, ← EReal.coe_add, EReal.coe_lt_coe_iff]
  · rw [if_neg c, if_neg c]
    by_cases c0 : k = 0
    · subst c0
      rw [show ((0 : ℕ) : ℝ) * rate / (2 * B : ℕ) = 0 by simp, aWeighting_zero, EReal.add_bot]
      simp
    · have hne : (k : ℝ) * rate / (2 * B : ℕ) ≠ 0 := by
        apply div_ne_zero (mul_ne_zero (by exact_mod_cast c0) hrate)
        exact_mod_cast (by omega : 2 * B ≠ 0)
      rw [aWeighting_eq hne, ← EReal.coe_add, EReal.coe_lt_coe_iff]
      constructor
      · intro h; exact ⟨by omega, by push_cast at h; exact h⟩
      · intro h; have := h.2; push_cast; exact this

/-! ## The pruned responses -/

open Classical in
theorem dft_pruned {B : ℕ} (hB : 1 ≤ B) (keep : ℕ → ℕ → Prop) (h : ℕ → ℝ) (j : ℕ) {k : ℕ} (hk : k < B + 1) :
    Spec.dft (2 * B) (fun m => ((Spec.pruned B keep h j m : ℝ) : ℂ)) k
      = if keep j k then Spec.dft (2 * B) (fun m => (Spec.block B h j m : ℂ)) k else 0 := by
  set K := 2 * B with hK
  set X : ℕ → ℂ := fun k => if keep j (min k (K - k)) then
    Spec.dft K (fun m => (Spec.block B h j m : ℂ)) k else 0 with hX
  have hKC : (K : ℂ) ≠ 0 := by exact_mod_cast (by omega : K ≠ 0)
  have hreal : ∀ n < K, ((Spec.pruned B keep h j n : ℝ) : ℂ) = 1 / K * Spec.idft K X n := by
    intro n hn
    have hconj : conj (Spec.idft K X n) = Spec.idft K X n := by
      have hB0 : conj (X 0) = X 0 := by
        rw [hX]
        dsimp only
        split
        · have := dft_real_symm (N := K) (fun m => Spec.block B h j m) (Nat.zero_le K)
          rw [Nat.sub_zero, dft_self (by omega)] at this
          exact this.symm
        · simp
      refine idft_hermitian_real X hB0 (fun k h0 h1 => ?_) n
      rw [hX]
      dsimp only
      rw [Nat.sub_sub_self h1.le, min_comm]
      split
      · exact dft_real_symm _ h1.le
      · simp
    unfold Spec.pruned
    rw [Complex.conj_eq_iff_re] at hconj
    rw [Complex.ofReal_mul, ← hK, hconj]
    push_cast
    rfl
  rw [dft_congr hreal, dft_smul, dft_idft _ (by omega), ← mul_assoc, one_div_mul_cancel hKC, one_mul, hX]
  dsimp only
  rw [Nat.min_eq_left (by omega)]

/-! ## Output of the convolver -/

theorem olaOut_blockFilter {B N : ℕ} (g : ℕ → ℕ → ℝ) (x : ℕ → ℝ) (t : ℕ) {i : ℕ} (hi : i < B) :
    olaOut B (specY N (fun j => Spec.dft (2 * B) (fun m => ((g j m : ℝ) : ℂ)))
      (winSpec B (seg B) x)) t i = Spec.blockFilter B N g x (t * B + i) := by
  have hd : (t * B + i) / B = t := mul_add_div' hi
  have hm : (t * B + i) % B = i := mul_add_mod' hi
  unfold olaOut winSpec Spec.blockFilter
  rw [hd, hm, specOut_specY (fun t => seg B x t) g t (by omega)]
  congr 1
  by_cases ht : 1 ≤ t
  · rw [if_pos ht, specOut_specY (fun t => seg B x t) g (t - 1) (by omega)]
    apply sum_congr rfl
    intro j _
    by_cases c : j + 1 ≤ t
    · rw [if_pos (by omega), if_pos c]; rfl
    · rw [if_neg (by omega), if_neg c]
  · rw [if_neg ht]
    symm
    apply sum_eq_zero
    intro j _
    rw [if_neg (by omega)]

theorem blockFilter_congr {B N : ℕ} (g : ℕ → ℕ → ℝ) {x x' : ℕ → ℝ} {n : ℕ}
    (h : ∀ i < (n / B + 1) * B, x i = x' i) :
    Spec.blockFilter B N g x n = Spec.blockFilter B N g x' n := by
  have hb : ∀ u ≤ n / B, Spec.block B x u = Spec.block B x' u := by
    intro u hu
    funext m
    unfold Spec.block
    split
    · next c =>
      apply h
      calc u * B + m < u * B + B := by omega
        _ = (u + 1) * B := by ring
        _ ≤ (n / B + 1) * B := Nat.mul_le_mul_right _ (by omega)
    · rfl
  unfold Spec.blockFilter
  congr 1
  · apply sum_congr rfl
    intro j _
    rw [hb _ (Nat.sub_le _ _)]
  · apply sum_congr rfl
    intro j _
    rw [hb _ ((Nat.sub_le _ _).trans (Nat.sub_le _ _))]

/-- A run over the blocks of `x` whose outputs are the blocks of `y` as a sequence of calls. -/
theorem traces_of_run_vec {S : Type} {ops : ConvOps S} {v : MatView} {data : List ℂ} {B T : ℕ} {x y : ℕ → ℝ}
    (hr : runOps ops v data (vec T (fun t => vec B (fun i => x (t * B + i))))
      = .ok (vec T (fun t => vec B (fun i => y (t * B + i))))) :
    ∃ u0 u, ops.make = .ok u0 ∧ ops.load u0 v data = .ok u ∧ Traces ops u B T x y := by
  unfold runOps at hr
  cases h0 : ops.make with
  | error e => rw [h0] at hr; cases hr
  | ok u0 =>
    rw [h0, bind_ok] at hr
    cases h1 : ops.load u0 v data with
    | error e => rw [h1] at hr; cases hr
    | ok u =>
      rw [h1, bind_ok] at hr
      cases h2 : runBlocks ops.call u (vec T (fun t => vec B (fun i => x (t * B + i)))) with
      | error e => rw [h2] at hr; cases hr
      | ok r =>
        obtain ⟨s', outs'⟩ := r
        rw [h2] at hr
        simp only [bind_ok, pure_eq_ok] at hr
        cases hr
        refine ⟨u0, u, rfl, h1, ?_⟩
        obtain ⟨st, hs0, hst⟩ := runBlocks_trace _ _ _ _ h2
        exact ⟨st, hs0, fun t ht => hst t _ _ (by rw [getElem?_vec, if_pos ht])
          (by rw [getElem?_vec, if_pos ht])⟩

/-- The block loop of one channel. -/
theorem sparseLoop_ok {S : Type} {ops : ConvOps S} {L B : ℕ} {u : S} {y : ℕ → ℝ} (x : ℕ → ℝ) {block out : List ℝ}
    (hB : 1 ≤ B) (hLB : L + B ≤ 2 ^ 31) (hbl : block.length = B) (hol : out.length = L)
    (htr : Traces ops u B L (fun i => if i < L then x i else 0) y) :
    ∃ r, forIntStep B L (sparseBlock ops L (vec L x) B) L 0 { conv := u, block := block, out := out } = .ok r ∧
      r.block.length = B ∧ r.out = vec L y := by
  obtain ⟨st, hst0, hst⟩ := htr
  have hloop := forIntStep_inv (B := B) (n := L) (body := sparseBlock ops L (vec L x) B)
    (fun t r => r.conv = st t ∧ r.block.length = B ∧ ∃ o, r.out = vec L o ∧ ∀ n < L, n < t * B → o n = y n)
    hB hLB ?_ L 0 { conv := u, block := block, out := out } (by omega)
    ⟨hst0.symm, hbl, _, list_eq_vec 0 hol, by intro n _ hn; omega⟩
  · obtain ⟨T, r, e, ⟨-, h2, o, h3, h4⟩, hT⟩ := hloop
    rw [Nat.zero_mul] at e
    refine ⟨r, e, h2, ?_⟩
    rw [h3]
    exact vec_ext (fun n hn => h4 n hn (by omega))
  · rintro t ⟨rc, rb, ro⟩ ht ⟨h1, h2, o, h3, h4⟩
    have htle : t < L := lt_of_le_of_lt (Nat.le_mul_of_pos_right t hB) ht
    simp only at h1 h2 h3
    subst h1
    subst h3
    set num := min (L - t * B) B with hnum
    have hn1 : num ≤ B := min_le_right _ _
    have hn2 : t * B + num ≤ L := by omega
    have hblk : rb.map (fun _ => (0 : ℝ)) = vec B (fun _ => 0) := by
      conv_lhs => rw [list_eq_vec 0 h2]
      rw [map_vec]
    have hblock : vec B (fun i => if 0 ≤ i ∧ i < 0 + num then x (t * B + (i - 0)) else 0)
        = vec B (fun i => if t * B + i < L then x (t * B + i) else 0) := by
      apply vec_ext
      intro i hi
      by_cases c : i < num
      · rw [if_pos ⟨Nat.zero_le _, by omega⟩, if_pos (by omega), Nat.sub_zero]
      · rw [if_neg (by omega), if_neg (by omega)]
    refine ⟨_, by
      unfold sparseBlock
      dsimp only
      rw [hblk, ← hnum, rdSpan_vec (by omega) hn2, bind_ok, Nat.add_sub_cancel_left,
        wrSpan_vec (by omega), bind_ok, hblock, hst t htle, bind_ok]
      dsimp only
      rw [rdSpan_vec (by omega) hn1, bind_ok, Nat.sub_zero, wrSpan_vec hn2, bind_ok]
      rfl, rfl, length_vec _ _, _, rfl, ?_⟩
    intro n hn hlt
    by_cases cc : t * B ≤ n
    · have : n < t * B + num := by rw [Nat.succ_mul] at hlt; omega
      rw [if_pos ⟨cc, this⟩, Nat.zero_add]
      rw [show t * B + (n - t * B) = n by omega]
    · rw [if_neg (by omega)]
      exact h4 n hn (by omega)

end Neo
