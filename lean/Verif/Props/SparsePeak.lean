import Verif.Props.SparseDecision
import Verif.Model.SparsePeak
import Verif.Lemmas.UpcInst

/-! # C124: peak and decision of the sparse renderer in single precision -/

namespace Neo.Props

open Neo Spec

private theorem ieee32 : binary32.Ieee := by unfold Fmt.Ieee binary32; norm_num

private theorem u32 : binary32.u = 1 / 2 ^ 24 := by
  show (2 : ℝ) ^ (-((24 : ℕ) : ℤ)) = _
  rw [zpow_neg, zpow_natCast, one_div]

/-- The rounded square of a gain. -/
private noncomputable def sqR (g : ℝ) : ℝ := binary32.rndInf (g * g)

private theorem sqR_mono {g h : ℝ} (h0 : 0 ≤ g) (h1 : g ≤ h) : sqR g ≤ sqR h :=
  rndInf_mono binary32 (by norm_num [binary32]) (mul_le_mul h1 h1 h0 (h0.trans h1))

private theorem round_sq {g : ℝ} (h0 : 0 ≤ g) (h1 : g ≤ (2 : ℝ) ^ (30 : ℤ)) : binary32.round ((FVal.fin g).mul (.fin g)) = .fin (sqR g) := by
  refine round_fin_of_lt ?_
  have hp : 0 ≤ g * g := mul_nonneg h0 h0
  have a : 0 ≤ sqR g := by
    have := rndInf_mono binary32 (by norm_num [binary32]) hp
    rwa [rndInf_zero] at this
  have e : binary32.rndInf ((2 : ℝ) ^ (60 : ℤ)) = (2 : ℝ) ^ (60 : ℤ) :=
    rndInf_exact (two_zpow_onGrid (by norm_num [binary32]) (by norm_num [binary32]))
  have b : sqR g ≤ (2 : ℝ) ^ (60 : ℤ) := by
    rw [← e]
    refine rndInf_mono binary32 (by norm_num [binary32]) ?_
    rw [show (60 : ℤ) = 30 + 30 by norm_num, zpow_add₀ (by norm_num)]
    exact mul_le_mul h1 h1 h0 (two_zpow_pos _).le
  show |sqR g| < _
  rw [abs_of_nonneg a]
  exact b.trans_lt (zpow_lt_zpow_right₀ (by norm_num) (by norm_num [binary32]))

private theorem max_step {G g : ℝ} (hG : 0 ≤ G) (hg : 0 ≤ g) : maxI (.fin (sqR G)) (.fin (sqR g)) = .fin (sqR (max G g)) := by
  unfold maxI
  rcases le_total G g with h | h
  · rw [max_eq_right h]
    by_cases c : sqR G < sqR g
    · exact if_pos c
    · rw [if_neg (show ¬ (FVal.fin (sqR G)).Lt (.fin (sqR g)) from c), le_antisymm (sqR_mono hG h) (not_lt.1 c)]
  · rw [max_eq_left h]
    exact if_neg (show ¬ (FVal.fin (sqR G)).Lt (.fin (sqR g)) from not_lt.2 (sqR_mono hg h))

/-- **C124** (peak).  If the computed gains of the bins are numbers from 0 to `2³⁰` and the largest one, `G`, is at least `2⁻³⁰`, the
factor is the reciprocal of the peak power `G²` with a relative error of at most three units of roundoff, for every view. -/
theorem C124_peak {β : Type} {abs : β → FVal} {v : MatView} {data : List β} {gain : ℕ → ℕ → ℝ}
    (hd : ∀ j < v.rows, ∀ k < v.cols, ∃ z, rd data (v.idx j k) = .ok z ∧ abs z = .fin (gain j k)) (h0 : ∀ j k, 0 ≤ gain j k)
    {G : ℝ} (hG : IsGreatest {g | ∃ j < v.rows, ∃ k < v.cols, g = gain j k} G) (h1 : (2 : ℝ) ^ (-30 : ℤ) ≤ G) (h2 : G ≤ (2 : ℝ) ^ (30 : ℤ)) :
    ∃ φ, normalizationFactorI abs v data = .ok (.fin (1 / (G * G) * φ)) ∧ Fac binary32 2 φ ∧ |φ - 1| ≤ 3 * binary32.u := by
  have hf := ieee32
  have hle : ∀ j < v.rows, ∀ k < v.cols, gain j k ≤ G := fun j hj k hk => hG.2 ⟨j, hj, k, hk, rfl⟩
  have hG0 : 0 < G := (two_zpow_pos _).trans_le h1
  have hz : sqR 0 = 0 := by unfold sqR; rw [mul_zero, rndInf_zero]
  have hinner : ∀ j < v.rows, ∀ m : ℝ, 0 ≤ m → m ≤ G → ∃ s, forN v.cols (fun bin maxPower => do
      let z ← rd data (v.idx j bin)
      let amplitude := abs z
      pure (maxI maxPower (binary32.round (amplitude.mul amplitude)))) (FVal.fin (sqR m)) = .ok s ∧
      ∃ m', s = FVal.fin (sqR m') ∧ m ≤ m' ∧ m' ≤ G ∧ ∀ k < v.cols, gain j k ≤ m' := by
    intro j hj m hm hmG
    refine forN_inv (fun t (s : FVal) => ∃ m', s = FVal.fin (sqR m') ∧ m ≤ m' ∧ m' ≤ G ∧ ∀ k < t, gain j k ≤ m')
      ⟨m, rfl, le_rfl, hmG, by intro k hk; omega⟩ ?_
    rintro t ht s ⟨m', rfl, k1, k2, k3⟩
    obtain ⟨z, ez, ea⟩ := hd j hj t ht
    refine ⟨.fin (sqR (max m' (gain j t))), ?_, max m' (gain j t), rfl, le_max_of_le_left k1, max_le k2 (hle j hj t ht), ?_⟩
    · rw [ez, bind_ok]
      dsimp only
      rw [ea, round_sq (h0 j t) ((hle j hj t ht).trans h2), max_step (hm.trans k1) (h0 j t), pure_eq_ok]
    · intro k hk
      rcases Nat.lt_succ_iff_lt_or_eq.1 hk with h | rfl
      · exact le_max_of_le_left (k3 k h)
      · exact le_max_right _ _
  have houter := forN_inv (n := v.rows) (body := fun p maxPower => forN v.cols (fun bin maxPower => do
      let z ← rd data (v.idx p bin)
      let amplitude := abs z
      pure (maxI maxPower (binary32.round (amplitude.mul amplitude)))) maxPower) (s := FVal.fin 0)
    (fun t (s : FVal) => ∃ m, s = FVal.fin (sqR m) ∧ 0 ≤ m ∧ m ≤ G ∧ ∀ j < t, ∀ k < v.cols, gain j k ≤ m)
    ⟨0, by rw [hz], le_rfl, hG0.le, by intro j hj; omega⟩ (by
      rintro t ht s ⟨m, rfl, k0, k1, k2⟩
      obtain ⟨s, e, m', es, l1, l2, l3⟩ := hinner t ht m k0 k1
      refine ⟨s, e, m', es, k0.trans l1, l2, fun j hj k hk => ?_⟩
      rcases Nat.lt_succ_iff_lt_or_eq.1 hj with h | rfl
      · exact (k2 j h k hk).trans l1
      · exact l3 k hk)
  obtain ⟨s, e, m, rfl, m0, mG, mall⟩ := houter
  have hmG : m = G := by
    obtain ⟨j, hj, k, hk, hg⟩ := hG.1
    exact le_antisymm mG (by rw [hg]; exact mall j hj k hk)
  subst hmG
  have hν : binary32.minNormal = (2 : ℝ) ^ (-126 : ℤ) := by
    show (2 : ℝ) ^ ((-149 : ℤ) + ((24 : ℕ) : ℤ) - 1) = _
    norm_num
  have hE : (2 : ℝ) ^ binary32.emax = (2 : ℝ) ^ (128 : ℤ) := rfl
  have q1 : (2 : ℝ) ^ (-60 : ℤ) ≤ m * m := by
    rw [show (-60 : ℤ) = -30 + -30 by norm_num, zpow_add₀ (by norm_num)]
    exact mul_le_mul h1 h1 (two_zpow_pos _).le hG0.le
  have q2 : m * m ≤ (2 : ℝ) ^ (60 : ℤ) := by
    rw [show (60 : ℤ) = 30 + 30 by norm_num, zpow_add₀ (by norm_num)]
    exact mul_le_mul h2 h2 hG0.le (two_zpow_pos _).le
  have hq : 0 < m * m := mul_pos hG0 hG0
  have A1 : Ap binary32 1 (m * m) (.fin (sqR m)) := by
    rw [← round_sq hG0.le h2]
    exact Ap.mul hf (Ap.exact hf m) (Ap.exact hf m) (by rw [u32]; norm_num) (by rw [hν]; exact le_trans (by norm_num) q1)
      (by rw [hE]; refine le_trans (mul_le_mul_of_nonneg_left q2 (by norm_num)) (by norm_num))
  have A2 := Ap.div hf (Ap.exact hf 1) A1 hq (by rw [u32]; norm_num)
    (by rw [hν, le_div_iff₀ hq]
        refine le_trans (mul_le_mul_of_nonneg_left q2 (by norm_num)) (by norm_num))
    (by rw [hE]
        have : 1 / (m * m) ≤ 1 / (2 : ℝ) ^ (-60 : ℤ) := one_div_le_one_div_of_le (two_zpow_pos _) q1
        refine le_trans (mul_le_mul_of_nonneg_left this (by norm_num)) (by norm_num))
  obtain ⟨φ, eφ, hφ⟩ := A2
  refine ⟨φ, ?_, hφ, hφ.sub_one hf (by rw [u32]; norm_num) (by rw [u32]; norm_num)⟩
  unfold normalizationFactorI
  rw [e, bind_ok, pure_eq_ok, eφ]

private theorem level_floor {peak p : ℝ} (h0 : 0 < peak) (h : p / peak ≤ (2 : ℝ) ^ (-30 : ℤ)) : level peak p = -72 := by
  unfold level
  split
  · rfl
  · rename_i hn
    rw [not_le] at hn
    refine max_eq_left ?_
    have : Real.logb 10 (p / peak) ≤ -8 := by
      rw [Real.logb_le_iff_le_rpow (by norm_num) (div_pos hn h0), show (-8 : ℝ) = ((-8 : ℤ) : ℝ) by norm_num, Real.rpow_intCast]
      exact h.trans (by norm_num)
    linarith

private theorem min32 : binary32.minNormal = (2 : ℝ) ^ (-126 : ℤ) := by
  show (2 : ℝ) ^ ((-149 : ℤ) + ((24 : ℕ) : ℤ) - 1) = _
  norm_num

/-- Levels from computed and from exact moduli. -/
private theorem level_near {m g M G φ : ℝ} (hm : 0 ≤ m) (hg : 0 ≤ g) (h : |g - m| ≤ 4 * binary32.u * max m binary32.minNormal)
    (hM : (2 : ℝ) ^ (-29 : ℤ) ≤ M) (hG : |G - M| ≤ 4 * binary32.u * M) (hφ : 0 < φ) (hφ2 : φ ≤ 2) (hl : |Real.logb 10 φ| ≤ 4 * binary32.u) :
    |level (1 / (1 / (G * G) * φ)) (g * g) - level (M * M) (m * m)| ≤ 200 * binary32.u := by
  have hu := u_pos binary32
  have hu' := u32
  have hM0 : 0 < M := (two_zpow_pos _).trans_le hM
  have hu3 : 4 * binary32.u ≤ 1 / 3 := by rw [hu']; norm_num
  have hG1 : M / 2 ≤ G := by
    have := (abs_le.1 hG).1
    have := mul_le_mul_of_nonneg_right hu3 hM0.le
    linarith
  have hG0 : 0 < G := by linarith
  have hpk : 1 / (1 / (G * G) * φ) = G * G / φ := by field_simp
  rw [hpk]
  by_cases c : binary32.minNormal ≤ m
  · rw [max_eq_left c] at h
    have hm0 : 0 < m := (minNormal_pos _).trans_le c
    have hθ : |(g - m) / m| ≤ 4 * binary32.u := by rwa [abs_div, abs_of_pos hm0, div_le_iff₀ hm0]
    have hτ : |(G - M) / M| ≤ 4 * binary32.u := by rwa [abs_div, abs_of_pos hM0, div_le_iff₀ hM0]
    have l1 := logb_near hθ hu3
    have l2 := logb_near hτ hu3
    rw [show 1 + (g - m) / m = g / m by field_simp; ring] at l1
    rw [show 1 + (G - M) / M = G / M by field_simp; ring] at l2
    have hg0 : 0 < g := by
      have := (abs_le.1 h).1
      have := mul_le_mul_of_nonneg_right hu3 hm0.le
      linarith
    rw [Real.logb_div hg0.ne' hm0.ne'] at l1
    rw [Real.logb_div hG0.ne' hM0.ne'] at l2
    unfold level
    rw [if_neg (not_le.2 (mul_pos hg0 hg0)), if_neg (not_le.2 (mul_pos hm0 hm0)), max_comm (-72 : ℝ), max_comm (-72 : ℝ)]
    refine (abs_max_sub_max_le_abs _ _ _).trans ?_
    rw [Real.logb_div (mul_pos hg0 hg0).ne' (div_pos (mul_pos hG0 hG0) hφ).ne', Real.logb_div (mul_pos hG0 hG0).ne' hφ.ne',
      Real.logb_div (mul_pos hm0 hm0).ne' (mul_pos hM0 hM0).ne', Real.logb_mul hg0.ne' hg0.ne', Real.logb_mul hG0.ne' hG0.ne',
      Real.logb_mul hm0.ne' hm0.ne', Real.logb_mul hM0.ne' hM0.ne']
    rw [abs_le] at l1 l2 hl ⊢
    constructor <;> linarith
  · rw [not_le] at c
    rw [max_eq_right c.le] at h
    have hν := min32
    have hg2 : g ≤ (2 : ℝ) ^ (-125 : ℤ) := by
      have a := (abs_le.1 h).2
      have b := mul_le_mul_of_nonneg_right hu3 (minNormal_pos binary32).le
      have e : (2 : ℝ) ^ (-125 : ℤ) = 2 * binary32.minNormal := by rw [hν]; norm_num
      linarith
    have hm2 : m ≤ (2 : ℝ) ^ (-125 : ℤ) := by rw [hν] at c; exact c.le.trans (by norm_num)
    have hG2 : (2 : ℝ) ^ (-30 : ℤ) ≤ G := by
      have e : (2 : ℝ) ^ (-30 : ℤ) = (2 : ℝ) ^ (-29 : ℤ) / 2 := by norm_num
      rw [e]
      exact le_trans (div_le_div_of_nonneg_right hM (by norm_num)) hG1
    have hM2 : (2 : ℝ) ^ (-30 : ℤ) ≤ M := le_trans (by norm_num) hM
    have sq : ∀ {x X : ℝ}, 0 ≤ x → x ≤ (2 : ℝ) ^ (-125 : ℤ) → (2 : ℝ) ^ (-30 : ℤ) ≤ X → x * x / (X * X) ≤ (2 : ℝ) ^ (-190 : ℤ) := by
      intro x X h0 h1 h2
      have p30 := two_zpow_pos (-30)
      have hX : 0 < X := p30.trans_le h2
      rw [div_le_iff₀ (mul_pos hX hX)]
      calc x * x ≤ (2 : ℝ) ^ (-125 : ℤ) * (2 : ℝ) ^ (-125 : ℤ) := mul_le_mul h1 h1 h0 (two_zpow_pos _).le
        _ = (2 : ℝ) ^ (-190 : ℤ) * ((2 : ℝ) ^ (-30 : ℤ) * (2 : ℝ) ^ (-30 : ℤ)) := by norm_num
        _ ≤ _ := mul_le_mul_of_nonneg_left (mul_le_mul h2 h2 p30.le hX.le) (two_zpow_pos _).le
    rw [level_floor (div_pos (mul_pos hG0 hG0) hφ), level_floor (mul_pos hM0 hM0)]
    · rw [sub_self, abs_zero]
      linarith
    · exact (sq hm hm2 hM2).trans (by norm_num)
    · rw [show g * g / (G * G / φ) = g * g / (G * G) * φ by field_simp]
      refine (mul_le_mul (sq hg hg2 hG2) hφ2 hφ.le (two_zpow_pos _).le).trans (by norm_num)

private theorem aWeight_bound {g : ℝ} (h1 : (2 : ℝ) ^ (-20 : ℤ) ≤ g) (h2 : g ≤ (2 : ℝ) ^ (18 : ℤ)) : |aWeight g| ≤ 1600 := by
  have hg : 0 < g := (two_zpow_pos _).trans_le h1
  have hb : ∀ x : ℝ, (2 : ℝ) ^ (-40 : ℤ) ≤ x → x ≤ (2 : ℝ) ^ (37 : ℤ) → |Real.logb 10 x| ≤ 13 := by
    intro x a b
    have hx : 0 < x := (two_zpow_pos _).trans_le a
    rw [abs_le]
    constructor
    · rw [Real.le_logb_iff_rpow_le (by norm_num) hx, show (-13 : ℝ) = ((-13 : ℤ) : ℝ) by norm_num, Real.rpow_intCast]
      exact le_trans (by norm_num) a
    · rw [Real.logb_le_iff_le_rpow (by norm_num) hx, show (13 : ℝ) = ((13 : ℤ) : ℝ) by norm_num, Real.rpow_intCast]
      exact b.trans (by norm_num)
  have q1 : (2 : ℝ) ^ (-40 : ℤ) ≤ g * g := by
    rw [show (-40 : ℤ) = -20 + -20 by norm_num, zpow_add₀ (by norm_num)]
    exact mul_le_mul h1 h1 (two_zpow_pos _).le hg.le
  have q2 : g * g ≤ (2 : ℝ) ^ (36 : ℤ) := by
    rw [show (36 : ℤ) = 18 + 18 by norm_num, zpow_add₀ (by norm_num)]
    exact mul_le_mul h2 h2 hg.le (two_zpow_pos _).le
  have q0 := mul_pos hg hg
  have b0 := hb (12194.217 * 12194.217) (by norm_num) (by norm_num)
  have b1 := hb (g * g) q1 (q2.trans (by norm_num))
  have hs : ∀ c : ℝ, 0 ≤ c → c ≤ 148698929 → |Real.logb 10 (g * g + c)| ≤ 13 := fun c c0 c1 =>
    hb _ (by linarith) ((add_le_add q2 c1).trans (by norm_num))
  have b2 := hs (12194.217 * 12194.217) (by norm_num) (by norm_num)
  have b3 := hs (20.598997 * 20.598997) (by norm_num) (by norm_num)
  have b4 := hs (107.65265 * 107.65265) (by norm_num) (by norm_num)
  have b5 := hs (737.86223 * 737.86223) (by norm_num) (by norm_num)
  rw [aWeight_logs hg.ne']
  rw [abs_le] at *
  constructor <;> linarith

/-- **C124** (kept bins).  For block sizes up to `2²⁰`, sample rates from 8 to `2¹⁹` Hz and a largest modulus `M` from `2⁻²⁹` to
`2²⁹`, with a `std::abs` that is right to four units of roundoff (of the smallest normal number, for smaller moduli): the weights
and the factor are computed without fault, and every bin of every partition is kept if its exact level relative to the peak, plus the
bonus or the A-weighting of its frequency, exceeds the threshold by more than 0.005 dB, and is not kept if it falls below the threshold by more
than that.  Bin 0 is not kept unless it is one of the low bins. -/
theorem C124_kept {β : Type} {log10 : FVal → FVal} {κ : ℝ} (hl : LogNear log10 κ) (hκ : κ ≤ 1 / 2 ^ 19) (hm : LogOk log10)
    (hi : log10 (.inf false) = .inf false) (hz : log10 (.fin 0) = .inf true)
    {abs : β → FVal} {v : MatView} {data : List β} {z : ℕ → ℕ → β} {mod gain : ℕ → ℕ → ℝ}
    (hd : ∀ j < v.rows, ∀ k < v.cols, rd data (v.idx j k) = .ok (z j k) ∧ abs (z j k) = .fin (gain j k))
    (h0 : ∀ j k, 0 ≤ mod j k ∧ 0 ≤ gain j k)
    (hgain : ∀ j k, |gain j k - mod j k| ≤ 4 * binary32.u * max (mod j k) binary32.minNormal)
    {M : ℝ} (hM : IsGreatest {g | ∃ j < v.rows, ∃ k < v.cols, g = mod j k} M) (hM1 : (2 : ℝ) ^ (-29 : ℤ) ≤ M) (hM2 : M ≤ (2 : ℝ) ^ (29 : ℤ))
    {K low : ℕ} (hK : 1 ≤ K) (hK2 : K ≤ 2 ^ 21) (hb : v.cols ≤ K / 2 + 1) (hlow : low ≤ v.cols) {rate t : ℝ} (h1 : 8 ≤ rate) (h2 : rate ≤ 2 ^ 19) :
    ∃ w s, sparseWeightsI log10 K v.cols low rate = .ok w ∧ normalizationFactorI abs v data = .ok s ∧ ∀ j < v.rows, ∀ k < v.cols,
      (k < low →
        (t + 1 / 200 < level (M * M) (mod j k * mod j k) + 100 → isAboveThresholdI log10 abs (.fin t) s w j k (z j k) = true) ∧
        (level (M * M) (mod j k * mod j k) + 100 < t - 1 / 200 → isAboveThresholdI log10 abs (.fin t) s w j k (z j k) = false)) ∧
      (low ≤ k → k = 0 → isAboveThresholdI log10 abs (.fin t) s w j k (z j k) = false) ∧
      (low ≤ k → k ≠ 0 →
        (t + 1 / 200 < level (M * M) (mod j k * mod j k) + aWeight (k * rate / K) →
          isAboveThresholdI log10 abs (.fin t) s w j k (z j k) = true) ∧
        (level (M * M) (mod j k * mod j k) + aWeight (k * rate / K) < t - 1 / 200 →
          isAboveThresholdI log10 abs (.fin t) s w j k (z j k) = false)) := by
  have hf := ieee32
  have hu := u_pos binary32
  have hu' := u32
  have hM0 : 0 < M := (two_zpow_pos _).trans_le hM1
  have hνM : binary32.minNormal ≤ M := by rw [min32]; exact le_trans (by norm_num) hM1
  obtain ⟨j0, hj0, k0, hk0, e0⟩ := hM.1
  -- the largest computed gain
  obtain ⟨⟨j1, k1⟩, hin, hmax⟩ := Finset.exists_max_image (Finset.range v.rows ×ˢ Finset.range v.cols) (fun p => gain p.1 p.2)
    ⟨(j0, k0), by simp [hj0, hk0]⟩
  simp only [Finset.mem_product, Finset.mem_range] at hin hmax
  set G := gain j1 k1 with hGd
  have hle : ∀ j < v.rows, ∀ k < v.cols, gain j k ≤ G := fun j hj k hk => hmax (j, k) ⟨hj, hk⟩
  have hGg : IsGreatest {g | ∃ j < v.rows, ∃ k < v.cols, g = gain j k} G :=
    ⟨⟨j1, hin.1, k1, hin.2, rfl⟩, by rintro _ ⟨j, hj, k, hk, rfl⟩; exact hle j hj k hk⟩
  have hGM : |G - M| ≤ 4 * binary32.u * M := by
    have a := (abs_le.1 (hgain j1 k1)).2
    have b := (abs_le.1 (hgain j0 k0)).1
    rw [← e0, max_eq_left hνM] at b
    have c := hle j0 hj0 k0 hk0
    have d : mod j1 k1 ≤ M := hM.2 ⟨j1, hin.1, k1, hin.2, rfl⟩
    have e := mul_le_mul_of_nonneg_left (max_le d hνM) (show 0 ≤ 4 * binary32.u by linarith)
    rw [abs_le]
    constructor <;> linarith
  have hGl : M * (1 - 1 / 100) ≤ G ∧ G ≤ M * (1 + 1 / 100) := by
    have e := mul_le_mul_of_nonneg_right (show 4 * binary32.u ≤ 1 / 100 by rw [hu']; norm_num) hM0.le
    rw [abs_le] at hGM
    constructor <;> linarith
  have hG1 : (2 : ℝ) ^ (-30 : ℤ) * (3 / 2) ≤ G := by
    refine le_trans ?_ hGl.1
    refine le_trans ?_ (mul_le_mul_of_nonneg_right hM1 (by norm_num))
    norm_num
  have hG2 : G ≤ (2 : ℝ) ^ (30 : ℤ) * (3 / 4) := by
    refine hGl.2.trans ((mul_le_mul_of_nonneg_right hM2 (by norm_num)).trans ?_)
    norm_num
  have hG0 : 0 < G := lt_of_lt_of_le (by norm_num) hG1
  obtain ⟨w, ew, -, hw⟩ := C122_weights hl hκ hi hz hK hK2 hb hlow h1 h2
  obtain ⟨φ, es, hφ, -⟩ := C124_peak (abs := abs) (fun j hj k hk => ⟨z j k, hd j hj k hk⟩) (fun j k => (h0 j k).2) hGg
    (le_trans (by norm_num) hG1) (hG2.trans (by norm_num))
  have hφ0 := hφ.pos hf
  have hφn := hφ.near_one hf (by rw [hu']; norm_num)
  have hφl := hφ.logb hf (by norm_num)
  have hq : 0 < G * G := mul_pos hG0 hG0
  have s1 : (2 : ℝ) ^ (-60 : ℤ) ≤ 1 / (G * G) * φ := by
    have a : G * G ≤ (2 : ℝ) ^ (30 : ℤ) * (3 / 4) * ((2 : ℝ) ^ (30 : ℤ) * (3 / 4)) := mul_le_mul hG2 hG2 hG0.le (by positivity)
    rw [one_div_mul_eq_div, le_div_iff₀ hq]
    refine (mul_le_mul_of_nonneg_left a (two_zpow_pos _).le).trans (le_trans ?_ hφn.1)
    norm_num
  have s2 : 1 / (G * G) * φ ≤ (2 : ℝ) ^ (60 : ℤ) := by
    have a : (2 : ℝ) ^ (-30 : ℤ) * (3 / 2) * ((2 : ℝ) ^ (-30 : ℤ) * (3 / 2)) ≤ G * G := mul_le_mul hG1 hG1 (by positivity) hG0.le
    rw [one_div_mul_eq_div, div_le_iff₀ hq]
    refine le_trans ?_ (mul_le_mul_of_nonneg_left a (two_zpow_pos _).le)
    refine hφn.2.trans ?_
    norm_num
  refine ⟨w, _, ew, es, fun j hj k hk => ?_⟩
  have hgle := hle j hj k hk
  have hg0 := (h0 j k).2
  have q4 : gain j k * gain j k * (1 / (G * G) * φ) ≤ 4 := by
    have a : gain j k * gain j k ≤ G * G := mul_le_mul hgle hgle hg0 hG0.le
    rw [one_div_mul_eq_div, mul_div_assoc', div_le_iff₀ hq]
    have b := mul_le_mul a (show φ ≤ 4 by linarith) hφ0.le hq.le
    linarith
  have hdec := C123_decision hl hκ hm (t := t) (hd j hj k hk).2 hg0 s1 s2 q4 w j k
  have hlev := level_near (h0 j k).1 hg0 (hgain j k) hM1 hGM hφ0 (by linarith) hφl
  generalize level (1 / (1 / (G * G) * φ)) (gain j k * gain j k) = L at *
  generalize level (M * M) (mod j k * mod j k) = L' at *
  rw [hu', abs_le] at hlev
  norm_num at hlev
  refine ⟨fun hkl => ?_, fun hkl h => hdec.2 ((hw k hk).2.1 hkl h), fun hkl h => ?_⟩
  · have d := hdec.1 100 ((hw k hk).1 hkl) (by norm_num)
    exact ⟨fun h => d.1 (by linarith), fun h => d.2 (by linarith)⟩
  · obtain ⟨y, ey, hy⟩ := (hw k hk).2.2 hkl h
    have hKr : (1 : ℝ) ≤ K := by exact_mod_cast hK
    have hKr2 : (K : ℝ) ≤ 2097152 := by exact_mod_cast (by omega : K ≤ 2097152)
    have hir : (1 : ℝ) ≤ k := by exact_mod_cast (by omega : 1 ≤ k)
    have hiKr : 2 * (k : ℝ) ≤ K := by exact_mod_cast (by omega : 2 * k ≤ K)
    have hbd := aWeight_bound (g := k * rate / K)
      (by rw [le_div_iff₀ (by linarith)]; norm_num; nlinarith)
      (by rw [div_le_iff₀ (by linarith)]; norm_num at h2 ⊢; nlinarith)
    rw [abs_lt] at hy
    rw [abs_le] at hbd
    have d := hdec.1 y ey (by rw [abs_le]; constructor <;> linarith)
    exact ⟨fun h => d.1 (by linarith), fun h => d.2 (by linarith)⟩

private theorem round_tiny {g : ℝ} (h0 : 0 ≤ g) (h : g < (2 : ℝ) ^ (-75 : ℤ)) : binary32.round ((FVal.fin g).mul (.fin g)) = .fin 0 := by
  show binary32.round (.fin (g * g)) = _
  have hq : |g * g| < (2 : ℝ) ^ binary32.emin / 2 := by
    rw [abs_of_nonneg (mul_nonneg h0 h0)]
    calc g * g < (2 : ℝ) ^ (-75 : ℤ) * (2 : ℝ) ^ (-75 : ℤ) := mul_self_lt_mul_self h0 h
      _ = (2 : ℝ) ^ (-149 : ℤ) / 2 := by norm_num
  have r : binary32.rndInf (g * g) = 0 := by
    have := rndInf_of_near (f := binary32) (x := g * g) (n := 0) (by
      rw [Int.cast_zero, zero_mul, sub_zero]
      refine hq.trans_le ?_
      have : (2 : ℝ) ^ binary32.emin ≤ (2 : ℝ) ^ binary32.ulpExp (g * g) := zpow_le_zpow_right₀ (by norm_num) (le_max_left _ _)
      linarith)
    rw [this, Int.cast_zero, zero_mul]
  rw [round_fin_of_lt (by rw [r, abs_zero]; exact two_zpow_pos _), r]

/-- **C124** (silent channel).  If every gain is below `2⁻⁷⁵`, the powers are 0, the factor is `+∞`, the products are NaN, and the
decision is still defined: every bin counts as one at the floor of -72 dB. -/
theorem C124_silent {β : Type} {log10 : FVal → FVal} (hm : LogOk log10)
    {abs : β → FVal} {v : MatView} {data : List β} {z : ℕ → ℕ → β} {gain : ℕ → ℕ → ℝ}
    (hd : ∀ j < v.rows, ∀ k < v.cols, rd data (v.idx j k) = .ok (z j k) ∧ abs (z j k) = .fin (gain j k))
    (h0 : ∀ j k, 0 ≤ gain j k) (h1 : ∀ j k, gain j k < (2 : ℝ) ^ (-75 : ℤ)) :
    normalizationFactorI abs v data = .ok (.inf false) ∧
    ∀ (t : ℝ) (weights : List FVal), ∀ j < v.rows, ∀ k < v.cols, ∀ w, weights.getD k .nan = .fin w → |w| ≤ 2000 →
      (t + 1 / 1000 < -72 + w → isAboveThresholdI log10 abs (.fin t) (.inf false) weights j k (z j k) = true) ∧
      (-72 + w < t - 1 / 1000 → isAboveThresholdI log10 abs (.fin t) (.inf false) weights j k (z j k) = false) := by
  have hf := ieee32
  have hu' := u32
  have hE : (2 : ℝ) ^ binary32.emax = (2 : ℝ) ^ (128 : ℤ) := rfl
  have hν := minNormal_le_one hf
  constructor
  · obtain ⟨s, e, rfl⟩ := forN_inv (n := v.rows) (body := fun p maxPower => forN v.cols (fun bin maxPower => do
        let z ← rd data (v.idx p bin)
        let amplitude := abs z
        pure (maxI maxPower (binary32.round (amplitude.mul amplitude)))) maxPower) (s := FVal.fin 0)
      (fun _ (s : FVal) => s = .fin 0) rfl (by
        rintro j hj s rfl
        refine forN_inv (fun _ (s : FVal) => s = .fin 0) rfl ?_
        rintro k hk s rfl
        refine ⟨.fin 0, ?_, rfl⟩
        rw [(hd j hj k hk).1, bind_ok]
        dsimp only
        rw [(hd j hj k hk).2, round_tiny (h0 j k) (h1 j k), pure_eq_ok]
        unfold maxI
        rw [ite_self])
    unfold normalizationFactorI
    rw [e, bind_ok, pure_eq_ok]
    have : (FVal.fin 1).div (.fin 0) = .inf false := by simp [FVal.div]
    rw [this]
    rfl
  · intro t weights j hj k hk w hw hw2
    have e1 : amplitudeToDbI binary32 log10 (binary32.round ((FVal.fin 0).mul (.inf false))) (.fin (-144)) = .fin (-144) := by
      have : (FVal.fin 0).mul (.inf false) = .nan := by simp [FVal.mul]
      rw [this]
      unfold amplitudeToDbI maxI
      rw [show binary32.round .nan = .nan from rfl, if_neg (by simp [FVal.Le]), hm.nan]
      refine if_neg ?_
      have : (ofNat binary32 20).mul .nan = .nan := by cases ofNat binary32 20 <;> rfl
      rw [this]
      exact not_false
    have e2 : binary32.round ((FVal.fin (-144)).mul (.fin 0.5)) = .fin (-72) := by
      have : (FVal.fin (-144)).mul (.fin 0.5) = .fin (-72) := by simp only [FVal.mul]; norm_num
      rw [this]
      exact round_mem ⟨-72, 0, by norm_num [binary32], by norm_num [binary32], by norm_num⟩ (by rw [hE]; norm_num)
    rw [abs_le] at hw2
    obtain ⟨d, ed, hd'⟩ := round_ok hf (t := -72 + w) (T := 2200) (by rw [abs_le]; constructor <;> linarith) (by linarith)
      (by rw [hE, hu']; norm_num)
    rw [hu', abs_le] at hd'
    norm_num at hd'
    have e : isAboveThresholdI log10 abs (.fin t) (.inf false) weights j k (z j k) = true ↔ t < d := by
      unfold isAboveThresholdI
      dsimp only
      rw [(hd j hj k hk).2, round_tiny (h0 j k) (h1 j k), e1, hw, e2, show binary32.round ((FVal.fin (-72)).add (.fin w)) = .fin d from ed,
        @decide_eq_true_iff _ (Classical.propDecidable _)]
      exact Iff.rfl
    refine ⟨fun h => e.2 (by linarith), fun h => ?_⟩
    rw [Bool.eq_false_iff, ne_eq, e]
    linarith

/-- The correctly rounded logarithm does not decrease. -/
theorem log10Z_ok : LogOk (log10Z binary32) := by
  have h := log10R_ok (f := binary32) (by norm_num [binary32])
  have e : ∀ a : FVal, (FVal.fin 0).Lt a → log10Z binary32 a = log10R binary32 a := by
    intro a ha
    cases a with
    | fin x => exact if_neg (show (0 : ℝ) < x from ha).ne'
    | inf s => rfl
    | nan => rfl
  refine ⟨fun a b ha hab => ?_, rfl⟩
  have hb : (FVal.fin 0).Lt b := by
    cases a with
    | nan => exact absurd ha (by simp [FVal.Lt])
    | inf s =>
      cases s with
      | true => exact absurd ha (by simp [FVal.Lt])
      | false =>
        cases b with
        | nan => exact absurd hab (by simp [FVal.Le])
        | fin y => exact absurd hab (by simp [FVal.Le])
        | inf t => cases t <;> simp [FVal.Le, FVal.Lt] at hab ⊢
    | fin x =>
      cases b with
      | nan => exact absurd hab (by simp [FVal.Le])
      | fin y => exact lt_of_lt_of_le (show (0 : ℝ) < x from ha) (show x ≤ y from hab)
      | inf t => cases t <;> simp [FVal.Le, FVal.Lt] at hab ⊢
  rw [e a ha, e b hb]
  exact h.mono a b ha hab

/-- Three bins of moduli 1, 1/2 and 1/4, the first one kept by its bonus: it is above 50 dB, with a correctly rounded logarithm. -/
example : ∃ w s, sparseWeightsI (log10Z binary32) 4 3 1 44100 = .ok w ∧
    normalizationFactorI (fun x : ℝ => FVal.fin x) (MatView.right 1 3) [1, 1 / 2, 1 / 4] = .ok s ∧
    isAboveThresholdI (log10Z binary32) (fun x : ℝ => FVal.fin x) (.fin 50) s w 0 0 1 = true := by
  have hu := u_pos binary32
  have hν := minNormal_pos binary32
  obtain ⟨w, s, e1, e2, h⟩ := C124_kept (log10Z_near ieee32 (by norm_num [binary32])) (by rw [u32]; norm_num) log10Z_ok rfl (if_pos rfl)
    (abs := fun x : ℝ => FVal.fin x) (v := MatView.right 1 3) (data := [1, 1 / 2, 1 / 4]) (z := fun _ k => (1 / 2) ^ k)
    (mod := fun _ k => (1 / 2) ^ k) (gain := fun _ k => (1 / 2) ^ k)
    (by
      intro j hj k hk
      have hj0 : j = 0 := by simpa [MatView.right] using hj
      have hk3 : k < 3 := hk
      subst hj0
      refine ⟨?_, rfl⟩
      interval_cases k <;> norm_num [rd, MatView.idx, MatView.right])
    (fun j k => ⟨by positivity, by positivity⟩) (fun j k => by rw [sub_self, abs_zero]; positivity) (M := 1)
    ⟨⟨0, by norm_num [MatView.right], 0, by norm_num [MatView.right], by norm_num⟩, by
      rintro _ ⟨j, hj, k, hk, rfl⟩
      exact pow_le_one₀ (by norm_num) (by norm_num)⟩ (by norm_num) (by norm_num) (K := 4) (low := 1) (by norm_num) (by norm_num)
    (by norm_num [MatView.right]) (by norm_num [MatView.right]) (rate := 44100) (t := 50) (by norm_num) (by norm_num)
  refine ⟨w, s, e1, e2, ?_⟩
  have := ((h 0 (by norm_num [MatView.right]) 0 (by norm_num [MatView.right])).1 (by norm_num)).1 (by
    unfold level
    norm_num)
  simpa using this

/-- A silent channel of two bins. -/
example : normalizationFactorI (fun x : ℝ => FVal.fin x) (MatView.right 1 2) [0, 0] = .ok (.inf false) :=
  (C124_silent log10Z_ok (z := fun _ _ => 0) (gain := fun _ _ => 0) (by
      intro j hj k hk
      have hj0 : j = 0 := by simpa [MatView.right] using hj
      have hk2 : k < 2 := hk
      subst hj0
      refine ⟨?_, rfl⟩
      interval_cases k <;> norm_num [rd, MatView.idx, MatView.right]) (fun _ _ => le_rfl) (fun _ _ => two_zpow_pos _)).1

end Neo.Props
