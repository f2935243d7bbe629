import Verif.Props.SparsePeak

/-! # C126: infinities and NaN in the filter of the sparse renderer -/

namespace Neo.Props

open Neo Spec

private theorem ieee32 : binary32.Ieee := by unfold Fmt.Ieee binary32; norm_num

private theorem u32 : binary32.u = 1 / 2 ^ 24 := by
  show (2 : ℝ) ^ (-((24 : ℕ) : ℤ)) = _
  rw [zpow_neg, zpow_natCast, one_div]

private theorem rz : binary32.round (.fin 0) = .fin 0 := round_mem (onGrid_zero _) (by rw [abs_zero]; exact two_zpow_pos _)

/-- Two loops that agree as long as an invariant holds. -/
private theorem forN_same {σ : Type} (I : σ → Prop) {n : ℕ} {body body' : ℕ → σ → Res σ} {s : σ} (h0 : I s)
    (h : ∀ i < n, ∀ s, I s → body i s = body' i s ∧ ∀ r, body i s = .ok r → I r) :
    forN n body s = forN n body' s ∧ ∀ r, forN n body s = .ok r → I r := by
  induction n with
  | zero => exact ⟨rfl, fun r e => by rw [forN_zero] at e; cases e; exact h0⟩
  | succ n ih =>
    obtain ⟨e, hI⟩ := ih (fun i hi => h i (by omega))
    rw [forN_succ, forN_succ, ← e]
    cases c : forN n body s with
    | error f => exact ⟨rfl, fun r e => by cases e⟩
    | ok t =>
      rw [bind_ok, bind_ok]
      exact h n (by omega) t (hI t c)

/-- **C126** (NaN and the peak).  NaN bins do not enter the peak: the factor is the one of the filter with zeros in their place, whatever
the other bins are (numbers, infinities) and also if the view exceeds the buffer. -/
theorem C126_nan_peak {β : Type} (abs : β → FVal) (v : MatView) (data : List β) [DecidablePred fun z => abs z = .nan] :
    normalizationFactorI abs v data = normalizationFactorI (fun z => if abs z = .nan then .fin 0 else abs z) v data := by
  have hst : ∀ (s : FVal) (z : β), ¬ s.Lt (.fin 0) →
      maxI s (binary32.round ((abs z).mul (abs z)))
        = maxI s (binary32.round ((if abs z = .nan then FVal.fin 0 else abs z).mul (if abs z = .nan then .fin 0 else abs z))) ∧
      ¬ (maxI s (binary32.round ((abs z).mul (abs z)))).Lt (.fin 0) := by
    intro s z hs
    have hn : ∀ x : FVal, ¬ (maxI s x).Lt (.fin 0) := by
      intro x
      unfold maxI
      split
      · rename_i h
        intro hx
        apply hs
        cases s <;> cases x <;> simp only [FVal.Lt] at * <;> first | linarith | tauto | (simp_all)
      · exact hs
    refine ⟨?_, hn _⟩
    by_cases c : abs z = .nan
    · rw [if_pos c, c]
      have e1 : binary32.round (FVal.nan.mul .nan) = .nan := rfl
      have e2 : binary32.round ((FVal.fin 0).mul (.fin 0)) = .fin 0 := by
        show binary32.round (.fin (0 * 0)) = _
        rw [mul_zero, rz]
      rw [e1, e2]
      unfold maxI
      rw [if_neg hs, if_neg (by cases s <;> simp [FVal.Lt])]
    · rw [if_neg c]
  unfold normalizationFactorI
  rw [(forN_same (fun s : FVal => ¬ s.Lt (.fin 0)) (by simp [FVal.Lt]) (fun j _ s hs => ?_)).1]
  refine forN_same (fun s : FVal => ¬ s.Lt (.fin 0)) hs (fun k _ s hs => ?_)
  cases rd data (v.idx j k) with
  | error f => exact ⟨rfl, fun r e => by cases e⟩
  | ok z =>
    simp only [bind_ok, pure_eq_ok]
    refine ⟨by rw [(hst s z hs).1], fun r e => ?_⟩
    cases e
    exact (hst s z hs).2

/-- A level of -72 dB before the weight is added. -/
private theorem floor_decision {β : Type} {log10 : FVal → FVal} {abs : β → FVal} {bin : β} {scale : FVal}
    (h : amplitudeToDbI binary32 log10 (binary32.round ((binary32.round ((abs bin).mul (abs bin))).mul scale)) (.fin (-144)) = .fin (-144))
    (t : ℝ) (weights : List FVal) (j k : ℕ) {w : ℝ} (hw : weights.getD k .nan = .fin w) (hw2 : |w| ≤ 2000) :
    (t + 1 / 1000 < -72 + w → isAboveThresholdI log10 abs (.fin t) scale weights j k bin = true) ∧
    (-72 + w < t - 1 / 1000 → isAboveThresholdI log10 abs (.fin t) scale weights j k bin = false) := by
  have hf := ieee32
  have hu' := u32
  have hE : (2 : ℝ) ^ binary32.emax = (2 : ℝ) ^ (128 : ℤ) := rfl
  have hν := minNormal_le_one hf
  have e2 : binary32.round ((FVal.fin (-144)).mul (.fin 0.5)) = .fin (-72) := by
    have : (FVal.fin (-144)).mul (.fin 0.5) = .fin (-72) := by simp only [FVal.mul]; norm_num
    rw [this]
    exact round_mem ⟨-72, 0, by norm_num [binary32], by norm_num [binary32], by norm_num⟩ (by rw [hE]; norm_num)
  rw [abs_le] at hw2
  obtain ⟨d, ed, hd'⟩ := round_ok hf (t := -72 + w) (T := 2200) (by rw [abs_le]; constructor <;> linarith) (by linarith)
    (by rw [hE, hu']; norm_num)
  rw [hu', abs_le] at hd'
  norm_num at hd'
  have e : isAboveThresholdI log10 abs (.fin t) scale weights j k bin = true ↔ t < d := by
    unfold isAboveThresholdI
    dsimp only
    rw [h, hw, e2, show binary32.round ((FVal.fin (-72)).add (.fin w)) = .fin d from ed, @decide_eq_true_iff _ (Classical.propDecidable _)]
    exact Iff.rfl
  refine ⟨fun h => e.2 (by linarith), fun h => ?_⟩
  rw [Bool.eq_false_iff, ne_eq, e]
  linarith

private theorem db_nan {log10 : FVal → FVal} (hm : LogOk log10) : amplitudeToDbI binary32 log10 .nan (.fin (-144)) = .fin (-144) := by
  unfold amplitudeToDbI maxI
  rw [if_neg (by simp [FVal.Le]), hm.nan]
  refine if_neg ?_
  have : (ofNat binary32 20).mul .nan = .nan := by cases ofNat binary32 20 <;> rfl
  rw [this]
  exact not_false

/-- **C126** (NaN bins).  A NaN bin counts as one at the floor of -72 dB, whatever the factor is. -/
theorem C126_nan_bin {β : Type} {log10 : FVal → FVal} (hm : LogOk log10) {abs : β → FVal} {bin : β} (hb : abs bin = .nan) (scale : FVal)
    (t : ℝ) (weights : List FVal) (j k : ℕ) {w : ℝ} (hw : weights.getD k .nan = .fin w) (hw2 : |w| ≤ 2000) :
    (t + 1 / 1000 < -72 + w → isAboveThresholdI log10 abs (.fin t) scale weights j k bin = true) ∧
    (-72 + w < t - 1 / 1000 → isAboveThresholdI log10 abs (.fin t) scale weights j k bin = false) := by
  refine floor_decision ?_ t weights j k hw hw2
  have : FVal.nan.mul scale = .nan := by cases scale <;> rfl
  rw [hb, show binary32.round (FVal.nan.mul .nan) = .nan from rfl, this]
  exact db_nan hm

/-- **C126** (infinite bins).  If one bin is infinite or has a modulus of `2⁶⁴` or more, the factor is 0 and every bin of the channel, this
one included, counts as one at the floor of -72 dB, whatever the bins are. -/
theorem C126_infinite {β : Type} {log10 : FVal → FVal} (hm : LogOk log10) {abs : β → FVal} {v : MatView} {data : List β} {z : ℕ → ℕ → β}
    (hd : ∀ j < v.rows, ∀ k < v.cols, rd data (v.idx j k) = .ok (z j k))
    {j0 k0 : ℕ} (hj0 : j0 < v.rows) (hk0 : k0 < v.cols)
    (hbig : abs (z j0 k0) = .inf false ∨ ∃ g, abs (z j0 k0) = .fin g ∧ (2 : ℝ) ^ (64 : ℤ) ≤ g) :
    normalizationFactorI abs v data = .ok (.fin 0) ∧
    ∀ (t : ℝ) (weights : List FVal), ∀ j < v.rows, ∀ k < v.cols, ∀ w, weights.getD k .nan = .fin w → |w| ≤ 2000 →
      (t + 1 / 1000 < -72 + w → isAboveThresholdI log10 abs (.fin t) (.fin 0) weights j k (z j k) = true) ∧
      (-72 + w < t - 1 / 1000 → isAboveThresholdI log10 abs (.fin t) (.fin 0) weights j k (z j k) = false) := by
  constructor
  · have hp : binary32.round ((abs (z j0 k0)).mul (abs (z j0 k0))) = .inf false := by
      rcases hbig with h | ⟨g, h, hg⟩
      · rw [h]; rfl
      · rw [h]
        refine round_fin_of_le (grid_le_rndInf (by norm_num [binary32]) (two_zpow_onGrid (by norm_num [binary32]) (by norm_num [binary32])) ?_)
        show (2 : ℝ) ^ (128 : ℤ) ≤ g * g
        rw [show (128 : ℤ) = 64 + 64 by norm_num, zpow_add₀ (by norm_num)]
        exact mul_le_mul hg hg (two_zpow_pos _).le ((two_zpow_pos _).le.trans hg)
    -- the state is not below 0, and stays infinite
    have hn : ∀ s x : FVal, ¬ s.Lt (.fin 0) → ¬ (maxI s x).Lt (.fin 0) := by
      intro s x hs
      unfold maxI
      split
      · rename_i h
        intro hx
        apply hs
        cases s <;> cases x <;> simp only [FVal.Lt] at * <;> first | linarith | tauto | (simp_all)
      · exact hs
    have hinf : ∀ x : FVal, maxI (.inf false) x = .inf false := by
      intro x
      unfold maxI
      refine if_neg ?_
      cases x <;> simp [FVal.Lt]
    have hto : ∀ s : FVal, s ≠ .nan → ¬ s.Lt (.fin 0) → maxI s (.inf false) = .inf false := by
      intro s h1 h2
      unfold maxI
      cases s with
      | nan => exact absurd rfl h1
      | fin x => exact if_pos rfl
      | inf b =>
        cases b with
        | true => exact absurd rfl h2
        | false => exact ite_self _
    have hnn : ∀ s x : FVal, s ≠ .nan → maxI s x ≠ .nan := by
      intro s x h1
      unfold maxI
      split
      · rename_i h
        rintro rfl
        cases s <;> exact h
      · exact h1
    obtain ⟨s, e, -, -, hs⟩ := forN_inv (n := v.rows) (body := fun p maxPower => forN v.cols (fun bin maxPower => do
        let z ← rd data (v.idx p bin)
        let amplitude := abs z
        pure (maxI maxPower (binary32.round (amplitude.mul amplitude)))) maxPower) (s := FVal.fin 0)
      (fun t (s : FVal) => s ≠ .nan ∧ ¬ s.Lt (.fin 0) ∧ (j0 < t → s = .inf false)) ⟨by simp, by simp [FVal.Lt], by omega⟩ (by
        rintro j hj s ⟨h1, h2, h3⟩
        obtain ⟨r, e, a1, a2, a3⟩ := forN_inv (n := v.cols) (body := fun bin maxPower => do
            let z ← rd data (v.idx j bin)
            let amplitude := abs z
            pure (maxI maxPower (binary32.round (amplitude.mul amplitude)))) (s := s)
          (fun t (s : FVal) => s ≠ .nan ∧ ¬ s.Lt (.fin 0) ∧ (j0 < j ∨ (j0 = j ∧ k0 < t) → s = .inf false))
          ⟨h1, h2, by rintro (h | h); exacts [h3 h, by omega]⟩ (by
            rintro k hk s ⟨h1, h2, h3⟩
            refine ⟨maxI s (binary32.round ((abs (z j k)).mul (abs (z j k)))), ?_, hnn _ _ h1, hn _ _ h2, ?_⟩
            · rw [hd j hj k hk, bind_ok, pure_eq_ok]
            · intro h
              by_cases c : j0 < j ∨ (j0 = j ∧ k0 < k)
              · rw [h3 c, hinf]
              · obtain ⟨rfl, rfl⟩ : j0 = j ∧ k0 = k := by omega
                rw [hp, hto s h1 h2])
        exact ⟨r, e, a1, a2, fun h => a3 (by omega)⟩)
    unfold normalizationFactorI
    rw [e, bind_ok, pure_eq_ok, hs hj0]
    exact congrArg _ rz
  · intro t weights j hj k hk w hw hw2
    refine floor_decision ?_ t weights j k hw hw2
    generalize binary32.round ((abs (z j k)).mul (abs (z j k))) = p
    cases p with
    | nan => exact db_nan hm
    | inf b =>
      have : (FVal.inf b).mul (.fin 0) = .nan := by simp [FVal.mul]
      rw [this]
      exact db_nan hm
    | fin x =>
      show amplitudeToDbI binary32 log10 (binary32.round (.fin (x * 0))) _ = _
      rw [mul_zero, rz]
      unfold amplitudeToDbI
      exact if_pos (show (FVal.fin 0).Le (.fin 0) from le_rfl)

/-- Bins 1 and `2⁶⁴`: the factor is 0, and the first bin is dropped at -40 dB with a weight of 0 dB. -/
example : normalizationFactorI (fun x : ℝ => FVal.fin x) (MatView.right 1 2) [1, 2 ^ 64] = .ok (.fin 0) ∧
    isAboveThresholdI (log10Z binary32) (fun x : ℝ => FVal.fin x) (.fin (-40)) (.fin 0) [.fin 0, .fin 0] 0 0 1 = false := by
  obtain ⟨h1, h2⟩ := C126_infinite log10Z_ok (abs := fun x : ℝ => FVal.fin x) (v := MatView.right 1 2) (data := [1, 2 ^ 64])
    (z := fun _ k => if k = 0 then 1 else 2 ^ 64)
    (by
      intro j hj k hk
      have hj0 : j = 0 := by simpa [MatView.right] using hj
      have hk2 : k < 2 := hk
      subst hj0
      interval_cases k <;> norm_num [rd, MatView.idx, MatView.right]) (j0 := 0) (k0 := 1) (by norm_num [MatView.right])
    (by norm_num [MatView.right]) (Or.inr ⟨2 ^ 64, rfl, by norm_num⟩)
  exact ⟨h1, by simpa using (h2 (-40) [.fin 0, .fin 0] 0 (by norm_num [MatView.right]) 0 (by norm_num [MatView.right]) 0 rfl (by norm_num)).2 (by norm_num)⟩

end Neo.Props
