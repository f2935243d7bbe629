import Verif.Model.FastMath
import Mathlib.Analysis.SpecialFunctions.Log.Deriv
import Mathlib.Analysis.Calculus.MeanValue
import Mathlib.Analysis.SpecialFunctions.Exp
import Mathlib.Analysis.Complex.ExponentialBounds

/-! # Accuracy of the approximate logarithm -/

namespace Neo

/-! ## A rational approximation of the logarithm -/

/-- Partial sum of `2 artanh u = log ((1 + u) / (1 - u))`. -/
noncomputable def atanhSum (u : ℝ) : ℝ := 2 * (u + u ^ 3 / 3 + u ^ 5 / 5 + u ^ 7 / 7)

/-- The rational function of `fast_log2`, numerator and denominator in the variable `u`. -/
noncomputable def gDen (u : ℝ) : ℝ := (1 - u) * (0.3520887068 * (1 - u) + 3 / 4 * (1 + u))

noncomputable def gNum (u : ℝ) : ℝ :=
  (126 - 124.22551499) * gDen u
    + (2 - 1.498030302) * (3 / 4 * (1 + u) * (0.3520887068 * (1 - u) + 3 / 4 * (1 + u)))
    - 1.72587999 * (1 - u) ^ 2

private theorem pieceUp0 {u : ℝ} (h1 : (-1 : ℝ) / 5 ≤ u) (h2 : u ≤ (-1 : ℝ) / 10) :
    0 ≤ (0.69314718 * gNum u - (atanhSum u + atanhSum (1 / 5)) * gDen u) + 0.000108 * gDen u := by
  have e : (0.69314718 * gNum u - (atanhSum u + atanhSum (1 / 5)) * gDen u) + 0.000108 * gDen u
      = ((103530975083018799365043 : ℝ) / 781250000000000000) * ((u - ((-1 : ℝ) / 5)) ^ 0 * (((-1 : ℝ) / 10) - u) ^ 9) + ((3902245964909002484326827 : ℝ) / 6250000000000000000) * ((u - ((-1 : ℝ) / 5)) ^ 1 * (((-1 : ℝ) / 10) - u) ^ 8) + ((27090678488769688739499897 : ℝ) / 25000000000000000000) * ((u - ((-1 : ℝ) / 5)) ^ 2 * (((-1 : ℝ) / 10) - u) ^ 7) + ((19837692931964155625130239 : ℝ) / 25000000000000000000) * ((u - ((-1 : ℝ) / 5)) ^ 3 * (((-1 : ℝ) / 10) - u) ^ 6) + ((8977029548574067670639469 : ℝ) / 25000000000000000000) * ((u - ((-1 : ℝ) / 5)) ^ 4 * (((-1 : ℝ) / 10) - u) ^ 5) + ((60370878272161679861245913 : ℝ) / 75000000000000000000) * ((u - ((-1 : ℝ) / 5)) ^ 5 * (((-1 : ℝ) / 10) - u) ^ 4) + ((105397112622444700574045729 : ℝ) / 75000000000000000000) * ((u - ((-1 : ℝ) / 5)) ^ 6 * (((-1 : ℝ) / 10) - u) ^ 3) + ((195858993998268317340924299 : ℝ) / 175000000000000000000) * ((u - ((-1 : ℝ) / 5)) ^ 7 * (((-1 : ℝ) / 10) - u) ^ 2) + ((222984592539241217656099739 : ℝ) / 525000000000000000000) * ((u - ((-1 : ℝ) / 5)) ^ 8 * (((-1 : ℝ) / 10) - u) ^ 1) + ((33205782099515431597972649 : ℝ) / 525000000000000000000) * ((u - ((-1 : ℝ) / 5)) ^ 9 * (((-1 : ℝ) / 10) - u) ^ 0) := by
    unfold gNum gDen atanhSum
    ring
  rw [e]
  have g1 : 0 ≤ u - ((-1 : ℝ) / 5) := sub_nonneg.2 h1
  have g2 : 0 ≤ ((-1 : ℝ) / 10) - u := sub_nonneg.2 h2
  positivity

private theorem pieceUp1 {u : ℝ} (h1 : (-1 : ℝ) / 10 ≤ u) (h2 : u ≤ (0 : ℝ)) :
    0 ≤ (0.69314718 * gNum u - (atanhSum u + atanhSum (1 / 5)) * gDen u) + 0.000108 * gDen u := by
  have e : (0.69314718 * gNum u - (atanhSum u + atanhSum (1 / 5)) * gDen u) + 0.000108 * gDen u
      = ((33205782099515431597972649 : ℝ) / 525000000000000000000) * ((u - ((-1 : ℝ) / 10)) ^ 0 * (((0 : ℝ)) - u) ^ 9) + ((374719485252036551107407943 : ℝ) / 525000000000000000000) * ((u - ((-1 : ℝ) / 10)) ^ 1 * (((0 : ℝ)) - u) ^ 8) + ((1801456123697167619633238529 : ℝ) / 525000000000000000000) * ((u - ((-1 : ℝ) / 10)) ^ 2 * (((0 : ℝ)) - u) ^ 7) + ((137951690458557430875855709 : ℝ) / 15000000000000000000) * ((u - ((-1 : ℝ) / 10)) ^ 3 * (((0 : ℝ)) - u) ^ 6) + ((75918708859299404498114103 : ℝ) / 5000000000000000000) * ((u - ((-1 : ℝ) / 10)) ^ 4 * (((0 : ℝ)) - u) ^ 5) + ((401675299854568139175000149 : ℝ) / 25000000000000000000) * ((u - ((-1 : ℝ) / 10)) ^ 5 * (((0 : ℝ)) - u) ^ 4) + ((819505002891925854485856349 : ℝ) / 75000000000000000000) * ((u - ((-1 : ℝ) / 10)) ^ 6 * (((0 : ℝ)) - u) ^ 3) + ((2422350780141208320166127549 : ℝ) / 525000000000000000000) * ((u - ((-1 : ℝ) / 10)) ^ 7 * (((0 : ℝ)) - u) ^ 2) + ((5770660288269252762939191 : ℝ) / 5250000000000000000) * ((u - ((-1 : ℝ) / 10)) ^ 8 * (((0 : ℝ)) - u) ^ 1) + ((591667163915348866246171 : ℝ) / 5250000000000000000) * ((u - ((-1 : ℝ) / 10)) ^ 9 * (((0 : ℝ)) - u) ^ 0) := by
    unfold gNum gDen atanhSum
    ring
  rw [e]
  have g1 : 0 ≤ u - ((-1 : ℝ) / 10) := sub_nonneg.2 h1
  have g2 : 0 ≤ ((0 : ℝ)) - u := sub_nonneg.2 h2
  positivity

private theorem pieceUp2 {u : ℝ} (h1 : (0 : ℝ) ≤ u) (h2 : u ≤ (1 : ℝ) / 14) :
    0 ≤ (0.69314718 * gNum u - (atanhSum u + atanhSum (1 / 5)) * gDen u) + 0.000108 * gDen u := by
  have e : (0.69314718 * gNum u - (atanhSum u + atanhSum (1 / 5)) * gDen u) + 0.000108 * gDen u
      = ((3410843458206367059484792826971 : ℝ) / 1464843750000000000000000) * ((u - ((0 : ℝ))) ^ 0 * (((1 : ℝ) / 14) - u) ^ 9) + ((28862507497701894205590652747559 : ℝ) / 1464843750000000000000000) * ((u - ((0 : ℝ))) ^ 1 * (((1 : ℝ) / 14) - u) ^ 8) + ((84977715935364416916134786881513 : ℝ) / 1171875000000000000000000) * ((u - ((0 : ℝ))) ^ 2 * (((1 : ℝ) / 14) - u) ^ 7) + ((890358110686168573025454822988603 : ℝ) / 5859375000000000000000000) * ((u - ((0 : ℝ))) ^ 3 * (((1 : ℝ) / 14) - u) ^ 6) + ((77806963745117324402036463068839 : ℝ) / 390625000000000000000000) * ((u - ((0 : ℝ))) ^ 4 * (((1 : ℝ) / 14) - u) ^ 5) + ((329591465037006545169817635025173 : ℝ) / 1953125000000000000000000) * ((u - ((0 : ℝ))) ^ 5 * (((1 : ℝ) / 14) - u) ^ 4) + ((539277749979954566983266741074471 : ℝ) / 5859375000000000000000000) * ((u - ((0 : ℝ))) ^ 6 * (((1 : ℝ) / 14) - u) ^ 3) + ((36416078673765565910107918036637 : ℝ) / 1171875000000000000000000) * ((u - ((0 : ℝ))) ^ 7 * (((1 : ℝ) / 14) - u) ^ 2) + ((34641334672517547811815590511703 : ℝ) / 5859375000000000000000000) * ((u - ((0 : ℝ))) ^ 8 * (((1 : ℝ) / 14) - u) ^ 1) + ((4049592187482879668505435735331 : ℝ) / 8203125000000000000000000) * ((u - ((0 : ℝ))) ^ 9 * (((1 : ℝ) / 14) - u) ^ 0) := by
    unfold gNum gDen atanhSum
    ring
  rw [e]
  have g1 : 0 ≤ u - ((0 : ℝ)) := sub_nonneg.2 h1
  have g2 : 0 ≤ ((1 : ℝ) / 14) - u := sub_nonneg.2 h2
  positivity

private theorem pieceUp3 {u : ℝ} (h1 : (1 : ℝ) / 14 ≤ u) (h2 : u ≤ (1 : ℝ) / 7) :
    0 ≤ (0.69314718 * gNum u - (atanhSum u + atanhSum (1 / 5)) * gDen u) + 0.000108 * gDen u := by
  have e : (0.69314718 * gNum u - (atanhSum u + atanhSum (1 / 5)) * gDen u) + 0.000108 * gDen u
      = ((4049592187482879668505435735331 : ℝ) / 8203125000000000000000000) * ((u - ((1 : ℝ) / 14)) ^ 0 * (((1 : ℝ) / 7) - u) ^ 9) + ((121973954165836335482780082597869 : ℝ) / 41015625000000000000000000) * ((u - ((1 : ℝ) / 14)) ^ 1 * (((1 : ℝ) / 7) - u) ^ 8) + ((103479881749167604418114907803293 : ℝ) / 13671875000000000000000000) * ((u - ((1 : ℝ) / 14)) ^ 2 * (((1 : ℝ) / 7) - u) ^ 7) + ((73822523853451932683550537138263 : ℝ) / 5859375000000000000000000) * ((u - ((1 : ℝ) / 14)) ^ 3 * (((1 : ℝ) / 7) - u) ^ 6) + ((124289255020587816910020497203103 : ℝ) / 5859375000000000000000000) * ((u - ((1 : ℝ) / 14)) ^ 4 * (((1 : ℝ) / 7) - u) ^ 5) + ((14067687075932976018750429079471 : ℝ) / 390625000000000000000000) * ((u - ((1 : ℝ) / 14)) ^ 5 * (((1 : ℝ) / 7) - u) ^ 4) + ((86080274082180381475340805038729 : ℝ) / 1953125000000000000000000) * ((u - ((1 : ℝ) / 14)) ^ 6 * (((1 : ℝ) / 7) - u) ^ 3) + ((447395174581509783988901371099833 : ℝ) / 13671875000000000000000000) * ((u - ((1 : ℝ) / 14)) ^ 7 * (((1 : ℝ) / 7) - u) ^ 2) + ((45053921165142267429758822421603 : ℝ) / 3417968750000000000000000) * ((u - ((1 : ℝ) / 14)) ^ 8 * (((1 : ℝ) / 7) - u) ^ 1) + ((237033640213693799715221740029 : ℝ) / 106811523437500000000000) * ((u - ((1 : ℝ) / 14)) ^ 9 * (((1 : ℝ) / 7) - u) ^ 0) := by
    unfold gNum gDen atanhSum
    ring
  rw [e]
  have g1 : 0 ≤ u - ((1 : ℝ) / 14) := sub_nonneg.2 h1
  have g2 : 0 ≤ ((1 : ℝ) / 7) - u := sub_nonneg.2 h2
  positivity

private theorem pieceDown {u : ℝ} (h1 : (-1 : ℝ) / 5 ≤ u) (h2 : u ≤ (1 : ℝ) / 7) :
    0 ≤ -(0.69314718 * gNum u - (atanhSum u + atanhSum (1 / 5)) * gDen u) + 0.000108 * gDen u := by
  have e : -(0.69314718 * gNum u - (atanhSum u + atanhSum (1 / 5)) * gDen u) + 0.000108 * gDen u
      = ((154728553718000218652266860737 : ℝ) / 76441190400000000000000000000) * ((u - ((-1 : ℝ) / 5)) ^ 0 * (((1 : ℝ) / 7) - u) ^ 9) + ((1810296660330061148003810289287 : ℝ) / 38220595200000000000000000000) * ((u - ((-1 : ℝ) / 5)) ^ 1 * (((1 : ℝ) / 7) - u) ^ 8) + ((5793011041538563921598210646641 : ℝ) / 38220595200000000000000000000) * ((u - ((-1 : ℝ) / 5)) ^ 2 * (((1 : ℝ) / 7) - u) ^ 7) + ((1349817832612750207023198915481 : ℝ) / 7644119040000000000000000000) * ((u - ((-1 : ℝ) / 5)) ^ 3 * (((1 : ℝ) / 7) - u) ^ 6) + ((340650908654565448929410785861 : ℝ) / 3822059520000000000000000000) * ((u - ((-1 : ℝ) / 5)) ^ 4 * (((1 : ℝ) / 7) - u) ^ 5) + ((3546935836856425241054085240751 : ℝ) / 38220595200000000000000000000) * ((u - ((-1 : ℝ) / 5)) ^ 5 * (((1 : ℝ) / 7) - u) ^ 4) + ((6611965300367478266635949341687 : ℝ) / 38220595200000000000000000000) * ((u - ((-1 : ℝ) / 5)) ^ 6 * (((1 : ℝ) / 7) - u) ^ 3) + ((5235140308646576893141035478271 : ℝ) / 38220595200000000000000000000) * ((u - ((-1 : ℝ) / 5)) ^ 7 * (((1 : ℝ) / 7) - u) ^ 2) + ((607807727683758354833519592143 : ℝ) / 15288238080000000000000000000) * ((u - ((-1 : ℝ) / 5)) ^ 8 * (((1 : ℝ) / 7) - u) ^ 1) + ((2919550509580913807219484691 : ℝ) / 1783627776000000000000000000) * ((u - ((-1 : ℝ) / 5)) ^ 9 * (((1 : ℝ) / 7) - u) ^ 0) := by
    unfold gNum gDen atanhSum
    ring
  rw [e]
  have g1 : 0 ≤ u - ((-1 : ℝ) / 5) := sub_nonneg.2 h1
  have g2 : 0 ≤ ((1 : ℝ) / 7) - u := sub_nonneg.2 h2
  positivity

private theorem err_poly {u : ℝ} (h1 : -1 / 5 ≤ u) (h2 : u ≤ 1 / 7) :
    |0.69314718 * gNum u - (atanhSum u + atanhSum (1 / 5)) * gDen u| ≤ 0.000108 * gDen u := by
  rw [abs_le]
  constructor
  · have : 0 ≤ (0.69314718 * gNum u - (atanhSum u + atanhSum (1 / 5)) * gDen u) + 0.000108 * gDen u := by
      by_cases c1 : u ≤ -1 / 10
      · exact pieceUp0 h1 c1
      · by_cases c2 : u ≤ 0
        · exact pieceUp1 (not_le.1 c1).le c2
        · by_cases c3 : u ≤ 1 / 14
          · exact pieceUp2 (not_le.1 c2).le c3
          · exact pieceUp3 (not_le.1 c3).le h2
    linarith
  · have := pieceDown h1 h2
    linarith

/-- The partial sum is within `1.1e-6` of the logarithm for `|u| ≤ 1/5`. -/
theorem atanhSum_err {u : ℝ} (h : |u| ≤ 1 / 5) :
    |Real.log (1 + u) - Real.log (1 - u) - atanhSum u| ≤ 0.0000011 := by
  set φ : ℝ → ℝ := fun u => Real.log (1 + u) - Real.log (1 - u) - atanhSum u with hφ
  have hd : ∀ x ∈ Set.Icc (-1 / 5 : ℝ) (1 / 5), HasDerivWithinAt φ (2 * x ^ 8 / (1 - x ^ 2)) (Set.Icc (-1 / 5 : ℝ) (1 / 5)) x := by
    intro x ⟨hx1, hx2⟩
    have p1 : 0 < 1 + x := by linarith
    have p2 : 0 < 1 - x := by linarith
    apply HasDerivAt.hasDerivWithinAt
    have d1 : HasDerivAt (fun u : ℝ => Real.log (1 + u)) (1 / (1 + x)) x :=
      ((hasDerivAt_id x).const_add 1).log p1.ne'
    have d2 : HasDerivAt (fun u : ℝ => Real.log (1 - u)) (-1 / (1 - x)) x :=
      ((hasDerivAt_id x).const_sub 1).log p2.ne'
    have d3 : HasDerivAt atanhSum (2 * (1 + 3 * x ^ 2 / 3 + 5 * x ^ 4 / 5 + 7 * x ^ 6 / 7)) x := by
      unfold atanhSum
      have e3 := (hasDerivAt_pow 3 x).div_const 3
      have e5 := (hasDerivAt_pow 5 x).div_const 5
      have e7 := (hasDerivAt_pow 7 x).div_const 7
      have := ((((hasDerivAt_id x).add e3).add e5).add e7).const_mul 2
      convert this using 1
      all_goals (first | rfl | (push_cast; ring))
    convert (d1.sub d2).sub d3 using 1
    · rfl
    · rw [show (1 : ℝ) - x ^ 2 = (1 + x) * (1 - x) by ring]
      field_simp
      ring
  have hb : ∀ x ∈ Set.Icc (-1 / 5 : ℝ) (1 / 5), ‖2 * x ^ 8 / (1 - x ^ 2)‖ ≤ 0.0000055 := by
    intro x ⟨hx1, hx2⟩
    have q : x ^ 2 ≤ 1 / 25 := by nlinarith
    have q0 : 0 ≤ x ^ 2 := sq_nonneg x
    have q8 : x ^ 8 ≤ (1 / 25) ^ 4 := by
      rw [show x ^ 8 = (x ^ 2) ^ 4 by ring]
      exact pow_le_pow_left₀ q0 q 4
    have q80 : 0 ≤ x ^ 8 := by positivity
    rw [Real.norm_of_nonneg (div_nonneg (by linarith) (by linarith)), div_le_iff₀ (by linarith)]
    norm_num at q8 ⊢
    nlinarith
  have hu := abs_le.1 h
  have := (convex_Icc (-1 / 5 : ℝ) (1 / 5)).norm_image_sub_le_of_norm_hasDerivWithin_le hd hb
    (x := 0) (y := u) ⟨by norm_num, by norm_num⟩ ⟨by linarith, by linarith⟩
  have h0 : φ 0 = 0 := by simp [hφ, atanhSum]
  rw [h0, sub_zero, sub_zero, Real.norm_eq_abs, Real.norm_eq_abs] at this
  calc |φ u| ≤ 0.0000055 * |u| := this
    _ ≤ 0.0000055 * (1 / 5) := by gcongr
    _ ≤ 0.0000011 := by norm_num

/-- The formula of `fast_log2` on one octave, in exact arithmetic: `m` is half the mantissa. -/
noncomputable def octave (m : ℝ) : ℝ :=
  126 + 2 * m - 124.22551499 - 1.498030302 * m - 1.72587999 / (0.3520887068 + m)

theorem octave_err {m : ℝ} (h1 : 1 / 2 ≤ m) (h2 : m ≤ 1) : |octave m - Real.logb 2 (2 * m)| ≤ 0.00016 := by
  set u : ℝ := (4 * m - 3) / (4 * m + 3) with hu
  have hden : (0 : ℝ) < 4 * m + 3 := by linarith
  have hu1 : -1 / 5 ≤ u := by rw [hu, le_div_iff₀ hden]; linarith
  have hu2 : u ≤ 1 / 7 := by rw [hu, div_le_iff₀ hden]; linarith
  have hm : m * (1 - u) = 3 / 4 * (1 + u) := by rw [hu]; field_simp; ring
  have hw : 0 < 1 - u := by linarith
  have hm' : m = 3 / 4 * (1 + u) / (1 - u) := by rw [eq_div_iff hw.ne']; exact hm
  have hQ : 0 < 0.3520887068 * (1 - u) + 3 / 4 * (1 + u) := by norm_num; linarith
  have hD : 0 < gDen u := mul_pos hw hQ
  have hg : octave m * gDen u = gNum u := by
    unfold octave gNum gDen
    have e : 0.3520887068 + m = (0.3520887068 * (1 - u) + 3 / 4 * (1 + u)) / (1 - u) := by
      rw [eq_div_iff hw.ne']; linarith
    rw [e]
    rw [show (1.72587999 : ℝ) / ((0.3520887068 * (1 - u) + 3 / 4 * (1 + u)) / (1 - u))
      = 1.72587999 * (1 - u) / (0.3520887068 * (1 - u) + 3 / 4 * (1 + u)) by rw [div_div_eq_mul_div]]
    generalize hq : 0.3520887068 * (1 - u) + 3 / 4 * (1 + u) = q at *
    have e2 : 1.72587999 * (1 - u) / q * ((1 - u) * q) = 1.72587999 * (1 - u) ^ 2 := by
      field_simp
    have e3 : (126 + 2 * m - 124.22551499 - 1.498030302 * m) * ((1 - u) * q)
        = (126 - 124.22551499) * ((1 - u) * q) + (2 - 1.498030302) * (m * (1 - u) * q) := by ring
    rw [sub_mul, e2, e3, hm]
  have hp := err_poly hu1 hu2
  rw [← hg, ← mul_assoc, ← sub_mul, abs_mul, abs_of_pos hD, mul_le_mul_iff_left₀ hD] at hp
  have e1 := atanhSum_err (u := u) (by rw [abs_le]; constructor <;> linarith)
  have e2 := atanhSum_err (u := 1 / 5) (by rw [abs_of_pos] <;> norm_num)
  have hlog : Real.log (2 * m) = (Real.log (1 + u) - Real.log (1 - u)) + (Real.log (1 + 1 / 5) - Real.log (1 - 1 / 5)) := by
    have : 2 * m = (1 + u) / (1 - u) * ((1 + 1 / 5) / (1 - 1 / 5)) := by
      rw [hm']; field_simp; ring
    rw [this, Real.log_mul (by apply ne_of_gt; apply div_pos <;> linarith) (by norm_num),
      Real.log_div (by linarith) hw.ne', Real.log_div (by norm_num) (by norm_num)]
  have hl1 := Real.log_two_gt_d9
  have hl2 := Real.log_two_lt_d9
  have hlp : 0 < Real.log 2 := by linarith
  -- the octave value is small
  have hsmall : |octave m| ≤ 2 := by
    unfold octave
    have d1 : 1.72587999 / (0.3520887068 + m) ≤ 2.1 := by
      rw [div_le_iff₀ (by norm_num; linarith)]; norm_num; linarith
    have d2 : 1.2 ≤ 1.72587999 / (0.3520887068 + m) := by
      rw [le_div_iff₀ (by norm_num; linarith)]; norm_num; linarith
    rw [abs_le]
    norm_num at d1 d2 ⊢
    constructor <;> linarith
  have key : |octave m * Real.log 2 - Real.log (2 * m)| ≤ 0.00016 * Real.log 2 := by
    rw [hlog]
    have s1 := abs_le.1 hp
    have s2 := abs_le.1 e1
    have s3 := abs_le.1 e2
    have s4 := abs_le.1 hsmall
    have t1 : |octave m * (Real.log 2 - 0.69314718)| ≤ 2 * 0.000000001 := by
      rw [abs_mul]
      apply mul_le_mul hsmall _ (abs_nonneg _) (by norm_num)
      rw [abs_le]
      norm_num at hl1 hl2 ⊢
      constructor <;> linarith
    have s5 := abs_le.1 t1
    rw [abs_le]
    norm_num at s1 s2 s3 s5 hl1 hl2 ⊢
    constructor <;> linarith
  unfold Real.logb
  rw [show octave m - Real.log (2 * m) / Real.log 2 = (octave m * Real.log 2 - Real.log (2 * m)) / Real.log 2 by
    field_simp, abs_div, abs_of_pos hlp, div_le_iff₀ hlp]
  exact key

end Neo
