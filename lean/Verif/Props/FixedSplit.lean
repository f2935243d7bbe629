import Verif.Lemmas.FixedSplit
import Verif.Props.Fixed

/-! # C89: split-complex fixed-point multiply-add -/

namespace Neo.Props

open Neo

/-- `x` clamped to the range of a signed type of `w` bits. -/
def sat (w : ℕ) (x : ℤ) : ℤ := clampZ (-2 ^ (w - 1)) (2 ^ (w - 1) - 1) x

/-- The same for rational numbers. -/
def satQ (w : ℕ) (x : ℚ) : ℚ := max (-2 ^ (w - 1)) (min (2 ^ (w - 1) - 1) x)

/-- The truncated product of two numbers with `F` fractional bits. -/
def mulDown (w F : ℕ) (a b : ℤ) : ℤ := sat w ⌊((a * b : ℤ) : ℚ) / 2 ^ F⌋

/-- The product of two Q15 numbers rounded to the nearest multiple of `2 ^ -15`, halves upwards. -/
def mulNear (a b : ℤ) : ℤ := ⌊((a * b : ℤ) : ℚ) / 2 ^ 15 + 1 / 2⌋

private theorem floor_shift (p : ℤ) (F : ℕ) : ⌊(p : ℚ) / 2 ^ F⌋ = p >>> F := by
  rw [Int.shiftRight_eq_div_pow]
  have := Rat.floor_intCast_div_natCast p (2 ^ F)
  push_cast at this ⊢
  exact this

private theorem sat_eq {w : ℕ} (hw : w = 8 ∨ w = 16) (x : ℤ) : clampT ⟨true, w⟩ x = sat w x := clampT_eq hw x

private theorem mulDown_eq {w : ℕ} (hw : w = 8 ∨ w = 16) (F : ℕ) (a b : ℤ) :
    clampT ⟨true, w⟩ ((a * b) >>> F) = mulDown w F a b := by
  unfold mulDown
  rw [floor_shift, sat_eq hw]

/-- **C89**: `multiply_add` on split-complex 8- or 16-bit fixed-point vectors computes, at every index, the two
truncated products, their saturated difference (sum for the imaginary part) and the saturated sum with `z`; `z` may be
the output itself.  Nothing overflows and nothing is accessed out of bounds. -/
theorem C89_scalar (w : ℕ) (hw : w = 8 ∨ w = 16) (F : ℕ) (hF : F < 32) (ali : Bool) (n : ℕ) (hn : n < 2 ^ 31)
    (xr xi yr yi zr zi or oi : ℕ → ℤ)
    (hx : ∀ i < n, InRange w (xr i) ∧ InRange w (xi i)) (hy : ∀ i < n, InRange w (yr i) ∧ InRange w (yi i))
    (hz : ∀ i < n, InRange w (zr i) ∧ InRange w (zi i)) (ho : ∀ i < n, InRange w (or i) ∧ InRange w (oi i)) :
    fxSplitMultiplyAdd (fxOps ⟨true, w⟩ F) ali ⟨vec n xr, vec n xi⟩ ⟨vec n yr, vec n yi⟩ ⟨vec n zr, vec n zi⟩
        (vec n or, vec n oi)
      = .ok (vec n (fun i => sat w (sat w (mulDown w F (xr i) (yr i) - mulDown w F (xi i) (yi i))
            + (if ali then or i else zr i))),
          vec n (fun i => sat w (sat w (mulDown w F (xr i) (yi i) + mulDown w F (xi i) (yr i))
            + (if ali then oi i else zi i)))) := by
  rw [fxSplitMultiplyAdd_vec (fxOps_ok (narrow_of hw) hF) ali hn xr xi yr yi zr zi or oi
    (fun i hi => (hx i hi).1) (fun i hi => (hx i hi).2) (fun i hi => (hy i hi).1) (fun i hi => (hy i hi).2)
    (fun i hi => by split_ifs; exacts [(ho i hi).1, (hz i hi).1])
    (fun i hi => by split_ifs; exacts [(ho i hi).2, (hz i hi).2])]
  congr 1
  refine Prod.ext (vec_ext fun i hi => ?_) (vec_ext fun i hi => ?_)
  · rw [mulDown_eq hw, mulDown_eq hw, sat_eq hw, sat_eq hw]
  · rw [mulDown_eq hw, mulDown_eq hw, sat_eq hw, sat_eq hw]

/-! ## Distance from the exact value -/

private theorem sat_cast (w : ℕ) (hw : w = 8 ∨ w = 16) (x : ℤ) : ((sat w x : ℤ) : ℚ) = satQ w x := by
  rw [← sat_eq hw]
  unfold clampT satQ
  rw [Int.cast_max, Int.cast_min]
  rcases hw with rfl | rfl <;> norm_num [IntT.min, IntT.max]

private theorem satQ_lip (w : ℕ) (a b : ℚ) : |satQ w a - satQ w b| ≤ |a - b| := by
  unfold satQ
  generalize (-2 ^ (w - 1) : ℚ) = lo
  generalize (2 ^ (w - 1) - 1 : ℚ) = hi
  rw [max_comm lo, max_comm lo, min_comm hi, min_comm hi]
  refine (abs_max_sub_max_le_abs _ _ _).trans ?_
  have := abs_min_sub_min_le_max a hi b hi
  rwa [sub_self, abs_zero, max_eq_left (abs_nonneg _)] at this

private theorem satQ_of_range {w : ℕ} {x : ℚ} (h1 : -2 ^ (w - 1) ≤ x) (h2 : x ≤ 2 ^ (w - 1) - 1) : satQ w x = x := by
  unfold satQ
  rw [min_eq_right h2, max_eq_right h1]

/-- Truncation of a product of two numbers in `[-1, 1)`, the case `(-1) * (-1)` included. -/
private theorem mulDown_bounds {w : ℕ} (hw : w = 8 ∨ w = 16) {a b : ℤ} (ha : InRange w a) (hb : InRange w b) :
    (mulDown w (w - 1) a b : ℚ) ≤ ((a * b : ℤ) : ℚ) / 2 ^ (w - 1) ∧
      ((a * b : ℤ) : ℚ) / 2 ^ (w - 1) - 1 ≤ mulDown w (w - 1) a b := by
  have hF : (0 : ℤ) < 2 ^ (w - 1) := by positivity
  have hab : |a * b| ≤ 2 ^ (w - 1) * 2 ^ (w - 1) := by
    rw [abs_mul]
    unfold InRange at ha hb
    exact mul_le_mul (abs_le.2 ⟨by omega, by omega⟩) (abs_le.2 ⟨by omega, by omega⟩) (abs_nonneg _) hF.le
  obtain ⟨l, u⟩ := abs_le.1 hab
  set q : ℚ := ((a * b : ℤ) : ℚ) / 2 ^ (w - 1) with hq
  have hFq : (0 : ℚ) < 2 ^ (w - 1) := by positivity
  have q1 : -2 ^ (w - 1) ≤ q := by
    rw [hq, le_div_iff₀ hFq]
    have : (-(2 ^ (w - 1) * 2 ^ (w - 1)) : ℚ) ≤ ((a * b : ℤ) : ℚ) := by exact_mod_cast l
    linarith
  have q2 : q ≤ 2 ^ (w - 1) := by
    rw [hq, div_le_iff₀ hFq]
    exact_mod_cast u
  have e : (mulDown w (w - 1) a b : ℚ) = satQ w (⌊q⌋ : ℤ) := by
    unfold mulDown
    rw [sat_cast w hw]
  have f1 := Int.floor_le q
  have f2 := Int.lt_floor_add_one q
  have f3 : (-2 ^ (w - 1) : ℚ) ≤ (⌊q⌋ : ℤ) := by
    have : (-2 ^ (w - 1) : ℤ) ≤ ⌊q⌋ := Int.le_floor.2 (by push_cast; exact q1)
    exact_mod_cast this
  rw [e]
  unfold satQ
  constructor
  · exact max_le q1 ((min_le_right _ _).trans f1)
  · refine le_max_of_le_right (le_min ?_ ?_) <;> linarith

private theorem two_step (w : ℕ) (hw : w = 8 ∨ w = 16) (p z : ℤ) (P δ : ℚ) (h : |(p : ℚ) - P| ≤ δ) :
    |((sat w (sat w p + z) : ℤ) : ℚ) - satQ w (satQ w P + z)| ≤ δ := by
  rw [sat_cast w hw]
  refine (satQ_lip w _ _).trans ?_
  push_cast
  rw [sat_cast w hw, add_sub_add_right_eq_sub]
  exact (satQ_lip w _ _).trans h

/-- **C89**: for numbers in `[-1, 1)` (q7 and q15) the real part of every output element is within one unit, the
imaginary part within two units of the exact `x * y` saturated, plus `z`, saturated. -/
theorem C89_scalar_error (w : ℕ) (hw : w = 8 ∨ w = 16) (ali : Bool) (n : ℕ) (hn : n < 2 ^ 31)
    (xr xi yr yi zr zi or oi : ℕ → ℤ)
    (hx : ∀ i < n, InRange w (xr i) ∧ InRange w (xi i)) (hy : ∀ i < n, InRange w (yr i) ∧ InRange w (yi i))
    (hz : ∀ i < n, InRange w (zr i) ∧ InRange w (zi i)) (ho : ∀ i < n, InRange w (or i) ∧ InRange w (oi i)) :
    ∃ re im : ℕ → ℤ, fxSplitMultiplyAdd (fxOps ⟨true, w⟩ (w - 1)) ali ⟨vec n xr, vec n xi⟩ ⟨vec n yr, vec n yi⟩
        ⟨vec n zr, vec n zi⟩ (vec n or, vec n oi) = .ok (vec n re, vec n im) ∧
      ∀ i < n,
        |(re i : ℚ) - satQ w (satQ w ((xr i * yr i - xi i * yi i : ℤ) / 2 ^ (w - 1))
          + (if ali then or i else zr i : ℤ))| ≤ 1 ∧
        |(im i : ℚ) - satQ w (satQ w ((xr i * yi i + xi i * yr i : ℤ) / 2 ^ (w - 1))
          + (if ali then oi i else zi i : ℤ))| ≤ 2 := by
  refine ⟨_, _, C89_scalar w hw (w - 1) (by omega) ali n hn xr xi yr yi zr zi or oi hx hy hz ho, fun i hi => ?_⟩
  obtain ⟨a1, a2⟩ := mulDown_bounds hw (hx i hi).1 (hy i hi).1
  obtain ⟨b1, b2⟩ := mulDown_bounds hw (hx i hi).2 (hy i hi).2
  obtain ⟨c1, c2⟩ := mulDown_bounds hw (hx i hi).1 (hy i hi).2
  obtain ⟨d1, d2⟩ := mulDown_bounds hw (hx i hi).2 (hy i hi).1
  refine ⟨two_step w hw _ _ _ _ ?_, two_step w hw _ _ _ _ ?_⟩
  · rw [Int.cast_sub, Int.cast_sub, sub_div, abs_le]
    constructor <;> linarith
  · rw [Int.cast_add, Int.cast_add, add_div, abs_le]
    constructor <;> linarith

/-- **C89**: wherever the exact product is representable, the result is within two units of the exact
`x * y + z`, saturated once. -/
theorem C89_scalar_saturated (w : ℕ) (hw : w = 8 ∨ w = 16) (ali : Bool) (n : ℕ) (hn : n < 2 ^ 31)
    (xr xi yr yi zr zi or oi : ℕ → ℤ)
    (hx : ∀ i < n, InRange w (xr i) ∧ InRange w (xi i)) (hy : ∀ i < n, InRange w (yr i) ∧ InRange w (yi i))
    (hz : ∀ i < n, InRange w (zr i) ∧ InRange w (zi i)) (ho : ∀ i < n, InRange w (or i) ∧ InRange w (oi i)) :
    ∃ re im : ℕ → ℤ, fxSplitMultiplyAdd (fxOps ⟨true, w⟩ (w - 1)) ali ⟨vec n xr, vec n xi⟩ ⟨vec n yr, vec n yi⟩
        ⟨vec n zr, vec n zi⟩ (vec n or, vec n oi) = .ok (vec n re, vec n im) ∧
      ∀ i < n,
        ((-2 ^ (w - 1) : ℚ) ≤ (xr i * yr i - xi i * yi i : ℤ) / 2 ^ (w - 1) →
          ((xr i * yr i - xi i * yi i : ℤ) / 2 ^ (w - 1) : ℚ) ≤ 2 ^ (w - 1) - 1 →
          |(re i : ℚ) - satQ w ((xr i * yr i - xi i * yi i : ℤ) / 2 ^ (w - 1)
            + (if ali then or i else zr i : ℤ))| ≤ 1) ∧
        ((-2 ^ (w - 1) : ℚ) ≤ (xr i * yi i + xi i * yr i : ℤ) / 2 ^ (w - 1) →
          ((xr i * yi i + xi i * yr i : ℤ) / 2 ^ (w - 1) : ℚ) ≤ 2 ^ (w - 1) - 1 →
          |(im i : ℚ) - satQ w ((xr i * yi i + xi i * yr i : ℤ) / 2 ^ (w - 1)
            + (if ali then oi i else zi i : ℤ))| ≤ 2) := by
  obtain ⟨re, im, h1, h2⟩ := C89_scalar_error w hw ali n hn xr xi yr yi zr zi or oi hx hy hz ho
  refine ⟨re, im, h1, fun i hi => ⟨fun l u => ?_, fun l u => ?_⟩⟩
  · have := (h2 i hi).1
    rwa [satQ_of_range l u] at this
  · have := (h2 i hi).2
    rwa [satQ_of_range l u] at this

/-- The restriction to representable products is needed: the saturated product loses the head-room that a negative `z`
would need.  Here `x * y + z` is about `2 - 1 = 1`, the result is 0. -/
theorem C89_product_saturates :
    fxSplitMultiplyAdd (fxOps i16 15) true ⟨[32767], [-32768]⟩ ⟨[32767], [32767]⟩ ⟨[], []⟩ ([-32768], [0])
      = .ok ([-1], [-1]) ∧
    satQ 16 ((32767 * 32767 - -32768 * 32767 : ℤ) / 2 ^ 15 + (-32768 : ℤ)) = 32765 + 1 / 2 ^ 15 := by
  refine ⟨by decide +kernel, ?_⟩
  unfold satQ
  norm_num

/-! ## Register classes -/

/-- **C89**: `q15x8` on NEON gives in every lane exactly what `q15` gives. -/
theorem C89_neon (ali : Bool) (n : ℕ) (hn : n < 2 ^ 31) (xr xi yr yi zr zi or oi : ℕ → ℕ → ℤ)
    (hx : ∀ i < n, ∀ l < 8, InRange 16 (xr i l) ∧ InRange 16 (xi i l))
    (hy : ∀ i < n, ∀ l < 8, InRange 16 (yr i l) ∧ InRange 16 (yi i l))
    (hz : ∀ i < n, ∀ l < 8, InRange 16 (zr i l) ∧ InRange 16 (zi i l))
    (ho : ∀ i < n, ∀ l < 8, InRange 16 (or i l) ∧ InRange 16 (oi i l)) :
    ∃ re im : ℕ → ℕ → ℤ,
      fxSplitMultiplyAdd FxBatch.q15x8neon.ops ali
        ⟨vec n (fun i => vec 8 (xr i)), vec n (fun i => vec 8 (xi i))⟩
        ⟨vec n (fun i => vec 8 (yr i)), vec n (fun i => vec 8 (yi i))⟩
        ⟨vec n (fun i => vec 8 (zr i)), vec n (fun i => vec 8 (zi i))⟩
        (vec n (fun i => vec 8 (or i)), vec n (fun i => vec 8 (oi i)))
      = .ok (vec n (fun i => vec 8 (re i)), vec n (fun i => vec 8 (im i))) ∧
      ∀ l < 8, fxSplitMultiplyAdd (fxOps i16 15) ali ⟨vec n (xr · l), vec n (xi · l)⟩ ⟨vec n (yr · l), vec n (yi · l)⟩
        ⟨vec n (zr · l), vec n (zi · l)⟩ (vec n (or · l), vec n (oi · l)) = .ok (vec n (re · l), vec n (im · l)) := by
  refine ⟨_, _, fxBatch_multiplyAdd .q15x8neon ali hn xr xi yr yi zr zi or oi
    (fun i hi l hl => (hx i hi l hl).1) (fun i hi l hl => (hx i hi l hl).2)
    (fun i hi l hl => (hy i hi l hl).1) (fun i hi l hl => (hy i hi l hl).2)
    (fun i hi l hl => by split_ifs; exacts [(ho i hi l hl).1, (hz i hi l hl).1])
    (fun i hi l hl => by split_ifs; exacts [(ho i hi l hl).2, (hz i hi l hl).2]), fun l hl => ?_⟩
  exact fxSplitMultiplyAdd_vec (fxOps_ok (t := i16) (F := 15) (Or.inr rfl) (by norm_num)) ali hn _ _ _ _ _ _ _ _
    (fun i hi => (hx i hi l hl).1) (fun i hi => (hx i hi l hl).2) (fun i hi => (hy i hi l hl).1)
    (fun i hi => (hy i hi l hl).2)
    (fun i hi => by split_ifs; exacts [(ho i hi l hl).1, (hz i hi l hl).1])
    (fun i hi => by split_ifs; exacts [(ho i hi l hl).2, (hz i hi l hl).2])

/-- The classes whose products are `mulhrs` instructions. -/
def RoundsNearest (b : FxBatch) : Prop := b = .q15x8 ∨ b = .q15x16 ∨ b = .q15x32

private theorem mulhrs_near {a b : ℤ} (ha : InRange 16 a) (hb : InRange 16 b) (hab : ¬(a = -32768 ∧ b = -32768)) :
    i16.conv ((((a * b) >>> 14) + 1) >>> 1) = mulNear a b := by
  have a1 : -32768 ≤ a ∧ a ≤ 32767 := by unfold InRange at ha; norm_num at ha; exact ha
  have b1 : -32768 ≤ b ∧ b ≤ 32767 := by unfold InRange at hb; norm_num at hb; exact hb
  have h3 : |a * b| ≤ 32768 * 32768 := by
    rw [abs_mul]
    exact mul_le_mul (abs_le.2 ⟨by omega, by omega⟩) (abs_le.2 ⟨by omega, by omega⟩) (abs_nonneg _) (by norm_num)
  have h4 : a * b ≤ 32767 * 32768 := by
    by_cases h : a = -32768
    · subst h
      have : b ≠ -32768 := fun e => hab ⟨rfl, e⟩
      omega
    · refine (le_abs_self _).trans ?_
      rw [abs_mul]
      exact mul_le_mul (abs_le.2 ⟨by omega, by omega⟩) (abs_le.2 ⟨by omega, by omega⟩) (abs_nonneg _) (by norm_num)
  have h5 := (abs_le.1 h3).1
  unfold mulNear
  generalize a * b = p at *
  have e : ⌊(p : ℚ) / 2 ^ 15 + 1 / 2⌋ = (p + 16384) / 32768 := by
    have h := floor_shift (p + 16384) 15
    rw [Int.shiftRight_eq_div_pow] at h
    norm_num at h
    rw [← h]
    congr 1
    norm_num
    ring
  rw [e, Int.shiftRight_eq_div_pow, Int.shiftRight_eq_div_pow]
  have e2 : (p / ((2 ^ 14 : ℕ) : ℤ) + 1) / ((2 ^ 1 : ℕ) : ℤ) = (p + 16384) / 32768 := by
    norm_num
    omega
  rw [e2, IntT.conv_eq (by decide) (by rw [fits_i16]; omega)]

private theorem mulNear_bounds (a b : ℤ) : |(mulNear a b : ℚ) - ((a * b : ℤ) : ℚ) / 2 ^ 15| ≤ 1 / 2 := by
  unfold mulNear
  have f1 := Int.floor_le (((a * b : ℤ) : ℚ) / 2 ^ 15 + 1 / 2)
  have f2 := Int.lt_floor_add_one (((a * b : ℤ) : ℚ) / 2 ^ 15 + 1 / 2)
  rw [abs_le]
  constructor <;> linarith

/-- **C89**, the classes `q15x8` (SSE4.1), `q15x16` and `q15x32`: as long as no product has both factors equal to -1,
every lane computes with products rounded to nearest, and both parts are within one unit of the exact `x * y`
saturated, plus `z`, saturated. -/
theorem C89_batch_partial (b : FxBatch) (hb : RoundsNearest b) (ali : Bool) (n : ℕ) (hn : n < 2 ^ 31)
    (xr xi yr yi zr zi or oi : ℕ → ℕ → ℤ)
    (hx : ∀ i < n, ∀ l < b.lanes, InRange 16 (xr i l) ∧ InRange 16 (xi i l))
    (hy : ∀ i < n, ∀ l < b.lanes, InRange 16 (yr i l) ∧ InRange 16 (yi i l))
    (hz : ∀ i < n, ∀ l < b.lanes, InRange 16 (zr i l) ∧ InRange 16 (zi i l))
    (ho : ∀ i < n, ∀ l < b.lanes, InRange 16 (or i l) ∧ InRange 16 (oi i l))
    (hm : ∀ i < n, ∀ l < b.lanes, (xr i l ≠ -32768 ∧ xi i l ≠ -32768) ∨ (yr i l ≠ -32768 ∧ yi i l ≠ -32768)) :
    ∃ re im : ℕ → ℕ → ℤ,
      fxSplitMultiplyAdd b.ops ali
        ⟨vec n (fun i => vec b.lanes (xr i)), vec n (fun i => vec b.lanes (xi i))⟩
        ⟨vec n (fun i => vec b.lanes (yr i)), vec n (fun i => vec b.lanes (yi i))⟩
        ⟨vec n (fun i => vec b.lanes (zr i)), vec n (fun i => vec b.lanes (zi i))⟩
        (vec n (fun i => vec b.lanes (or i)), vec n (fun i => vec b.lanes (oi i)))
      = .ok (vec n (fun i => vec b.lanes (re i)), vec n (fun i => vec b.lanes (im i))) ∧
      ∀ i < n, ∀ l < b.lanes,
        re i l = sat 16 (sat 16 (mulNear (xr i l) (yr i l) - mulNear (xi i l) (yi i l))
          + (if ali then or i l else zr i l)) ∧
        im i l = sat 16 (sat 16 (mulNear (xr i l) (yi i l) + mulNear (xi i l) (yr i l))
          + (if ali then oi i l else zi i l)) ∧
        |(re i l : ℚ) - satQ 16 (satQ 16 ((xr i l * yr i l - xi i l * yi i l : ℤ) / 2 ^ 15)
          + (if ali then or i l else zr i l : ℤ))| ≤ 1 ∧
        |(im i l : ℚ) - satQ 16 (satQ 16 ((xr i l * yi i l + xi i l * yr i l : ℤ) / 2 ^ 15)
          + (if ali then oi i l else zi i l : ℤ))| ≤ 1 := by
  have hs : b.storage = ⟨true, 16⟩ := by rcases hb with rfl | rfl | rfl <;> rfl
  have hl : ∀ u v, b.mulLane u v = i16.conv ((((u * v) >>> 14) + 1) >>> 1) := by
    intro u v
    rcases hb with rfl | rfl | rfl <;> rfl
  have key := fxBatch_multiplyAdd b ali hn xr xi yr yi zr zi or oi
    (fun i hi l hl => hs ▸ (hx i hi l hl).1) (fun i hi l hl => hs ▸ (hx i hi l hl).2)
    (fun i hi l hl => hs ▸ (hy i hi l hl).1) (fun i hi l hl => hs ▸ (hy i hi l hl).2)
    (fun i hi l hl => by rw [hs]; split_ifs; exacts [(ho i hi l hl).1, (hz i hi l hl).1])
    (fun i hi l hl => by rw [hs]; split_ifs; exacts [(ho i hi l hl).2, (hz i hi l hl).2])
  refine ⟨_, _, key, fun i hi l hlt => ?_⟩
  obtain ⟨x1, x2⟩ := hx i hi l hlt
  obtain ⟨y1, y2⟩ := hy i hi l hlt
  have hm' := hm i hi l hlt
  have e1 : b.mulLane (xr i l) (yr i l) = mulNear (xr i l) (yr i l) := by
    rw [hl, mulhrs_near x1 y1 (by tauto)]
  have e2 : b.mulLane (xi i l) (yi i l) = mulNear (xi i l) (yi i l) := by
    rw [hl, mulhrs_near x2 y2 (by tauto)]
  have e3 : b.mulLane (xr i l) (yi i l) = mulNear (xr i l) (yi i l) := by
    rw [hl, mulhrs_near x1 y2 (by tauto)]
  have e4 : b.mulLane (xi i l) (yr i l) = mulNear (xi i l) (yr i l) := by
    rw [hl, mulhrs_near x2 y1 (by tauto)]
  have a1 := abs_le.1 (mulNear_bounds (xr i l) (yr i l))
  have a2 := abs_le.1 (mulNear_bounds (xi i l) (yi i l))
  have a3 := abs_le.1 (mulNear_bounds (xr i l) (yi i l))
  have a4 := abs_le.1 (mulNear_bounds (xi i l) (yr i l))
  have hw : (16 : ℕ) = 8 ∨ (16 : ℕ) = 16 := Or.inr rfl
  rw [hs, sat_eq hw, sat_eq hw, sat_eq hw, sat_eq hw, e1, e2, e3, e4]
  refine ⟨rfl, rfl, two_step 16 hw _ _ _ _ ?_, two_step 16 hw _ _ _ _ ?_⟩
  · rw [Int.cast_sub, Int.cast_sub, sub_div, abs_le]
    constructor <;> linarith
  · rw [Int.cast_add, Int.cast_add, add_div, abs_le]
    constructor <;> linarith

/-- **C89**, the class `q7x16` (SSE4.1): every lane computes with "products" that are the truncated product when it is
not negative and 127/128 when it is. -/
theorem C89_q7x16 (ali : Bool) (n : ℕ) (hn : n < 2 ^ 31) (xr xi yr yi zr zi or oi : ℕ → ℕ → ℤ)
    (hx : ∀ i < n, ∀ l < 16, InRange 8 (xr i l) ∧ InRange 8 (xi i l))
    (hy : ∀ i < n, ∀ l < 16, InRange 8 (yr i l) ∧ InRange 8 (yi i l))
    (hz : ∀ i < n, ∀ l < 16, InRange 8 (zr i l) ∧ InRange 8 (zi i l))
    (ho : ∀ i < n, ∀ l < 16, InRange 8 (or i l) ∧ InRange 8 (oi i l)) :
    ∃ mul : ℤ → ℤ → ℤ, (∀ a b, mul a b = if 0 ≤ a * b then mulDown 8 7 a b else 127) ∧
      fxSplitMultiplyAdd FxBatch.q7x16.ops ali
        ⟨vec n (fun i => vec 16 (xr i)), vec n (fun i => vec 16 (xi i))⟩
        ⟨vec n (fun i => vec 16 (yr i)), vec n (fun i => vec 16 (yi i))⟩
        ⟨vec n (fun i => vec 16 (zr i)), vec n (fun i => vec 16 (zi i))⟩
        (vec n (fun i => vec 16 (or i)), vec n (fun i => vec 16 (oi i)))
      = .ok (vec n (fun i => vec 16 (fun l => sat 8 (sat 8 (mul (xr i l) (yr i l) - mul (xi i l) (yi i l))
            + (if ali then or i l else zr i l)))),
          vec n (fun i => vec 16 (fun l => sat 8 (sat 8 (mul (xr i l) (yi i l) + mul (xi i l) (yr i l))
            + (if ali then oi i l else zi i l))))) := by
  have hw : (8 : ℕ) = 8 ∨ (8 : ℕ) = 16 := Or.inl rfl
  refine ⟨FxBatch.q7x16.mulLane, fun a b => ?_, ?_⟩
  · rw [← mulDown_eq hw]; rfl
  · refine (fxBatch_multiplyAdd .q7x16 ali hn xr xi yr yi zr zi or oi
      (fun i hi l hl => (hx i hi l hl).1) (fun i hi l hl => (hx i hi l hl).2)
      (fun i hi l hl => (hy i hi l hl).1) (fun i hi l hl => (hy i hi l hl).2)
      (fun i hi l hl => by split_ifs; exacts [(ho i hi l hl).1, (hz i hi l hl).1])
      (fun i hi l hl => by split_ifs; exacts [(ho i hi l hl).2, (hz i hi l hl).2])).trans ?_
    congr 1
    refine Prod.ext (vec_ext fun i hi => vec_ext fun l hl => ?_) (vec_ext fun i hi => vec_ext fun l hl => ?_) <;>
    · rw [← sat_eq hw, ← sat_eq hw]; rfl

/-- **C89** is false for the register classes of SSE4.1, AVX2 and AVX-512: `0.5 * (-0.5)` is nearly 1 with `q7x16`, and
`(-1) * (-1)` is -1 with `q15x8`, `q15x16`, `q15x32`; the elements `q7` and `q15` give -0.25 and nearly 1. -/
theorem C89_false :
    (fxSplitMultiplyAdd FxBatch.q7x16.ops true ⟨[vec 16 fun _ => 64], [vec 16 fun _ => 0]⟩
        ⟨[vec 16 fun _ => -64], [vec 16 fun _ => 0]⟩ ⟨[], []⟩ ([vec 16 fun _ => 0], [vec 16 fun _ => 0])
      = .ok ([vec 16 fun _ => 127], [vec 16 fun _ => 0]) ∧
    fxSplitMultiplyAdd (fxOps i8 7) true ⟨[64], [0]⟩ ⟨[-64], [0]⟩ ⟨[], []⟩ ([0], [0]) = .ok ([-32], [0])) ∧
    ∀ b, RoundsNearest b →
      fxSplitMultiplyAdd b.ops true ⟨[vec b.lanes fun _ => -32768], [vec b.lanes fun _ => 0]⟩
        ⟨[vec b.lanes fun _ => -32768], [vec b.lanes fun _ => 0]⟩ ⟨[], []⟩
        ([vec b.lanes fun _ => 0], [vec b.lanes fun _ => 0])
      = .ok ([vec b.lanes fun _ => -32768], [vec b.lanes fun _ => 0]) ∧
      fxSplitMultiplyAdd (fxOps i16 15) true ⟨[-32768], [0]⟩ ⟨[-32768], [0]⟩ ⟨[], []⟩ ([0], [0])
        = .ok ([32767], [0]) := by
  refine ⟨by decide +kernel, ?_⟩
  rintro b (rfl | rfl | rfl) <;> decide +kernel

/-! ## The benchmark's product without accumulation -/

/-- **C89** for the benchmark loop `cmulp` on q7 and q15: the saturated difference and sum of the truncated products,
within one and two units of the exact product saturated. -/
theorem C89_cmulp (w : ℕ) (hw : w = 8 ∨ w = 16) (n : ℕ) (hn : n < 2 ^ 31) (xr xi yr yi or oi : ℕ → ℤ)
    (hx : ∀ i < n, InRange w (xr i) ∧ InRange w (xi i)) (hy : ∀ i < n, InRange w (yr i) ∧ InRange w (yi i)) :
    ∃ re im : ℕ → ℤ, cmulp (fxOps ⟨true, w⟩ (w - 1)) ⟨vec n xr, vec n xi⟩ ⟨vec n yr, vec n yi⟩ (vec n or, vec n oi)
        = .ok (vec n re, vec n im) ∧
      ∀ i < n,
        re i = sat w (mulDown w (w - 1) (xr i) (yr i) - mulDown w (w - 1) (xi i) (yi i)) ∧
        im i = sat w (mulDown w (w - 1) (xr i) (yi i) + mulDown w (w - 1) (xi i) (yr i)) ∧
        |(re i : ℚ) - satQ w ((xr i * yr i - xi i * yi i : ℤ) / 2 ^ (w - 1))| ≤ 1 ∧
        |(im i : ℚ) - satQ w ((xr i * yi i + xi i * yr i : ℤ) / 2 ^ (w - 1))| ≤ 2 := by
  refine ⟨_, _, cmulp_vec (fxOps_ok (narrow_of hw) (by omega)) hn xr xi yr yi or oi
    (fun i hi => (hx i hi).1) (fun i hi => (hx i hi).2) (fun i hi => (hy i hi).1) (fun i hi => (hy i hi).2),
    fun i hi => ?_⟩
  obtain ⟨a1, a2⟩ := mulDown_bounds hw (hx i hi).1 (hy i hi).1
  obtain ⟨b1, b2⟩ := mulDown_bounds hw (hx i hi).2 (hy i hi).2
  obtain ⟨c1, c2⟩ := mulDown_bounds hw (hx i hi).1 (hy i hi).2
  obtain ⟨d1, d2⟩ := mulDown_bounds hw (hx i hi).2 (hy i hi).1
  rw [mulDown_eq hw, mulDown_eq hw, mulDown_eq hw, mulDown_eq hw, sat_eq hw, sat_eq hw]
  refine ⟨rfl, rfl, ?_, ?_⟩
  · rw [sat_cast w hw]
    refine (satQ_lip w _ _).trans ?_
    rw [Int.cast_sub, Int.cast_sub, sub_div, abs_le]
    constructor <;> linarith
  · rw [sat_cast w hw]
    refine (satQ_lip w _ _).trans ?_
    rw [Int.cast_add, Int.cast_add, add_div, abs_le]
    constructor <;> linarith

/-- `(0.5 + 0.25i) * (0.5 - 0.5i) + (0.125 - 0.25i)` in q15. -/
example : InRange 16 16384 ∧
    fxSplitMultiplyAdd (fxOps i16 15) false ⟨[16384], [8192]⟩ ⟨[16384], [-16384]⟩ ⟨[4096], [-8192]⟩ ([0], [0])
      = .ok ([16384], [-12288]) ∧
    fxSplitMultiplyAdd FxBatch.q15x16.ops true ⟨[vec 16 fun _ => 16384], [vec 16 fun _ => 8192]⟩
      ⟨[vec 16 fun _ => 16384], [vec 16 fun _ => -16384]⟩ ⟨[], []⟩ ([vec 16 fun _ => 4096], [vec 16 fun _ => -8192])
      = .ok ([vec 16 fun _ => 16384], [vec 16 fun _ => -12288]) ∧
    cmulp (fxOps i8 7) ⟨[64], [32]⟩ ⟨[64], [-64]⟩ ([0], [0]) = .ok ([48], [-16]) := by
  refine ⟨by unfold InRange; norm_num, by decide +kernel⟩

end Neo.Props
