import Verif.Lemmas.Fixed
import Verif.Lemmas.Out

/-! # C41–C46: fixed-point arithmetic -/

namespace Neo.Props

open Neo

/-- `x` clamped to `[lo, hi]` -/
def clampZ (lo hi x : ℤ) : ℤ := if x < lo then lo else if hi < x then hi else x

/-- Range of a signed type of `w` bits. -/
def InRange (w : ℕ) (x : ℤ) : Prop := -2 ^ (w - 1) ≤ x ∧ x ≤ 2 ^ (w - 1) - 1

theorem narrow_of {w : ℕ} (hw : w = 8 ∨ w = 16) : Narrow ⟨true, w⟩ := by
  rcases hw with rfl | rfl
  · left; rfl
  · right; rfl

theorem fits_of_inRange {w : ℕ} {x : ℤ} (h : InRange w x) : (⟨true, w⟩ : IntT).Fits x := h

theorem clampT_eq {w : ℕ} (hw : w = 8 ∨ w = 16) (x : ℤ) :
    clampT ⟨true, w⟩ x = clampZ (-2 ^ (w - 1)) (2 ^ (w - 1) - 1) x := by
  rw [← satLane_eq (narrow_of hw)]; rfl

theorem clampZ_mono {lo hi x y : ℤ} (hl : lo ≤ hi) (h : x ≤ y) : clampZ lo hi x ≤ clampZ lo hi y := by
  unfold clampZ; split_ifs <;> omega

/-! ## C41 -/

/-- **C41**: 8- and 16-bit fixed-point addition and subtraction are the exact integer operation
clamped to the representable range; in particular nothing overflows internally. -/
theorem C41_add_sub_saturate (w : ℕ) (hw : w = 8 ∨ w = 16) (a b : ℤ) (ha : InRange w a)
    (hb : InRange w b) :
    fxAdd ⟨true, w⟩ a b = .ok (clampZ (-2 ^ (w - 1)) (2 ^ (w - 1) - 1) (a + b)) ∧
    fxSub ⟨true, w⟩ a b = .ok (clampZ (-2 ^ (w - 1)) (2 ^ (w - 1) - 1) (a - b)) := by
  rw [← clampT_eq hw, ← clampT_eq hw]
  exact ⟨fxAdd_ok (narrow_of hw) ha hb, fxSub_ok (narrow_of hw) ha hb⟩

/-- **C41**: addition is commutative and monotone in both arguments, subtraction is monotone in the
first and antitone in the second argument. -/
theorem C41_monotone (w : ℕ) (hw : w = 8 ∨ w = 16) (a b a' b' : ℤ) (ha : InRange w a)
    (hb : InRange w b) (ha' : InRange w a') (hb' : InRange w b') :
    fxAdd ⟨true, w⟩ a b = fxAdd ⟨true, w⟩ b a ∧
    (a ≤ a' → b ≤ b' → ∃ r r', fxAdd ⟨true, w⟩ a b = .ok r ∧ fxAdd ⟨true, w⟩ a' b' = .ok r' ∧ r ≤ r') ∧
    (a ≤ a' → b' ≤ b → ∃ r r', fxSub ⟨true, w⟩ a b = .ok r ∧ fxSub ⟨true, w⟩ a' b' = .ok r' ∧ r ≤ r') := by
  have hl : -(2 : ℤ) ^ (w - 1) ≤ 2 ^ (w - 1) - 1 := by rcases hw with rfl | rfl <;> norm_num
  refine ⟨?_, fun h1 h2 => ⟨_, _, (C41_add_sub_saturate w hw a b ha hb).1,
    (C41_add_sub_saturate w hw a' b' ha' hb').1, clampZ_mono hl (by omega)⟩,
    fun h1 h2 => ⟨_, _, (C41_add_sub_saturate w hw a b ha hb).2,
    (C41_add_sub_saturate w hw a' b' ha' hb').2, clampZ_mono hl (by omega)⟩⟩
  rw [(C41_add_sub_saturate w hw a b ha hb).1, (C41_add_sub_saturate w hw b a hb ha).1, add_comm]

/-- **C41** for `fixed_point_complex`: both parts are added and subtracted separately, with the same clamping. -/
theorem C41_complex (w : ℕ) (hw : w = 8 ∨ w = 16) (a b : ℤ × ℤ) (ha : InRange w a.1 ∧ InRange w a.2)
    (hb : InRange w b.1 ∧ InRange w b.2) :
    fxcAdd ⟨true, w⟩ a b = .ok (clampZ (-2 ^ (w - 1)) (2 ^ (w - 1) - 1) (a.1 + b.1),
      clampZ (-2 ^ (w - 1)) (2 ^ (w - 1) - 1) (a.2 + b.2)) ∧
    fxcSub ⟨true, w⟩ a b = .ok (clampZ (-2 ^ (w - 1)) (2 ^ (w - 1) - 1) (a.1 - b.1),
      clampZ (-2 ^ (w - 1)) (2 ^ (w - 1) - 1) (a.2 - b.2)) := by
  obtain ⟨h1, h2⟩ := C41_add_sub_saturate w hw a.1 b.1 ha.1 hb.1
  obtain ⟨h3, h4⟩ := C41_add_sub_saturate w hw a.2 b.2 ha.2 hb.2
  unfold fxcAdd fxcSub
  rw [h1, h2, h3, h4]
  exact ⟨rfl, rfl⟩

example : fxcSub ⟨true, 16⟩ (30000, 100) (-10000, 300) = .ok (32767, -200) := by decide +kernel

example : InRange 16 30000 ∧ fxAdd ⟨true, 16⟩ 30000 10000 = .ok 32767 ∧
    fxSub ⟨true, 8⟩ (-100) 100 = .ok (-128) ∧ fxAdd ⟨true, 16⟩ 300 (-500) = .ok (-200) := by
  refine ⟨by unfold InRange; norm_num, by decide +kernel⟩

/-- The restriction to 8 and 16 bits is needed: with 32-bit storage the sum overflows before it is
clamped, and with 64-bit storage the clamp bounds are cut to 32 bits and out of order. -/
theorem C41_wide_storage :
    fxAdd ⟨true, 32⟩ (2 ^ 31 - 1) 1 = .error .overflow ∧ fxAdd ⟨true, 64⟩ 1 1 = .error .assertion := by
  decide +kernel

/-! ## C42 -/

/-- **C42**: the product of two 8- or 16-bit values with `F` fractional bits is the floor of the
exact product, clamped; when the exact product is in range the error is below one unit. -/
theorem C42_multiply (w : ℕ) (hw : w = 8 ∨ w = 16) (F : ℕ) (hF : F < 31) (a b : ℤ)
    (ha : InRange w a) (hb : InRange w b) :
    ∃ r, fxMul ⟨true, w⟩ F a b = .ok r ∧
      r = clampZ (-2 ^ (w - 1)) (2 ^ (w - 1) - 1) ⌊((a * b : ℤ) : ℚ) / 2 ^ F⌋ ∧
      ((-2 ^ (w - 1) : ℚ) ≤ ((a * b : ℤ) : ℚ) / 2 ^ F → ((a * b : ℤ) : ℚ) / 2 ^ F ≤ 2 ^ (w - 1) - 1 →
        (r : ℚ) ≤ ((a * b : ℤ) : ℚ) / 2 ^ F ∧ ((a * b : ℤ) : ℚ) / 2 ^ F - r < 1) := by
  have hfl : ⌊((a * b : ℤ) : ℚ) / 2 ^ F⌋ = (a * b) >>> F := by
    rw [Int.shiftRight_eq_div_pow]
    have := Rat.floor_intCast_div_natCast (a * b) (2 ^ F)
    push_cast at this ⊢
    exact this
  refine ⟨_, fxMul_ok (narrow_of hw) (by omega) ha hb, ?_, fun h1 h2 => ?_⟩
  · rw [clampT_eq hw, hfl]
  · rw [clampT_eq hw, ← hfl]
    set q : ℚ := ((a * b : ℤ) : ℚ) / 2 ^ F with hq
    have e : clampZ (-2 ^ (w - 1)) (2 ^ (w - 1) - 1) ⌊q⌋ = ⌊q⌋ := by
      have g1 : -2 ^ (w - 1) ≤ ⌊q⌋ := by rw [Int.le_floor]; push_cast; exact h1
      have g2 : ⌊q⌋ ≤ 2 ^ (w - 1) - 1 := by
        have : (⌊q⌋ : ℚ) ≤ ((2 ^ (w - 1) - 1 : ℤ) : ℚ) := (Int.floor_le q).trans (by push_cast; exact h2)
        exact_mod_cast this
      unfold clampZ
      rw [if_neg (by omega), if_neg (by omega)]
    rw [e]
    exact ⟨Int.floor_le q, by linarith [Int.lt_floor_add_one q]⟩

example : fxMul ⟨true, 16⟩ 15 16384 (-3) = .ok (-2) ∧ fxMul ⟨true, 16⟩ 15 (-32768) (-32768) = .ok 32767 ∧
    fxMul ⟨true, 8⟩ 7 64 65 = .ok 32 := by decide +kernel

/-! ## C43 -/

/-- **C43**: negation is exact except that the most negative value becomes the most positive one, and
negating twice gives back every other value. -/
theorem C43_negate (w : ℕ) (hw : w = 8 ∨ w = 16 ∨ w = 32 ∨ w = 64) (a : ℤ) (ha : InRange w a) :
    (a ≠ -2 ^ (w - 1) → fxNeg ⟨true, w⟩ a = .ok (-a) ∧ InRange w (-a) ∧
      (fxNeg ⟨true, w⟩ a >>= fxNeg ⟨true, w⟩) = .ok a) ∧
    (a = -2 ^ (w - 1) → fxNeg ⟨true, w⟩ a = .ok (2 ^ (w - 1) - 1)) := by
  have key : ∀ x : ℤ, InRange w x → x ≠ -2 ^ (w - 1) → fxNeg ⟨true, w⟩ x = .ok (-x) ∧ InRange w (-x) := by
    intro x hx hne
    have hr : InRange w (-x) := by unfold InRange at *; omega
    refine ⟨?_, hr⟩
    unfold fxNeg
    rw [if_neg (by exact hne), IntT.arith_eq (IntT.promote_width (by show 1 ≤ w; omega))
      (IntT.fits_promote (t := ⟨true, w⟩) hw (fits_of_inRange hr)), bind_ok, pure_eq_ok,
      IntT.conv_eq (by show 1 ≤ w; omega) (fits_of_inRange hr)]
  refine ⟨fun hne => ?_, ?_⟩
  · obtain ⟨h1, h2⟩ := key a ha hne
    refine ⟨h1, h2, ?_⟩
    rw [h1, bind_ok, (key (-a) h2 ?_).1, neg_neg]
    unfold InRange at ha
    omega
  · rintro rfl
    unfold fxNeg
    rw [if_pos (by rfl)]
    rfl

example : fxNeg ⟨true, 16⟩ (-32768) = .ok 32767 ∧ fxNeg ⟨true, 16⟩ 12345 = .ok (-12345) := by
  decide +kernel

/-! ## C44 -/

/-- **C44**: converting a fixed-point value to a float and back gives the same value.  The same holds
through `double`, whatever its rounding to `float` does to other values. -/
theorem C44_round_trip (w : ℕ) (hw : w = 8 ∨ w = 16) (F : ℕ) (a : ℤ) (ha : InRange w a)
    (rnd : ℝ → ℝ) (hr : rnd (fxToFloat F a) = fxToFloat F a) :
    fxOfFloat rnd ⟨true, w⟩ F (fxToFloat F a) = .ok a := by
  have hF : (2 : ℝ) ^ F ≠ 0 := by positivity
  have e : rnd (fxToFloat F a) * 2 ^ F = a := by
    rw [hr]; unfold fxToFloat; field_simp
  have hb := (narrow_of hw).bounds (fits_of_inRange ha)
  have h1 : (-32768 : ℝ) ≤ a := by exact_mod_cast hb.1
  have h2 : (a : ℝ) ≤ 32767 := by exact_mod_cast hb.2
  rw [fxOfFloat_ok (narrow_of hw) rnd F (by rw [e]; linarith) (by rw [e]; linarith), e, truncR_int,
    clampT_eq hw]
  congr 1
  unfold clampZ
  unfold InRange at ha
  rw [if_neg (by omega), if_neg (by omega)]

/-- **C44**: a float whose scaled value is in range is truncated toward zero with an error below one
unit in the last place; scaled values out of range (but inside 32 bits) saturate. -/
theorem C44_truncates (w : ℕ) (hw : w = 8 ∨ w = 16) (F : ℕ) (x : ℝ)
    (h1 : -2147483648 ≤ x * 2 ^ F) (h2 : x * 2 ^ F ≤ 2147483647) :
    ∃ a, fxOfFloat id ⟨true, w⟩ F x = .ok a ∧ InRange w a ∧
      ((-2 ^ (w - 1) : ℝ) ≤ x * 2 ^ F → x * 2 ^ F ≤ 2 ^ (w - 1) - 1 →
        |fxToFloat F a| ≤ |x| ∧ 0 ≤ fxToFloat F a * x ∧ |x - fxToFloat F a| < 1 / 2 ^ F) ∧
      ((2 ^ (w - 1) - 1 : ℝ) < x * 2 ^ F → a = 2 ^ (w - 1) - 1) ∧
      (x * 2 ^ F < (-2 ^ (w - 1) : ℝ) → a = -2 ^ (w - 1)) := by
  have hP : (0 : ℝ) < 2 ^ F := by positivity
  obtain ⟨c1, c2, c3⟩ := truncR_abs (x * 2 ^ F)
  have hl : -(2 : ℤ) ^ (w - 1) ≤ 2 ^ (w - 1) - 1 := by rcases hw with rfl | rfl <;> norm_num
  have hlo : ((-2 ^ (w - 1) : ℤ) : ℝ) = -2 ^ (w - 1) := by push_cast; rfl
  have hhi : ((2 ^ (w - 1) - 1 : ℤ) : ℝ) = 2 ^ (w - 1) - 1 := by push_cast; rfl
  refine ⟨clampT ⟨true, w⟩ (truncR (x * 2 ^ F)), fxOfFloat_ok (narrow_of hw) id F (by
    show -2147483649 < x * 2 ^ F; linarith) (by show x * 2 ^ F < 2147483648; linarith),
    clampT_fits (narrow_of hw) _, fun g1 g2 => ?_, fun g => ?_, fun g => ?_⟩
  · have k1 : -2 ^ (w - 1) ≤ truncR (x * 2 ^ F) := by
      rw [← truncR_int (-2 ^ (w - 1)), hlo]; exact truncR_mono g1
    have k2 : truncR (x * 2 ^ F) ≤ 2 ^ (w - 1) - 1 := by
      rw [← truncR_int (2 ^ (w - 1) - 1), hhi]; exact truncR_mono g2
    rw [clampT_eq hw]
    have e : clampZ (-2 ^ (w - 1)) (2 ^ (w - 1) - 1) (truncR (x * 2 ^ F)) = truncR (x * 2 ^ F) := by
      unfold clampZ; rw [if_neg (by omega), if_neg (by omega)]
    rw [e]
    unfold fxToFloat
    set z : ℝ := (truncR (x * 2 ^ F) : ℝ) with hz
    have hx : x = (x * 2 ^ F) * (1 / 2 ^ F) := by field_simp
    refine ⟨?_, ?_, ?_⟩
    · rw [abs_mul, abs_of_pos (by positivity : (0 : ℝ) < 1 / 2 ^ F)]
      calc |z| * (1 / 2 ^ F) ≤ |x * 2 ^ F| * (1 / 2 ^ F) := by gcongr
        _ = |x| := by rw [abs_mul, abs_of_pos hP]; field_simp
    · have : z * (1 / 2 ^ F) * x = (z * (x * 2 ^ F)) * (1 / 2 ^ F) ^ 2 := by field_simp
      rw [this]; positivity
    · have : x - z * (1 / 2 ^ F) = (x * 2 ^ F - z) * (1 / 2 ^ F) := by field_simp
      rw [this, abs_mul, abs_of_pos (by positivity : (0 : ℝ) < 1 / 2 ^ F)]
      calc |x * 2 ^ F - z| * (1 / 2 ^ F) < 1 * (1 / 2 ^ F) := by gcongr
        _ = 1 / 2 ^ F := one_mul _
  · have k : 2 ^ (w - 1) - 1 ≤ truncR (x * 2 ^ F) := by
      rw [← truncR_int (2 ^ (w - 1) - 1), hhi]; exact truncR_mono g.le
    rw [clampT_eq hw]
    unfold clampZ
    split_ifs <;> omega
  · have k : truncR (x * 2 ^ F) ≤ -2 ^ (w - 1) := by
      rw [← truncR_int (-2 ^ (w - 1)), hlo]; exact truncR_mono g.le
    rw [clampT_eq hw]
    unfold clampZ
    split_ifs <;> omega

/-- **C44**: the conversion is monotone, for `float` and through any monotone rounding of `double`. -/
theorem C44_monotone (w : ℕ) (hw : w = 8 ∨ w = 16) (F : ℕ) (rnd : ℝ → ℝ) (hr : Monotone rnd)
    (x y : ℝ) (hxy : x ≤ y)
    (h1 : -2147483648 ≤ rnd x * 2 ^ F) (h2 : rnd y * 2 ^ F ≤ 2147483647) :
    ∃ a b, fxOfFloat rnd ⟨true, w⟩ F x = .ok a ∧ fxOfFloat rnd ⟨true, w⟩ F y = .ok b ∧ a ≤ b := by
  have hle : rnd x * 2 ^ F ≤ rnd y * 2 ^ F := mul_le_mul_of_nonneg_right (hr hxy) (by positivity)
  refine ⟨_, _, fxOfFloat_ok (narrow_of hw) rnd F (by linarith) (by linarith),
    fxOfFloat_ok (narrow_of hw) rnd F (by linarith) (by linarith), ?_⟩
  rw [clampT_eq hw, clampT_eq hw]
  exact clampZ_mono (by rcases hw with rfl | rfl <;> norm_num) (truncR_mono hle)

example : InRange 16 (-12345) ∧ fxOfFloat id ⟨true, 16⟩ 15 (fxToFloat 15 (-12345)) = .ok (-12345) := by
  have h : InRange 16 (-12345) := by unfold InRange; norm_num
  exact ⟨h, C44_round_trip 16 (by norm_num) 15 _ h id rfl⟩

/-- Beyond 32 bits the conversion to integer is undefined. -/
theorem C44_huge_undefined : fxOfFloat id ⟨true, 16⟩ 15 65536 = .error .overflow := by
  unfold fxOfFloat floatToI32
  have : truncR (id (65536 : ℝ) * 2 ^ 15) = 2147483648 := by
    have e : id (65536 : ℝ) * 2 ^ 15 = ((2147483648 : ℤ) : ℝ) := by norm_num
    rw [e, truncR_int]
  rw [this, if_neg (by decide +kernel)]
  rfl

/-! ## C45 -/

/-- `r` is the element-wise result of the scalar operation. -/
def ElementWise (op : ℤ → ℤ → Res ℤ) (lhs rhs r : List ℤ) : Prop :=
  r.length = lhs.length ∧
    ∀ (i : ℕ) (a b : ℤ), lhs[i]? = some a → rhs[i]? = some b → ∃ v, r[i]? = some v ∧ op a b = .ok v

theorem elementWise_vec {n : ℕ} {f g : ℕ → ℤ} {op : ℤ → ℤ → Res ℤ} {q : ℤ → ℤ → ℤ}
    (h : ∀ i < n, op (f i) (g i) = .ok (q (f i) (g i))) :
    ElementWise op (vec n f) (vec n g) (vec n (fun i => q (f i) (g i))) := by
  refine ⟨by simp, fun i a b ha hb => ?_⟩
  rw [getElem?_vec] at ha hb
  split_ifs at ha hb with hi
  cases ha; cases hb
  exact ⟨_, by rw [getElem?_vec, if_pos hi], h i hi⟩

theorem vec_all {xs : List ℤ} {n : ℕ} {f : ℕ → ℤ} {P : ℤ → Prop} (h : ∀ a ∈ xs, P a)
    (e : xs = vec n f) : ∀ i < n, P (f i) := by
  intro i hi
  apply h
  rw [e]
  unfold vec
  exact List.mem_map.2 ⟨i, List.mem_range.2 hi, rfl⟩

/-- **C45** for `add` and `subtract`: on every instruction set the span functions give the scalar
result at every index, for every length (below `2 ^ 32` where the scalar loop is compiled). -/
theorem C45_add_sub (isa : Isa) (w : ℕ) (hw : w = 8 ∨ w = 16) (lhs rhs out : List ℤ)
    (h1 : lhs.length = rhs.length) (h2 : lhs.length = out.length)
    (hl : ∀ a ∈ lhs, InRange w a) (hr : ∀ a ∈ rhs, InRange w a)
    (hn : isa = .scalar → lhs.length < 2 ^ 32) :
    (∃ r, fxAddSpan isa ⟨true, w⟩ lhs rhs out = .ok r ∧ ElementWise (fxAdd ⟨true, w⟩) lhs rhs r) ∧
    (∃ r, fxSubSpan isa ⟨true, w⟩ lhs rhs out = .ok r ∧ ElementWise (fxSub ⟨true, w⟩) lhs rhs r) := by
  obtain ⟨n, hn'⟩ : ∃ n, n = lhs.length := ⟨_, rfl⟩
  obtain ⟨f, ef⟩ : ∃ f, lhs = vec n f := ⟨_, list_eq_vec (0 : ℤ) hn'.symm⟩
  obtain ⟨g, eg⟩ : ∃ g, rhs = vec n g := ⟨_, list_eq_vec (0 : ℤ) (by omega)⟩
  obtain ⟨o, eo⟩ : ∃ o, out = vec n o := ⟨_, list_eq_vec (0 : ℤ) (by omega)⟩
  have hf := vec_all hl ef
  have hg := vec_all hr eg
  subst ef eg eo
  rw [length_vec] at hn
  have hN := narrow_of hw
  have hadd : ∀ a b, InRange w a → InRange w b → fxAdd ⟨true, w⟩ a b = .ok (clampT ⟨true, w⟩ (a + b)) :=
    fun a b ha hb => fxAdd_ok hN ha hb
  have hsub : ∀ a b, InRange w a → InRange w b → fxSub ⟨true, w⟩ a b = .ok (clampT ⟨true, w⟩ (a - b)) :=
    fun a b ha hb => fxSub_ok hN ha hb
  have main : ∀ (sc : ℤ → ℤ → Res ℤ) (q : ℤ → ℤ → ℤ) (v8 v16 : List ℤ → List ℤ → List ℤ),
      (∀ a b, InRange w a → InRange w b → sc a b = .ok (q a b)) →
      (w = 8 → ∀ f g : ℕ → ℤ, v8 (vec 16 f) (vec 16 g) = vec 16 (fun i => q (f i) (g i))) →
      (w = 16 → ∀ f g : ℕ → ℤ, v16 (vec 8 f) (vec 8 g) = vec 8 (fun i => q (f i) (g i))) →
      ∃ r, applyFixedPointKernel isa ⟨true, w⟩ (vec n f) (vec n g) (vec n o) sc v8 v16 = .ok r ∧
        ElementWise sc (vec n f) (vec n g) r := by
    intro sc q v8 v16 hs h8 h16
    refine ⟨_, ?_, elementWise_vec (q := q) (fun i hi => hs _ _ (hf i hi) (hg i hi))⟩
    unfold applyFixedPointKernel
    rw [length_vec, length_vec, length_vec, check_decide_ok rfl, bind_ok, bind_ok]
    by_cases hi : isa = .scalar
    · rw [if_neg (by simp [hi]), if_neg (by simp [hi])]
      exact fxScalarLoop_vec (hn hi) (InRange w) f g o q sc hf hg hs
    · rcases hw with rfl | rfl
      · rw [if_pos ⟨hi, rfl⟩]
        exact applyKernel_vec (by norm_num) (InRange 8) f g o q sc v8 hf hg hs
          (fun f g _ _ => h8 rfl f g)
      · rw [if_neg (by simp [i8]), if_pos ⟨hi, rfl⟩]
        exact applyKernel_vec (by norm_num) (InRange 16) f g o q sc v16 hf hg hs
          (fun f g _ _ => h16 rfl f g)
  constructor
  · refine main (fxAdd ⟨true, w⟩) (fun a b => clampT ⟨true, w⟩ (a + b)) _ _ hadd ?_ ?_
    · rintro rfl f g
      unfold addsLanes
      rw [lanes_zip]
      exact vec_ext (fun i _ => satLane_eq (Or.inl rfl) _)
    · rintro rfl f g
      unfold addsLanes
      rw [lanes_zip]
      exact vec_ext (fun i _ => satLane_eq (Or.inr rfl) _)
  · refine main (fxSub ⟨true, w⟩) (fun a b => clampT ⟨true, w⟩ (a - b)) _ _ hsub ?_ ?_
    · rintro rfl f g
      unfold subsLanes
      rw [lanes_zip]
      exact vec_ext (fun i _ => satLane_eq (Or.inl rfl) _)
    · rintro rfl f g
      unfold subsLanes
      rw [lanes_zip]
      exact vec_ext (fun i _ => satLane_eq (Or.inr rfl) _)

/-- **C45** for `multiply`, on every instruction set but SSE4.1 and, on SSE4.1, for operands of
equal sign in formats other than q15 (or without fractional bits).  Missing: SSE4.1 products that
are negative, and q15 on SSE4.1; the statement is false there. -/
theorem C45_multiply_partial (isa : Isa) (w : ℕ) (hw : w = 8 ∨ w = 16) (F : ℕ) (hF : F ≤ w - 1)
    (lhs rhs out : List ℤ) (h1 : lhs.length = rhs.length) (h2 : lhs.length = out.length)
    (hl : ∀ a ∈ lhs, InRange w a) (hr : ∀ a ∈ rhs, InRange w a) (hn : lhs.length < 2 ^ 32)
    (hsse : isa = .sse41 → F < 15 ∧
      (F = 0 ∨ ((∀ a ∈ lhs, 0 ≤ a) ∧ (∀ a ∈ rhs, 0 ≤ a)) ∨ ((∀ a ∈ lhs, a ≤ 0) ∧ (∀ a ∈ rhs, a ≤ 0)))) :
    ∃ r, fxMulSpan isa ⟨true, w⟩ F lhs rhs out = .ok r ∧ ElementWise (fxMul ⟨true, w⟩ F) lhs rhs r := by
  obtain ⟨n, hn'⟩ : ∃ n, n = lhs.length := ⟨_, rfl⟩
  obtain ⟨f, ef⟩ : ∃ f, lhs = vec n f := ⟨_, list_eq_vec (0 : ℤ) hn'.symm⟩
  obtain ⟨g, eg⟩ : ∃ g, rhs = vec n g := ⟨_, list_eq_vec (0 : ℤ) (by omega)⟩
  obtain ⟨o, eo⟩ : ∃ o, out = vec n o := ⟨_, list_eq_vec (0 : ℤ) (by omega)⟩
  -- the sign condition as a predicate on single elements
  obtain ⟨S, hS, hSl, hSr⟩ : ∃ S : ℤ → Prop,
      (isa = .sse41 → ∀ a b, S a → S b → 0 ≤ a * b ∨ F = 0) ∧ (∀ a ∈ lhs, S a) ∧ (∀ a ∈ rhs, S a) := by
    by_cases hi : isa = .sse41
    · rcases (hsse hi).2 with h | ⟨ha, hb⟩ | ⟨ha, hb⟩
      · exact ⟨fun _ => True, fun _ _ _ _ _ => Or.inr h, fun _ _ => trivial, fun _ _ => trivial⟩
      · exact ⟨fun a => 0 ≤ a, fun _ _ _ h h' => Or.inl (mul_nonneg h h'), ha, hb⟩
      · exact ⟨fun a => a ≤ 0, fun _ _ _ h h' => Or.inl (mul_nonneg_of_nonpos_of_nonpos h h'), ha, hb⟩
    · exact ⟨fun _ => True, fun h => absurd h hi, fun _ _ => trivial, fun _ _ => trivial⟩
  have hf := vec_all (P := fun a => InRange w a ∧ S a) (fun a ha => ⟨hl a ha, hSl a ha⟩) ef
  have hg := vec_all (P := fun a => InRange w a ∧ S a) (fun a ha => ⟨hr a ha, hSr a ha⟩) eg
  subst ef eg eo
  rw [length_vec] at hn
  have hN := narrow_of hw
  have hmul : ∀ a b, (InRange w a ∧ S a) → (InRange w b ∧ S b) →
      fxMul ⟨true, w⟩ F a b = .ok (clampT ⟨true, w⟩ ((a * b) >>> F)) :=
    fun a b ha hb => fxMul_ok hN (by omega) ha.1 hb.1
  refine ⟨_, ?_, elementWise_vec (q := fun a b => clampT ⟨true, w⟩ ((a * b) >>> F))
    (fun i hi => hmul _ _ (hf i hi) (hg i hi))⟩
  unfold fxMulSpan
  rw [length_vec, length_vec, length_vec, check_decide_ok rfl, bind_ok, bind_ok]
  by_cases c1 : isa = .sse41 ∧ (⟨true, w⟩ : IntT) = i8
  · rw [if_pos c1]
    obtain rfl : w = 8 := congrArg IntT.width c1.2
    refine applyKernel_vec (by norm_num) _ f g o (fun a b => clampT ⟨true, 8⟩ ((a * b) >>> F)) _ _ hf hg hmul ?_
    intro f g hf hg
    rw [mulKernelS8_vec (by omega) f g (fun i hi => (hf i hi).1) (fun i hi => (hg i hi).1)]
    apply vec_ext
    intro i hi
    unfold sseLane
    rw [if_pos (hS c1.1 _ _ (hf i hi).2 (hg i hi).2)]
    rfl
  rw [if_neg c1]
  by_cases c2 : isa = .sse41 ∧ (⟨true, w⟩ : IntT) = i16
  · rw [if_pos c2]
    obtain rfl : w = 16 := congrArg IntT.width c2.2
    refine applyKernel_vec (by norm_num) _ f g o (fun a b => clampT ⟨true, 16⟩ ((a * b) >>> F)) _ _ hf hg hmul ?_
    intro f g hf hg
    rw [mulKernelS16_vec (hsse c2.1).1 f g (fun i hi => (hf i hi).1) (fun i hi => (hg i hi).1)]
    apply vec_ext
    intro i hi
    unfold sseLane
    rw [if_pos (hS c2.1 _ _ (hf i hi).2 (hg i hi).2)]
    rfl
  rw [if_neg c2]
  by_cases c3 : isa = .neon ∧ (⟨true, w⟩ : IntT) = i16 ∧ F = 15
  · rw [if_pos c3]
    obtain rfl : w = 16 := congrArg IntT.width c3.2.1
    obtain rfl := c3.2.2
    exact applyKernel_vec (by norm_num) _ f g o (fun a b => clampT ⟨true, 16⟩ ((a * b) >>> 15)) _ _ hf hg hmul
      (fun f g _ _ => vqdmulh_vec f g)
  · rw [if_neg c3]
    exact fxScalarLoop_vec hn _ f g o (fun a b => clampT ⟨true, w⟩ ((a * b) >>> F)) _ hf hg hmul

/-- q15 on SSE4.1 rounds instead of truncating: at every index inside a whole register the result is
the scalar one or one more, unless both operands are the most negative value. -/
theorem C45_sse41_q15_partial (lhs rhs out : List ℤ) (h0 : lhs.length % 8 = 0)
    (h1 : lhs.length = rhs.length) (h2 : lhs.length = out.length)
    (hl : ∀ a ∈ lhs, InRange 16 a ∧ a ≠ -32768) (hr : ∀ a ∈ rhs, InRange 16 a) :
    ∃ r, fxMulSpan .sse41 ⟨true, 16⟩ 15 lhs rhs out = .ok r ∧
      ∀ (i : ℕ) (a b : ℤ), lhs[i]? = some a → rhs[i]? = some b → ∃ v s, r[i]? = some v ∧
        fxMul ⟨true, 16⟩ 15 a b = .ok s ∧ (v = s ∨ v = s + 1) := by
  obtain ⟨n, hn'⟩ : ∃ n, n = lhs.length := ⟨_, rfl⟩
  obtain ⟨f, ef⟩ : ∃ f, lhs = vec n f := ⟨_, list_eq_vec (0 : ℤ) hn'.symm⟩
  obtain ⟨g, eg⟩ : ∃ g, rhs = vec n g := ⟨_, list_eq_vec (0 : ℤ) (by omega)⟩
  obtain ⟨o, eo⟩ : ∃ o, out = vec n o := ⟨_, list_eq_vec (0 : ℤ) (by omega)⟩
  have hf := vec_all (P := fun a => InRange 16 a ∧ a ≠ -32768) hl ef
  have hg := vec_all hr eg
  subst ef eg eo
  rw [length_vec] at h0
  have e0 : applyKernel 8 (vec n f) (vec n g) (vec n o) (fxMul ⟨true, 16⟩ 15) (mulKernelS16 15)
      = applyKernel 8 (vec n f) (vec n g) (vec n o)
        (fun a b => .ok (i16.conv ((((a * b) >>> 14) + 1) >>> 1))) (mulKernelS16 15) := by
    unfold applyKernel
    rw [length_vec, h0]
    rfl
  refine ⟨vec n (fun i => i16.conv ((((f i * g i) >>> 14) + 1) >>> 1)), ?_, ?_⟩
  · unfold fxMulSpan
    rw [length_vec, length_vec, length_vec, check_decide_ok rfl, bind_ok, bind_ok,
      if_neg (by decide), if_pos (by decide), e0]
    exact applyKernel_vec (by norm_num) (fun _ => True) f g o
      (fun a b => i16.conv ((((a * b) >>> 14) + 1) >>> 1)) _ _ (fun _ _ => trivial) (fun _ _ => trivial)
      (fun _ _ _ _ => rfl) (fun f g _ _ => mulKernelQ15_vec f g)
  · intro i a b ha hb
    rw [getElem?_vec] at ha hb
    split_ifs at ha hb with hi
    cases ha; cases hb
    refine ⟨_, _, by rw [getElem?_vec, if_pos hi],
      fxMul_ok (Or.inr rfl) (by norm_num) (hf i hi).1 (hg i hi), ?_⟩
    have b1 : -32767 ≤ f i ∧ f i ≤ 32767 := by
      have := hf i hi; unfold InRange at this; norm_num at this; omega
    have b2 : -32768 ≤ g i ∧ g i ≤ 32767 := by
      have := hg i hi; unfold InRange at this; norm_num at this; omega
    have h3 : |f i * g i| ≤ 32767 * 32768 := by
      rw [abs_mul]
      exact mul_le_mul (abs_le.2 ⟨by omega, by omega⟩) (abs_le.2 ⟨by omega, by omega⟩) (abs_nonneg _)
        (by norm_num)
    have h4 := abs_le.1 h3
    generalize f i * g i = p at *
    rw [Int.shiftRight_eq_div_pow, Int.shiftRight_eq_div_pow, Int.shiftRight_eq_div_pow]
    have hfit : i16.Fits ((p / ((2 ^ 14 : ℕ) : ℤ) + 1) / ((2 ^ 1 : ℕ) : ℤ)) := by
      rw [fits_i16]; norm_num; omega
    rw [IntT.conv_eq (by decide) hfit]
    unfold clampT
    rw [i16_min, i16_max]
    norm_num at h4 ⊢
    omega

/-- **C45** is false for `multiply` with SSE4.1: a negative q7 product (and a negative 16-bit product
with 14 fractional bits) gives the most positive value, q15 rounds `1 * 0.5 ulp` up, and q15 `(-1) * (-1)` gives -1. -/
theorem C45_false :
    (fxMul i8 7 64 (-64) = .ok (-32) ∧
      fxMulSpan .sse41 i8 7 (vec 16 fun _ => 64) (vec 16 fun _ => -64) (vec 16 fun _ => 0)
        = .ok (vec 16 fun _ => 127)) ∧
    (fxMul i16 14 64 (-256) = .ok (-1) ∧
      fxMulSpan .sse41 i16 14 (vec 8 fun _ => 64) (vec 8 fun _ => -256) (vec 8 fun _ => 0)
        = .ok (vec 8 fun _ => 32767)) ∧
    (fxMul i16 15 1 16384 = .ok 0 ∧
      fxMulSpan .sse41 i16 15 (vec 8 fun _ => 1) (vec 8 fun _ => 16384) (vec 8 fun _ => 0)
        = .ok (vec 8 fun _ => 1)) ∧
    (fxMul i16 15 (-32768) (-32768) = .ok 32767 ∧
      fxMulSpan .sse41 i16 15 (vec 8 fun _ => -32768) (vec 8 fun _ => -32768) (vec 8 fun _ => 0)
        = .ok (vec 8 fun _ => -32768)) := by
  decide +kernel

/-- **C45** for `multiply` on SSE4.1, all operands and every length: the first `n % V` elements (`V`
lanes per register) are the scalar result.  In the others the result is the scalar one exactly when
the product is not negative or there are no fractional bits — for q15, when the part cut off is less
than one half and not both operands are the most negative value — and otherwise it is the most positive
value, respectively one more, respectively the most negative value. -/
theorem C45_sse41_exact (w : ℕ) (hw : w = 8 ∨ w = 16) (F : ℕ) (hF : F ≤ w - 1)
    (lhs rhs out : List ℤ) (h1 : lhs.length = rhs.length) (h2 : lhs.length = out.length)
    (hl : ∀ a ∈ lhs, InRange w a) (hr : ∀ a ∈ rhs, InRange w a) :
    ∃ r, fxMulSpan .sse41 ⟨true, w⟩ F lhs rhs out = .ok r ∧ r.length = lhs.length ∧
      ∀ (i : ℕ) (a b : ℤ), lhs[i]? = some a → rhs[i]? = some b →
        ∃ v s, r[i]? = some v ∧ fxMul ⟨true, w⟩ F a b = .ok s ∧
          (i < lhs.length % (128 / w) → v = s) ∧
          (lhs.length % (128 / w) ≤ i → F < 15 →
            (v = s ↔ 0 ≤ a * b ∨ F = 0) ∧ (¬ (0 ≤ a * b ∨ F = 0) → v = 2 ^ (w - 1) - 1)) ∧
          (lhs.length % (128 / w) ≤ i → F = 15 →
            (v = s ↔ a * b % 2 ^ 15 < 2 ^ 14 ∧ ¬ (a = -32768 ∧ b = -32768)) ∧
            (2 ^ 14 ≤ a * b % 2 ^ 15 → v = s + 1) ∧
            (a = -32768 ∧ b = -32768 → v = -32768 ∧ s = 32767)) := by
  obtain ⟨n, hn'⟩ : ∃ n, n = lhs.length := ⟨_, rfl⟩
  obtain ⟨f, ef⟩ : ∃ f, lhs = vec n f := ⟨_, list_eq_vec (0 : ℤ) hn'.symm⟩
  obtain ⟨g, eg⟩ : ∃ g, rhs = vec n g := ⟨_, list_eq_vec (0 : ℤ) (by omega)⟩
  obtain ⟨o, eo⟩ : ∃ o, out = vec n o := ⟨_, list_eq_vec (0 : ℤ) (by omega)⟩
  have hf := vec_all hl ef
  have hg := vec_all hr eg
  subst ef eg eo
  have hN := narrow_of hw
  have hmul : ∀ a b, InRange w a → InRange w b →
      fxMul ⟨true, w⟩ F a b = .ok (clampT ⟨true, w⟩ ((a * b) >>> F)) :=
    fun a b ha hb => fxMul_ok hN (by omega) ha hb
  obtain ⟨lane, hrun, hlane⟩ : ∃ lane : ℤ → ℤ → ℤ,
      fxMulSpan .sse41 ⟨true, w⟩ F (vec n f) (vec n g) (vec n o) = .ok (vec n (fun i =>
        if i < n % (128 / w) then clampT ⟨true, w⟩ ((f i * g i) >>> F) else lane (f i) (g i))) ∧
      (F < 15 → ∀ a b, lane a b = if 0 ≤ a * b ∨ F = 0 then clampT ⟨true, w⟩ ((a * b) >>> F)
        else (⟨true, w⟩ : IntT).max) ∧
      (F = 15 → w = 16 ∧ ∀ a b, lane a b = i16.conv ((((a * b) >>> 14) + 1) >>> 1)) := by
    unfold fxMulSpan
    rw [length_vec, length_vec, length_vec, check_decide_ok rfl, bind_ok, bind_ok]
    rcases hw with rfl | rfl
    · refine ⟨sseLane i16 i8 F, ?_, fun _ a b => rfl, fun h => by omega⟩
      rw [if_pos ⟨rfl, rfl⟩]
      exact applyKernel_vec2 (by norm_num) (InRange 8) f g o (fun a b => clampT ⟨true, 8⟩ ((a * b) >>> F))
        (sseLane i16 i8 F) _ _ hf hg hmul (fun f g hf hg => mulKernelS8_vec (by omega) f g hf hg)
    · by_cases c : F = 15
      · subst c
        refine ⟨fun a b => i16.conv ((((a * b) >>> 14) + 1) >>> 1), ?_, fun h => by omega,
          fun _ => ⟨rfl, fun _ _ => rfl⟩⟩
        rw [if_neg (by decide), if_pos ⟨rfl, rfl⟩]
        exact applyKernel_vec2 (by norm_num) (InRange 16) f g o
          (fun a b => clampT ⟨true, 16⟩ ((a * b) >>> 15))
          (fun a b => i16.conv ((((a * b) >>> 14) + 1) >>> 1)) _ _ hf hg hmul
          (fun f g _ _ => mulKernelQ15_vec f g)
      · refine ⟨sseLane i32 i16 F, ?_, fun _ a b => rfl, fun h => absurd h c⟩
        rw [if_neg (by decide), if_pos ⟨rfl, rfl⟩]
        exact applyKernel_vec2 (by norm_num) (InRange 16) f g o
          (fun a b => clampT ⟨true, 16⟩ ((a * b) >>> F)) (sseLane i32 i16 F) _ _ hf hg hmul
          (fun f g hf hg => mulKernelS16_vec (by omega) f g hf hg)
  refine ⟨_, hrun, by rw [length_vec, length_vec], fun i a b ha hb => ?_⟩
  rw [getElem?_vec] at ha hb
  split_ifs at ha hb with hi
  cases ha; cases hb
  refine ⟨_, _, by rw [getElem?_vec, if_pos hi], hmul _ _ (hf i hi) (hg i hi), ?_, ?_, ?_⟩
  · intro h
    rw [length_vec] at h
    rw [if_pos h]
  · intro h hF15
    rw [length_vec] at h
    rw [if_neg (by omega), hlane.1 hF15]
    have hmax : (⟨true, w⟩ : IntT).max = 2 ^ (w - 1) - 1 := rfl
    constructor
    · constructor
      · intro hv
        by_contra hc
        rw [if_neg hc] at hv
        rw [not_or] at hc
        have hneg : (f i * g i) >>> F < 0 := by
          rw [Int.shiftRight_eq_div_pow]
          exact Int.ediv_neg_of_neg_of_pos (by omega) (by positivity)
        have hpos : 0 < (⟨true, w⟩ : IntT).max := by
          rcases hw with rfl | rfl <;> decide
        have : clampT ⟨true, w⟩ ((f i * g i) >>> F) < (⟨true, w⟩ : IntT).max := by
          unfold clampT
          have hmin : (⟨true, w⟩ : IntT).min < 0 := by rcases hw with rfl | rfl <;> decide
          omega
        omega
      · intro hc
        rw [if_pos hc]
    · intro hc
      rw [if_neg hc, hmax]
  · rintro h rfl
    rw [length_vec] at h
    obtain ⟨rfl, hl'⟩ := hlane.2 rfl
    rw [if_neg (by omega), hl']
    have b1 : -32768 ≤ f i ∧ f i ≤ 32767 := by
      have := hf i hi; unfold InRange at this; norm_num at this; omega
    have b2 : -32768 ≤ g i ∧ g i ≤ 32767 := by
      have := hg i hi; unfold InRange at this; norm_num at this; omega
    by_cases hb : f i = -32768 ∧ g i = -32768
    · rw [hb.1, hb.2]
      decide +kernel
    · have h4 : -(32768 * 32767) ≤ f i * g i ∧ f i * g i ≤ 32768 * 32767 := by
        rw [← abs_le, abs_mul]
        have a1 : |f i| ≤ 32768 := abs_le.2 ⟨by omega, by omega⟩
        have a2 : |g i| ≤ 32768 := abs_le.2 ⟨by omega, by omega⟩
        by_cases c1 : f i = -32768
        · by_cases c2 : g i = -32768
          · exact absurd ⟨c1, c2⟩ hb
          · exact mul_le_mul a1 (abs_le.2 ⟨by omega, by omega⟩) (abs_nonneg _) (by norm_num)
        · rw [mul_comm]
          exact mul_le_mul a2 (abs_le.2 ⟨by omega, by omega⟩) (abs_nonneg _) (by norm_num)
      generalize f i * g i = p at *
      rw [Int.shiftRight_eq_div_pow, Int.shiftRight_eq_div_pow, Int.shiftRight_eq_div_pow]
      have hfit : i16.Fits ((p / ((2 ^ 14 : ℕ) : ℤ) + 1) / ((2 ^ 1 : ℕ) : ℤ)) := by
        rw [fits_i16]; norm_num; omega
      rw [IntT.conv_eq (by decide) hfit]
      have hcl : clampT ⟨true, 16⟩ (p / ((2 ^ 15 : ℕ) : ℤ)) = p / 32768 := by
        unfold clampT
        rw [show (⟨true, 16⟩ : IntT) = i16 from rfl, i16_min, i16_max]
        norm_num at h4 ⊢
        omega
      rw [hcl]
      norm_num at h4 ⊢
      refine ⟨⟨fun h => ⟨by omega, fun x => ?_⟩, fun h => by omega⟩, fun h => by omega, fun x => ?_⟩
      · intro y; exact hb ⟨x, y⟩
      · intro y; exact absurd ⟨x, y⟩ hb

example : InRange 8 64 ∧ InRange 8 (-64) ∧ ¬ (0 ≤ (64 : ℤ) * -64 ∨ 7 = 0) ∧
    fxMulSpan .sse41 i8 7 (vec 17 fun _ => 64) (vec 17 fun _ => -64) (vec 17 fun _ => 0)
      = .ok (vec 17 fun i => if i < 1 then -32 else 127) := by
  refine ⟨by unfold InRange; norm_num, by unfold InRange; norm_num, by norm_num, by decide +kernel⟩

/-- Without SIMD the span functions loop forever on `2 ^ 32` or more elements. -/
theorem C45_scalar_huge (lhs rhs out : List ℤ) (h1 : lhs.length = rhs.length)
    (h2 : lhs.length = out.length) (hn : 2 ^ 32 ≤ lhs.length) (t : IntT) :
    fxAddSpan .scalar t lhs rhs out = .error .diverge := by
  unfold fxAddSpan applyFixedPointKernel
  rw [check_decide_ok h1, bind_ok, check_decide_ok h2, bind_ok, if_neg (by simp), if_neg (by simp)]
  unfold fxScalarLoop forU32
  rw [if_neg (by omega)]

example : fxAddSpan .sse2 i16 (vec 11 fun i => 32760 + i - 5 * i) (vec 11 fun i => 3 * (i : ℤ)) (vec 11 fun _ => 0)
    = .ok [32760, 32759, 32758, 32757, 32756, 32755, 32754, 32753, 32752, 32751, 32750] := by
  decide +kernel

/-! ## C46 -/

/-- **C46** is false: the real product of `1/2` and `1/2` comes out as `1/16` instead of `1/4` (shift
17 instead of 15), and since line 66 reads the imaginary part of the left operand twice the product is
not commutative. -/
theorem C46_false :
    fxcMul16 (16384, 0) (16384, 0) = .ok (2048, 0) ∧
    fxcMul16 (0, 16384) (16384, 0) ≠ fxcMul16 (16384, 0) (0, 16384) := by
  decide +kernel

/-- **C46**, what does hold: when both operands have the same imaginary part the result is a quarter
of the complex product (in units of `2 ^ -15`: the product over `2 ^ 17`) up to two units, and the
product of two such operands is commutative. -/
theorem C46_equal_imag_partial (a b c : ℤ) (ha : InRange 16 a) (hb : InRange 16 b) (hc : InRange 16 c) :
    ∃ re im, fxcMul16 (a, c) (b, c) = .ok (re, im) ∧ fxcMul16 (b, c) (a, c) = .ok (re, im) ∧
      |(re : ℚ) - ((a * b - c * c : ℤ) : ℚ) / 2 ^ 17| < 1 ∧
      |(im : ℚ) - ((a * c + c * b : ℤ) : ℚ) / 2 ^ 17| < 2 := by
  have hb16 : ∀ x, InRange 16 x → -32768 ≤ x ∧ x ≤ 32767 := by
    intro x hx; unfold InRange at hx; norm_num at hx; exact hx
  have hm : ∀ x y, InRange 16 x → InRange 16 y → (i16.mul x y >>= fun p => i16.shr p 17)
      = .ok (x * y / 131072) ∧ -8192 ≤ x * y / 131072 ∧ x * y / 131072 ≤ 8192 := by
    intro x y hx hy
    have h1 := mul_bounds (hb16 x hx) (hb16 y hy)
    refine ⟨?_, by omega, by omega⟩
    unfold IntT.mul
    rw [show i16.promote = i32 from rfl, IntT.arith_eq (by decide) (by rw [fits_i32]; omega), bind_ok]
    unfold IntT.shr
    rw [if_pos (by decide), Int.shiftRight_eq_div_pow]
    norm_num
  have key : ∀ x y, InRange 16 x → InRange 16 y → fxcMul16 (x, c) (y, c)
      = .ok (x * y / 131072 - c * c / 131072, x * c / 131072 + c * y / 131072) := by
    intro x y hx hy
    obtain ⟨e1, l1, u1⟩ := hm x y hx hy
    obtain ⟨e2, l2, u2⟩ := hm c c hc hc
    obtain ⟨e3, l3, u3⟩ := hm x c hx hc
    obtain ⟨e4, l4, u4⟩ := hm c y hc hy
    have : fxcMul16 (x, c) (y, c) = ((i16.mul x y >>= fun p => i16.shr p 17) >>= fun p =>
        (i16.mul c c >>= fun p => i16.shr p 17) >>= fun q => i32.sub p q >>= fun re =>
        (i16.mul x c >>= fun p => i16.shr p 17) >>= fun p =>
        (i16.mul c y >>= fun p => i16.shr p 17) >>= fun q => i32.add p q >>= fun im =>
        pure (i16.conv re, i16.conv im)) := by
      unfold fxcMul16
      simp only [bind_assoc]
    rw [this, e1, bind_ok, e2, bind_ok]
    unfold IntT.sub IntT.add
    rw [show i32.promote = i32 from rfl, IntT.arith_eq (by decide) (by rw [fits_i32]; omega), bind_ok,
      e3, bind_ok, e4, bind_ok, IntT.arith_eq (by decide) (by rw [fits_i32]; omega), bind_ok,
      IntT.conv_eq (by decide) (by rw [fits_i16]; omega),
      IntT.conv_eq (by decide) (by rw [fits_i16]; omega)]
    rfl
  have hq : ∀ z : ℤ, ((z / 131072 : ℤ) : ℚ) ≤ (z : ℚ) / 2 ^ 17 ∧ (z : ℚ) / 2 ^ 17 < ((z / 131072 : ℤ) : ℚ) + 1 := by
    intro z
    have h1 : z / 131072 * 131072 ≤ z := by omega
    have h2 : z < (z / 131072 + 1) * 131072 := by omega
    have h1' : ((z / 131072 : ℤ) : ℚ) * 131072 ≤ z := by exact_mod_cast h1
    have h2' : (z : ℚ) < (((z / 131072 : ℤ) : ℚ) + 1) * 131072 := by exact_mod_cast h2
    norm_num
    constructor
    · rw [le_div_iff₀ (by norm_num)]; exact h1'
    · rw [div_lt_iff₀ (by norm_num)]; exact h2'
  refine ⟨a * b / 131072 - c * c / 131072, a * c / 131072 + c * b / 131072, key a b ha hb, ?_, ?_, ?_⟩
  · rw [key b a hb ha, mul_comm b a, mul_comm b c, mul_comm c a, add_comm]
  · obtain ⟨p1, p2⟩ := hq (a * b)
    obtain ⟨q1, q2⟩ := hq (c * c)
    rw [abs_lt]
    push_cast at *
    constructor <;> linarith [sub_div (a * b : ℚ) (c * c) (2 ^ 17)]
  · obtain ⟨p1, p2⟩ := hq (a * c)
    obtain ⟨q1, q2⟩ := hq (c * b)
    rw [abs_lt]
    push_cast at *
    constructor <;> linarith [add_div (a * c : ℚ) (c * b) (2 ^ 17)]

/-- **C46**, what `operator*` computes for all operands: the imaginary part of the right operand is never
used; in units of `2 ^ -15` the result is, up to the truncation of the single products, a quarter of the
product of `lre + j lim` with `rre + j lim`. -/
theorem C46_exact (l r : ℤ × ℤ) (h1 : InRange 16 l.1) (h2 : InRange 16 l.2) (h3 : InRange 16 r.1) :
    fxcMul16 l r = .ok (l.1 * r.1 / 2 ^ 17 - l.2 * l.2 / 2 ^ 17, l.1 * l.2 / 2 ^ 17 + l.2 * r.1 / 2 ^ 17) := by
  obtain ⟨a, c⟩ := l
  obtain ⟨b, d⟩ := r
  have hb16 : ∀ x, InRange 16 x → -32768 ≤ x ∧ x ≤ 32767 := by
    intro x hx; unfold InRange at hx; norm_num at hx; exact hx
  have hm : ∀ x y, InRange 16 x → InRange 16 y → (i16.mul x y >>= fun p => i16.shr p 17)
      = .ok (x * y / 2 ^ 17) ∧ -8192 ≤ x * y / 2 ^ 17 ∧ x * y / 2 ^ 17 ≤ 8192 := by
    intro x y hx hy
    have h1 := mul_bounds (hb16 x hx) (hb16 y hy)
    refine ⟨?_, by omega, by omega⟩
    unfold IntT.mul
    rw [show i16.promote = i32 from rfl, IntT.arith_eq (by decide) (by rw [fits_i32]; omega), bind_ok]
    unfold IntT.shr
    rw [if_pos (by decide), Int.shiftRight_eq_div_pow]
    norm_num
  dsimp only at h1 h2 h3 ⊢
  obtain ⟨e1, l1, u1⟩ := hm a b h1 h3
  obtain ⟨e2, l2, u2⟩ := hm c c h2 h2
  obtain ⟨e3, l3, u3⟩ := hm a c h1 h2
  obtain ⟨e4, l4, u4⟩ := hm c b h2 h3
  have : fxcMul16 (a, c) (b, d) = ((i16.mul a b >>= fun p => i16.shr p 17) >>= fun p =>
      (i16.mul c c >>= fun p => i16.shr p 17) >>= fun q => i32.sub p q >>= fun re =>
      (i16.mul a c >>= fun p => i16.shr p 17) >>= fun p =>
      (i16.mul c b >>= fun p => i16.shr p 17) >>= fun q => i32.add p q >>= fun im =>
      pure (i16.conv re, i16.conv im)) := by
    unfold fxcMul16
    simp only [bind_assoc]
  rw [this, e1, bind_ok, e2, bind_ok]
  unfold IntT.sub IntT.add
  rw [show i32.promote = i32 from rfl, IntT.arith_eq (by decide) (by rw [fits_i32]; omega), bind_ok,
    e3, bind_ok, e4, bind_ok, IntT.arith_eq (by decide) (by rw [fits_i32]; omega), bind_ok,
    IntT.conv_eq (by decide) (by rw [fits_i16]; omega),
    IntT.conv_eq (by decide) (by rw [fits_i16]; omega)]
  rfl

/-- **C46** for operands without imaginary part: the result is within one unit of the product scaled
back to the format only when the product is at most `2 ^ 17` in absolute value (`4 / 2 ^ 15` of the unit
range), and it is for products between 0 and `2 ^ 15`. -/
theorem C46_real_operands (a b : ℤ) (ha : InRange 16 a) (hb : InRange 16 b) :
    ∃ re, fxcMul16 (a, 0) (b, 0) = .ok (re, 0) ∧
      (|(re : ℚ) - (a * b : ℤ) / 2 ^ 15| ≤ 1 → |a * b| ≤ 2 ^ 17) ∧
      (0 ≤ a * b → a * b ≤ 2 ^ 15 → |(re : ℚ) - (a * b : ℤ) / 2 ^ 15| ≤ 1) := by
  have h0 : InRange 16 0 := by unfold InRange; norm_num
  have e := C46_exact (a, 0) (b, 0) ha h0 hb
  refine ⟨a * b / 2 ^ 17, by simpa using e, ?_, ?_⟩
  · intro h
    generalize a * b = p at h ⊢
    have q1 : p / 2 ^ 17 * 2 ^ 17 ≤ p := by omega
    have q2 : p < (p / 2 ^ 17 + 1) * 2 ^ 17 := by omega
    generalize p / 2 ^ 17 = q at h q1 q2
    rw [abs_le] at h
    have h5 : -1 * 2 ^ 15 ≤ ((q : ℚ) - p / 2 ^ 15) * 2 ^ 15 := mul_le_mul_of_nonneg_right h.1 (by norm_num)
    have h6 : ((q : ℚ) - p / 2 ^ 15) * 2 ^ 15 ≤ 1 * 2 ^ 15 := mul_le_mul_of_nonneg_right h.2 (by norm_num)
    rw [sub_mul, div_mul_cancel₀ _ (by norm_num)] at h5 h6
    have h5' : -1 * 2 ^ 15 ≤ q * 2 ^ 15 - p := by exact_mod_cast h5
    have h6' : q * 2 ^ 15 - p ≤ 1 * 2 ^ 15 := by exact_mod_cast h6
    rw [abs_le]
    constructor <;> omega
  · intro h3 h4
    have : a * b / 2 ^ 17 = 0 := by omega
    rw [this]
    have h3' : (0 : ℚ) ≤ (a * b : ℤ) := by exact_mod_cast h3
    have h4' : ((a * b : ℤ) : ℚ) ≤ 2 ^ 15 := by exact_mod_cast h4
    generalize ((a * b : ℤ) : ℚ) = p at *
    rw [abs_le]
    constructor
    · have : p / 2 ^ 15 ≤ 1 := by rw [div_le_one (by norm_num)]; exact h4'
      push_cast; linarith
    · have : 0 ≤ p / 2 ^ 15 := by positivity
      push_cast; linarith

example : fxcMul16 (20000, 5000) (-10000, 5000) = .ok (-1716, 380) := by decide +kernel

end Neo.Props
