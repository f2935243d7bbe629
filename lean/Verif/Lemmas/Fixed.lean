import Mathlib.Algebra.Order.Floor.Ring
import Mathlib.Tactic.Linarith
import Mathlib.Tactic.Positivity
import Mathlib.Tactic.NormNum
import Verif.Model.Fixed
import Verif.Lemmas.IntT
import Verif.Lemmas.Simd

/-! # Fixed-point arithmetic -/

namespace Neo

/-- 8- or 16-bit signed storage -/
def Narrow (t : IntT) : Prop := t = i8 ∨ t = i16

theorem Narrow.std {t : IntT} (h : Narrow t) : t.Std := by
  rcases h with rfl | rfl
  · left; rfl
  · right; left; rfl

theorem Narrow.promote {t : IntT} (h : Narrow t) : t.promote = i32 := by
  rcases h with rfl | rfl <;> rfl

theorem fits_i8 (x : ℤ) : i8.Fits x ↔ -128 ≤ x ∧ x ≤ 127 := by
  unfold IntT.Fits IntT.min IntT.max i8; norm_num
theorem fits_i16 (x : ℤ) : i16.Fits x ↔ -32768 ≤ x ∧ x ≤ 32767 := by
  unfold IntT.Fits IntT.min IntT.max i16; norm_num
theorem fits_i32 (x : ℤ) : i32.Fits x ↔ -2147483648 ≤ x ∧ x ≤ 2147483647 := by
  unfold IntT.Fits IntT.min IntT.max i32; norm_num
theorem i8_min : i8.min = -128 := by decide +kernel
theorem i8_max : i8.max = 127 := by decide +kernel
theorem i16_min : i16.min = -32768 := by decide +kernel
theorem i16_max : i16.max = 32767 := by decide +kernel

theorem Narrow.bounds {t : IntT} (h : Narrow t) {x : ℤ} (hx : t.Fits x) : -32768 ≤ x ∧ x ≤ 32767 := by
  rcases h with rfl | rfl
  · rw [fits_i8] at hx; omega
  · rwa [fits_i16] at hx

theorem i32_conv {x : ℤ} (h : i32.Fits x) : i32.conv x = x := IntT.conv_eq (by decide) h

/-- clamping to the range of a type -/
def clampT (t : IntT) (x : ℤ) : ℤ := max t.min (min t.max x)

theorem Narrow.min_le_max {t : IntT} (h : Narrow t) : t.min ≤ t.max := by
  rcases h with rfl | rfl <;> decide +kernel

theorem Narrow.i32_fits {t : IntT} (h : Narrow t) {x : ℤ} (hx : t.Fits x) : i32.Fits x := by
  have := h.bounds hx
  rw [fits_i32]; omega

theorem clampT_fits {t : IntT} (h : Narrow t) (x : ℤ) : t.Fits (clampT t x) :=
  ⟨le_max_left _ _, max_le h.min_le_max (min_le_left _ _)⟩

theorem saturate_ok {t : IntT} (h : Narrow t) {x : ℤ} (hx : i32.Fits x) :
    saturate t x = .ok (clampT t x) := by
  have h1 : i32.conv t.min = t.min := i32_conv (h.i32_fits ⟨le_rfl, h.min_le_max⟩)
  have h2 : i32.conv t.max = t.max := i32_conv (h.i32_fits ⟨h.min_le_max, le_rfl⟩)
  have hm := h.min_le_max
  unfold saturate
  rw [i32_conv hx, h1, h2]
  dsimp only
  rw [if_neg (by omega)]
  have e : (if x < t.min then t.min else if t.max < x then t.max else x) = clampT t x := by
    unfold clampT
    split_ifs <;> omega
  rw [e, IntT.conv_eq h.std.pos (clampT_fits h x)]

theorem satLane_eq {t : IntT} (h : Narrow t) (x : ℤ) : satLane t x = clampT t x := by
  have hm := h.min_le_max
  unfold satLane clampT
  split_ifs <;> omega

theorem fxAdd_ok {t : IntT} (h : Narrow t) {a b : ℤ} (ha : t.Fits a) (hb : t.Fits b) :
    fxAdd t a b = .ok (clampT t (a + b)) := by
  have h1 := h.bounds ha
  have h2 := h.bounds hb
  have hf : i32.Fits (a + b) := by rw [fits_i32]; omega
  unfold fxAdd IntT.add
  rw [h.promote, IntT.arith_eq (by decide) hf, bind_ok, saturate_ok h hf]

theorem fxSub_ok {t : IntT} (h : Narrow t) {a b : ℤ} (ha : t.Fits a) (hb : t.Fits b) :
    fxSub t a b = .ok (clampT t (a - b)) := by
  have h1 := h.bounds ha
  have h2 := h.bounds hb
  have hf : i32.Fits (a - b) := by rw [fits_i32]; omega
  unfold fxSub IntT.sub
  rw [h.promote, IntT.arith_eq (by decide) hf, bind_ok, saturate_ok h hf]

theorem mul_bounds {a b : ℤ} (ha : -32768 ≤ a ∧ a ≤ 32767) (hb : -32768 ≤ b ∧ b ≤ 32767) :
    -1073741824 ≤ a * b ∧ a * b ≤ 1073741824 := by
  have h1 : |a| ≤ 32768 := abs_le.2 ⟨by omega, by omega⟩
  have h2 : |b| ≤ 32768 := abs_le.2 ⟨by omega, by omega⟩
  have h3 : |a * b| ≤ 32768 * 32768 := by
    rw [abs_mul]
    exact mul_le_mul h1 h2 (abs_nonneg _) (by norm_num)
  have := abs_le.1 h3
  omega

theorem shiftRight_fits {x : ℤ} (k : ℕ) (hx : i32.Fits x) : i32.Fits (x >>> k) := by
  rw [fits_i32] at *
  rw [Int.shiftRight_eq_div_pow]
  have hk : (1 : ℤ) ≤ ((2 ^ k : ℕ) : ℤ) := by exact_mod_cast Nat.one_le_two_pow
  constructor
  · rw [Int.le_ediv_iff_mul_le (by omega)]
    nlinarith
  · have : x / ((2 ^ k : ℕ) : ℤ) < 2147483647 + 1 := by
      rw [Int.ediv_lt_iff_lt_mul (by omega)]
      nlinarith
    omega

theorem fxMul_ok {t : IntT} (h : Narrow t) {F : ℕ} (hF : F < 32) {a b : ℤ} (ha : t.Fits a)
    (hb : t.Fits b) : fxMul t F a b = .ok (clampT t ((a * b) >>> F)) := by
  have h1 := mul_bounds (h.bounds ha) (h.bounds hb)
  have hf : i32.Fits (a * b) := by rw [fits_i32]; omega
  unfold fxMul IntT.mul IntT.shr
  rw [h.promote, IntT.arith_eq (by decide) hf, bind_ok, if_pos (by exact hF), bind_ok,
    saturate_ok h (shiftRight_fits F hf)]

/-! ## Conversions from and to floats -/

theorem truncR_mono {x y : ℝ} (h : x ≤ y) : truncR x ≤ truncR y := by
  unfold truncR
  split_ifs with h1 h2 h2
  · exact Int.floor_mono h
  · exact absurd (h1.trans h) h2
  · have ha : ⌈x⌉ ≤ 0 := Int.ceil_le.2 (by simpa using (not_le.1 h1).le)
    exact ha.trans (Int.floor_nonneg.2 h2)
  · exact Int.ceil_mono h

theorem truncR_int (z : ℤ) : truncR z = z := by
  unfold truncR
  split_ifs <;> simp

theorem truncR_abs (x : ℝ) : |(truncR x : ℝ)| ≤ |x| ∧ |x - truncR x| < 1 ∧ 0 ≤ (truncR x : ℝ) * x := by
  unfold truncR
  split_ifs with h
  · have h1 := Int.floor_le x
    have h2 := Int.lt_floor_add_one x
    have h3 : (0 : ℝ) ≤ ⌊x⌋ := by exact_mod_cast Int.floor_nonneg.2 h
    refine ⟨by rw [abs_of_nonneg h3, abs_of_nonneg h]; exact h1,
      by rw [abs_of_nonneg (by linarith)]; linarith, mul_nonneg h3 h⟩
  · push Not at h
    have h1 := Int.le_ceil x
    have h2 := Int.ceil_lt_add_one x
    have h3 : (⌈x⌉ : ℝ) ≤ 0 := by exact_mod_cast Int.ceil_le.2 (by simpa using h.le)
    refine ⟨by rw [abs_of_nonpos h3, abs_of_neg h]; linarith,
      by rw [abs_of_nonpos (by linarith)]; linarith, mul_nonneg_of_nonpos_of_nonpos h3 h.le⟩

theorem fits_trunc {x : ℝ} (h1 : -2147483649 < x) (h2 : x < 2147483648) : i32.Fits (truncR x) := by
  rw [fits_i32]
  unfold truncR
  split_ifs with h
  · have h3 : ⌊x⌋ < 2147483648 := Int.floor_lt.2 (by exact_mod_cast h2)
    have := Int.floor_nonneg.2 h
    omega
  · push Not at h
    have h3 : -2147483649 < ⌈x⌉ := Int.lt_ceil.2 (by push_cast; exact h1)
    have : ⌈x⌉ ≤ 0 := Int.ceil_le.2 (by simpa using h.le)
    omega

theorem fxOfFloat_ok {t : IntT} (h : Narrow t) (rnd : ℝ → ℝ) (F : ℕ) {x : ℝ}
    (h1 : -2147483649 < rnd x * 2 ^ F) (h2 : rnd x * 2 ^ F < 2147483648) :
    fxOfFloat rnd t F x = .ok (clampT t (truncR (rnd x * 2 ^ F))) := by
  have hf := fits_trunc h1 h2
  unfold fxOfFloat floatToI32
  rw [if_pos hf, bind_ok, saturate_ok h hf]

/-! ## SIMD kernels -/

theorem lanes_zip {α β γ : Type} (n : ℕ) (f : ℕ → α) (g : ℕ → β) (op : α → β → γ) :
    List.zipWith op (vec n f) (vec n g) = vec n (fun i => op (f i) (g i)) := by
  unfold vec
  rw [List.zipWith_map, List.zipWith_self]

theorem take_vec {α : Type} {m n : ℕ} (h : m ≤ n) (f : ℕ → α) : (vec n f).take m = vec m f := by
  rw [eq_vec_iff]
  refine ⟨by simp; omega, fun i hi => ?_⟩
  rw [List.getElem?_take, if_pos hi, getElem?_vec, if_pos (by omega)]

theorem drop_vec {α : Type} {m n : ℕ} (f : ℕ → α) :
    (vec n f).drop m = vec (n - m) (fun i => f (m + i)) := by
  rw [eq_vec_iff]
  refine ⟨by simp, fun i hi => ?_⟩
  rw [List.getElem?_drop, getElem?_vec, if_pos (by omega)]

theorem append_vec {α : Type} (m n : ℕ) (f g : ℕ → α) :
    vec m f ++ vec n g = vec (m + n) (fun i => if i < m then f i else g (i - m)) := by
  rw [eq_vec_iff]
  refine ⟨by simp, fun i hi => ?_⟩
  rw [List.getElem?_append, length_vec]
  split_ifs with h
  · rw [getElem?_vec, if_pos h]
  · rw [getElem?_vec, if_pos (by omega)]

/-- The low/high-half multiply–shift–pack sequence acts lane by lane. -/
theorem widenKernel_vec (V : ℕ) (hV : V / 2 + V / 2 = V) (wide narrow : IntT) (F : ℕ) (f g : ℕ → ℤ) :
    packsLanes narrow
      (srliLanes wide (mulloLanes wide (cvtLow V (vec V f)) (cvtLow V (vec V g))) F)
      (srliLanes wide (mulloLanes wide (cvtLow V (srliHalf V (vec V f)))
        (cvtLow V (srliHalf V (vec V g)))) F)
    = vec V (fun i => satLane narrow (if F < wide.width then
        wide.conv (wide.unsigned.conv (wide.conv (f i * g i)) >>> F) else 0)) := by
  have hh : ∀ f : ℕ → ℤ, cvtLow V (srliHalf V (vec V f)) = vec (V / 2) (fun i => f (V / 2 + i)) := by
    intro f
    unfold cvtLow srliHalf
    rw [drop_vec, List.take_left' (by rw [length_vec]; omega)]
    congr 1
    omega
  have hl : ∀ f : ℕ → ℤ, cvtLow V (vec V f) = vec (V / 2) f := fun f => take_vec (by omega) f
  rw [hh, hh, hl, hl]
  unfold packsLanes srliLanes mulloLanes
  rw [lanes_zip, lanes_zip, map_vec, map_vec, append_vec, map_vec, hV]
  apply vec_ext
  intro i hi
  split_ifs
  · rfl
  · rfl
  · rw [Nat.add_sub_cancel' (by omega)]
  · rfl

/-- One lane of the SSE4.1 multiply–shift–pack kernels. -/
def sseLane (wide narrow : IntT) (F : ℕ) (a b : ℤ) : ℤ :=
  if 0 ≤ a * b ∨ F = 0 then clampT narrow ((a * b) >>> F) else narrow.max

theorem sseLane_eq {wide narrow : IntT} {F : ℕ} (hw : wide.signed = true) (hpos : 1 ≤ wide.width)
    (hn : Narrow narrow) (hF : F < wide.width) (hF2 : narrow.max * 2 ^ F ≤ 2 ^ (wide.width - 1)) {a b : ℤ}
    (hab : wide.Fits (a * b)) :
    satLane narrow (if F < wide.width then
        wide.conv (wide.unsigned.conv (wide.conv (a * b)) >>> F) else 0)
      = sseLane wide narrow F a b := by
  rw [if_pos hF, satLane_eq hn, IntT.conv_eq hpos hab]
  set p := a * b with hp
  have hpw := IntT.pow_width hpos
  have hb1 : -2 ^ (wide.width - 1) ≤ p := by
    have := hab.1; unfold IntT.min at this; rwa [if_pos hw] at this
  have hb2 : p ≤ 2 ^ (wide.width - 1) - 1 := by
    have := hab.2; unfold IntT.max at this; rwa [if_pos hw] at this
  have hfit : ∀ z : ℤ, 0 ≤ z → z < 2 ^ (wide.width - 1) → wide.conv z = z := by
    intro z h0 h1
    refine IntT.conv_eq hpos ⟨?_, ?_⟩
    · unfold IntT.min; rw [if_pos hw]; linarith [show (0 : ℤ) ≤ 2 ^ (wide.width - 1) by positivity]
    · unfold IntT.max; rw [if_pos hw]; omega
  have hM : (0 : ℤ) < 2 ^ (wide.width - 1) := by positivity
  have hF1 : (1 : ℤ) ≤ ((2 ^ F : ℕ) : ℤ) := by exact_mod_cast Nat.one_le_two_pow
  unfold sseLane
  have hu : wide.unsigned.conv p = p % 2 ^ wide.width := by
    unfold IntT.conv IntT.unsigned; simp
  rw [hu]
  by_cases h0 : 0 ≤ p
  · rw [if_pos (Or.inl h0), Int.emod_eq_of_lt h0 (by omega), hfit]
    · rw [Int.shiftRight_eq_div_pow]; exact Int.ediv_nonneg h0 (by omega)
    · rw [Int.shiftRight_eq_div_pow, Int.ediv_lt_iff_lt_mul (by omega)]
      nlinarith
  · push Not at h0
    have hmod : p % 2 ^ wide.width = p + 2 ^ wide.width := by
      rw [← Int.add_emod_right, Int.emod_eq_of_lt (by omega) (by omega)]
    rw [hmod]
    by_cases hF0 : F = 0
    · rw [if_pos (Or.inr hF0), hF0, Int.shiftRight_zero, Int.shiftRight_zero]
      congr 1
      unfold IntT.conv
      rw [if_pos hw, show p + 2 ^ wide.width + 2 ^ (wide.width - 1)
        = (p + 2 ^ (wide.width - 1)) + 2 ^ wide.width by ring, Int.add_emod_right,
        Int.emod_eq_of_lt (by omega) (by omega)]
      ring
    · rw [if_neg (by push Not; exact ⟨h0, hF0⟩)]
      have hF2' : (2 : ℤ) ≤ ((2 ^ F : ℕ) : ℤ) := by
        have : 2 ^ 1 ≤ 2 ^ F := Nat.pow_le_pow_right (by norm_num) (by omega)
        exact_mod_cast this
      rw [Int.shiftRight_eq_div_pow]
      have hge : narrow.max ≤ (p + 2 ^ wide.width) / ((2 ^ F : ℕ) : ℤ) := by
        rw [Int.le_ediv_iff_mul_le (by omega)]
        push_cast
        omega
      have hnm : 0 ≤ narrow.max := by rcases hn with rfl | rfl <;> decide +kernel
      rw [hfit]
      · unfold clampT
        rw [min_eq_left hge, max_eq_right hn.min_le_max]
      · omega
      · rw [Int.ediv_lt_iff_lt_mul (by omega)]
        nlinarith

theorem mulKernelS8_vec {F : ℕ} (hF : F ≤ 7) (f g : ℕ → ℤ) (hf : ∀ i < 16, i8.Fits (f i))
    (hg : ∀ i < 16, i8.Fits (g i)) :
    mulKernelS8 F (vec 16 f) (vec 16 g) = vec 16 (fun i => sseLane i16 i8 F (f i) (g i)) := by
  refine (widenKernel_vec 16 rfl i16 i8 F f g).trans (vec_ext fun i hi => ?_)
  refine sseLane_eq rfl (by decide) (Or.inl rfl) (by show F < 16; omega) ?_ ?_
  · rw [i8_max]
    have : (2 : ℤ) ^ F ≤ 2 ^ 7 := pow_le_pow_right₀ (by norm_num) hF
    show 127 * (2 : ℤ) ^ F ≤ 2 ^ 15
    norm_num at this ⊢
    omega
  · have h1 := hf i hi
    have h2 := hg i hi
    rw [fits_i8] at h1 h2
    rw [fits_i16]
    have h3 : |f i * g i| ≤ 128 * 128 := by
      rw [abs_mul]
      exact mul_le_mul (abs_le.2 ⟨by omega, by omega⟩) (abs_le.2 ⟨by omega, by omega⟩) (abs_nonneg _)
        (by norm_num)
    have := abs_le.1 h3
    omega

theorem mulKernelS16_vec {F : ℕ} (hF : F < 15) (f g : ℕ → ℤ) (hf : ∀ i < 8, i16.Fits (f i))
    (hg : ∀ i < 8, i16.Fits (g i)) :
    mulKernelS16 F (vec 8 f) (vec 8 g) = vec 8 (fun i => sseLane i32 i16 F (f i) (g i)) := by
  unfold mulKernelS16
  rw [if_neg (by omega)]
  refine (widenKernel_vec 8 rfl i32 i16 F f g).trans (vec_ext fun i hi => ?_)
  refine sseLane_eq rfl (by decide) (Or.inr rfl) (by show F < 32; omega) ?_ ?_
  · rw [i16_max]
    have : (2 : ℤ) ^ F ≤ 2 ^ 15 := pow_le_pow_right₀ (by norm_num) (by omega)
    show 32767 * (2 : ℤ) ^ F ≤ 2 ^ 31
    norm_num at this ⊢
    omega
  · have := mul_bounds ((fits_i16 _).1 (hf i hi)) ((fits_i16 _).1 (hg i hi))
    rw [fits_i32]; omega

theorem mulKernelQ15_vec (f g : ℕ → ℤ) :
    mulKernelS16 15 (vec 8 f) (vec 8 g)
      = vec 8 (fun i => i16.conv ((((f i * g i) >>> 14) + 1) >>> 1)) := by
  unfold mulKernelS16 mulhrsLanes
  rw [if_pos rfl, lanes_zip]

theorem vqdmulh_vec (f g : ℕ → ℤ) :
    vqdmulhLanes (vec 8 f) (vec 8 g) = vec 8 (fun i => clampT i16 ((f i * g i) >>> 15)) := by
  unfold vqdmulhLanes
  rw [lanes_zip]
  apply vec_ext
  intro i _
  rw [satLane_eq (Or.inr rfl), Int.shiftRight_eq_div_pow, Int.shiftRight_eq_div_pow]
  congr 1
  rw [mul_assoc]
  omega

/-- The element-wise loop. -/
theorem fxScalarLoop_vec {n : ℕ} (hn : n < 2 ^ 32) (P : ℤ → Prop) (f g o : ℕ → ℤ) (op : ℤ → ℤ → ℤ)
    (scalar : ℤ → ℤ → Res ℤ) (hf : ∀ i < n, P (f i)) (hg : ∀ i < n, P (g i))
    (hs : ∀ a b, P a → P b → scalar a b = .ok (op a b)) :
    fxScalarLoop (vec n f) (vec n g) (vec n o) scalar = .ok (vec n (fun i => op (f i) (g i))) := by
  unfold fxScalarLoop forU32
  rw [length_vec, if_pos hn]
  refine forN_map o (fun i _ => op (f i) (g i)) _ (fun i hi h _ => ?_)
  rw [rd_vec_ok hi, bind_ok, rd_vec_ok hi, bind_ok, hs _ _ (hf i hi) (hg i hi), bind_ok, wr_vec_ok hi]

end Neo
