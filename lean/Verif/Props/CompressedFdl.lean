import Verif.Model.CompressedFdl
import Verif.Lemmas.Fixed
import Verif.Lemmas.Out
import Mathlib.Algebra.Order.Round
import Mathlib.Tactic.Linarith

/-!
# Property C47: the compressed frequency-domain delay line
-/

namespace Neo.Props

open IntT

theorem lroundR_close (x : ℝ) : |(lroundR x : ℝ) - x| ≤ 1 / 2 := by
  unfold lroundR
  split
  · have h1 := Int.floor_le (x + 1 / 2)
    have h2 := Int.lt_floor_add_one (x + 1 / 2)
    rw [abs_le]; constructor <;> linarith
  · have h1 := Int.le_ceil (x - 1 / 2)
    have h2 := Int.ceil_lt_add_one (x - 1 / 2)
    rw [abs_le]; constructor <;> linarith

/-- An integer bound is respected by `lround`. -/
theorem lroundR_abs_le {x : ℝ} {m : ℤ} (h : |x| ≤ m) : |lroundR x| ≤ m := by
  have hc := abs_le.1 (lroundR_close x)
  have hx := abs_le.1 h
  have h1 : (lroundR x : ℝ) < m + 1 := by linarith
  have h2 : (-m - 1 : ℝ) < lroundR x := by linarith
  have h1' : lroundR x < m + 1 := by exact_mod_cast h1
  have h2' : -m - 1 < lroundR x := by exact_mod_cast h2
  rw [abs_le]; constructor <;> linarith

/-- The two storage types of the library with an exact scale: 8 and 16 bits. -/
theorem compress_ok {t : IntT} (ht : t = i8 ∨ t = i16) {x : ℝ} (hx : |x| ≤ 1) :
    ∃ r : ℤ, compress t x = .ok r ∧ |(r : ℝ) * (1 / (t.max : ℝ)) - x| ≤ 1 / (2 * t.max) ∧
      |r| ≤ t.max := by
  have hm : maxAsFloat 24 t = (t.max : ℝ) := by
    rcases ht with rfl | rfl <;> simp [maxAsFloat, i8, i16]
  have hmpos : (0 : ℝ) < t.max := by
    rcases ht with rfl | rfl <;> norm_num [i8, i16, IntT.max]
  have hmz : 0 ≤ t.max := by exact_mod_cast hmpos.le
  have habs : |x * (t.max : ℝ)| ≤ t.max := by
    rw [abs_mul, abs_of_pos hmpos]
    nlinarith
  have hr := lroundR_abs_le habs
  have hf : t.Fits (lroundR (x * t.max)) := by
    have := abs_le.1 hr
    rcases ht with rfl | rfl <;> simp only [IntT.Fits, IntT.min, IntT.max, i8, i16] at * <;>
      constructor <;> norm_num at * <;> linarith
  have hf64 : i64.Fits (lroundR (x * t.max)) := by
    have := abs_le.1 hr
    rcases ht with rfl | rfl <;> simp only [IntT.Fits, IntT.min, IntT.max, i8, i16, i64] at * <;>
      constructor <;> norm_num at * <;> linarith
  refine ⟨lroundR (x * t.max), ?_, ?_, hr⟩
  · unfold compress
    rw [hm]
    dsimp only
    rw [if_pos hf64, IntT.conv_eq (by rcases ht with rfl | rfl <;> decide) hf]
  · have hc := lroundR_close (x * t.max)
    have e : (lroundR (x * t.max) : ℝ) * (1 / (t.max : ℝ)) - x
        = ((lroundR (x * t.max) : ℝ) - x * t.max) * (1 / (t.max : ℝ)) := by field_simp
    rw [e, abs_mul, abs_of_pos (by positivity : (0 : ℝ) < 1 / t.max)]
    calc _ ≤ 1 / 2 * (1 / (t.max : ℝ)) := by
          apply mul_le_mul_of_nonneg_right hc (by positivity)
      _ = 1 / (2 * t.max) := by field_simp

/-- **C47**: a new delay line reads zero everywhere and satisfies the size hypothesis of `C47_roundtrip_partial`. -/
theorem C47_fresh (p : ℕ) (t : IntT) (rows cols : ℕ) :
    (CFdl.make rows cols).data.length = (CFdl.make rows cols).rows * (CFdl.make rows cols).cols ∧
    ∀ index < rows, ∀ i < cols, (CFdl.make rows cols).get p t index i = .ok 0 := by
  refine ⟨by simp [CFdl.make], fun index hidx i hi => ?_⟩
  have hlt : index * cols + i < rows * cols := by
    have := Nat.mul_le_mul_right cols (Nat.succ_le_of_lt hidx)
    rw [Nat.succ_mul] at this
    omega
  unfold CFdl.get CFdl.make
  simp only []
  rw [if_pos ⟨hidx, hi⟩, rd_ok (by simpa using hlt), bind_ok, pure_eq_ok]
  congr 1
  rw [List.getElem_replicate]
  unfold decompress
  apply Complex.ext <;> simp

/-- **C47** (partial): with 8- or 16-bit storage, inserting a spectrum of as many bins as the delay
line has, with all components in `[-1, 1]`, succeeds; every bin of that row reads back with a real and
imaginary error of at most `1/(2 max)`, and the other rows are unchanged.  Missing: saturation outside
`[-1, 1]`, which is false (`C47_no_saturation`), and 32-bit storage, where the bound itself is false
(`C47_int32_false`).  The product `val * max` is exact here; with rounding see `C107_insert`. -/
theorem C47_roundtrip_partial (p : ℕ) (hp : 15 ≤ p) (t : IntT) (ht : t = i8 ∨ t = i16) (s : CFdl)
    (hs : s.data.length = s.rows * s.cols) (input : List ℂ) (hin : input.length = s.cols)
    (hsz : s.cols < 2 ^ 32) (index : ℕ) (hidx : index < s.rows)
    (hr : ∀ z ∈ input, |z.re| ≤ 1 ∧ |z.im| ≤ 1) :
    ∃ s', s.insert t input index = .ok s' ∧ s'.rows = s.rows ∧ s'.cols = s.cols ∧
      s'.data.length = s.data.length ∧
      (∀ (i : ℕ) (z : ℂ), input[i]? = some z → ∃ w, s'.get p t index i = .ok w ∧
        |w.re - z.re| ≤ 1 / (2 * t.max) ∧ |w.im - z.im| ≤ 1 / (2 * t.max)) ∧
      (∀ r i, r < s.rows → r ≠ index → i < s.cols → s'.get p t r i = s.get p t r i) := by
  have hm : maxAsFloat p t = (t.max : ℝ) := by
    unfold maxAsFloat
    rw [if_pos]
    rcases ht with rfl | rfl <;> simp only [i8, i16] <;> omega
  -- the compressed values
  have hcomp : ∀ i : ℕ, ∃ q : ℤ × ℤ, ∀ z : ℂ, input[i]? = some z →
      compress t z.re = .ok q.1 ∧ compress t z.im = .ok q.2 ∧
      |(decompress p t q).re - z.re| ≤ 1 / (2 * t.max) ∧
      |(decompress p t q).im - z.im| ≤ 1 / (2 * t.max) := by
    intro i
    cases hz : input[i]? with
    | none => exact ⟨(0, 0), by simp⟩
    | some z =>
      obtain ⟨h1, h2⟩ := hr z (List.mem_of_getElem? hz)
      obtain ⟨a, ha, ha', -⟩ := compress_ok ht h1
      obtain ⟨b, hb, hb', -⟩ := compress_ok ht h2
      refine ⟨(a, b), ?_⟩
      rintro w hw
      obtain rfl : z = w := by injection hw
      refine ⟨ha, hb, ?_, ?_⟩
      · simp only [decompress, hm]; exact ha'
      · simp only [decompress, hm]; exact hb'
  choose q hq using hcomp
  obtain ⟨f, hf⟩ : ∃ f, s.data = vec (s.rows * s.cols) f := ⟨_, list_eq_vec (0, 0) hs⟩
  have hrow : (index + 1) * s.cols ≤ s.rows * s.cols := Nat.mul_le_mul_right _ hidx
  have hrow' : index * s.cols + s.cols ≤ s.rows * s.cols := by
    rw [← Nat.succ_mul]; exact hrow
  have hloop : forU32 input.length (fun i d => do
      let z ← rd input i
      let re ← compress t z.re
      let im ← compress t z.im
      if i < s.cols then wr d (index * s.cols + i) (re, im) else .error .oob) s.data
      = .ok (vec (s.rows * s.cols) (fun m =>
          if index * s.cols ≤ m ∧ m < index * s.cols + s.cols then q (m - index * s.cols) else f m)) := by
    unfold forU32
    rw [if_pos (by omega), hf]
    apply forN_eq' (fun k => vec (s.rows * s.cols) (fun m =>
      if index * s.cols ≤ m ∧ m < index * s.cols + k then q (m - index * s.cols) else f m))
    · apply vec_ext
      intro m _
      rw [if_neg (by omega)]
    · rw [hin]
    · intro i hi
      obtain ⟨z, hz⟩ : ∃ z, input[i]? = some z := ⟨_, List.getElem?_eq_getElem hi⟩
      obtain ⟨h1, h2, -⟩ := hq i z hz
      have hrd : rd input i = .ok z := by unfold rd; rw [hz]
      rw [hrd, bind_ok, h1, bind_ok, h2, bind_ok, if_pos (by omega),
        wr_vec_ok (by omega)]
      congr 1
      apply vec_ext
      intro m _
      by_cases hm' : m = index * s.cols + i
      · subst hm'
        rw [Function.update_self, if_pos (by omega), Nat.add_sub_cancel_left]
      · rw [Function.update_of_ne hm']
        by_cases hc : index * s.cols ≤ m ∧ m < index * s.cols + i
        · rw [if_pos hc, if_pos (by omega)]
        · rw [if_neg hc, if_neg (by omega)]
  refine ⟨⟨s.rows, s.cols, vec (s.rows * s.cols) (fun m =>
      if index * s.cols ≤ m ∧ m < index * s.cols + s.cols then q (m - index * s.cols) else f m)⟩, by
      unfold CFdl.insert; rw [if_pos hidx, hloop, bind_ok, pure_eq_ok],
    rfl, rfl, by rw [length_vec, hs], ?_, ?_⟩
  · intro i z hz
    have hi : i < s.cols := by
      rw [← hin]; exact (List.getElem?_eq_some_iff.1 hz).1
    obtain ⟨-, -, h3, h4⟩ := hq i z hz
    refine ⟨decompress p t (q i), ?_, h3, h4⟩
    unfold CFdl.get
    rw [if_pos ⟨hidx, hi⟩]
    dsimp only
    rw [rd_vec_ok (by omega), bind_ok, if_pos (by omega), Nat.add_sub_cancel_left, pure_eq_ok]
  · intro r i hr' hne hi
    unfold CFdl.get
    have hb : r * s.cols + i < s.rows * s.cols := by
      have : (r + 1) * s.cols ≤ s.rows * s.cols := Nat.mul_le_mul_right _ hr'
      rw [Nat.succ_mul] at this
      omega
    rw [if_pos ⟨hr', hi⟩, if_pos ⟨hr', hi⟩]
    dsimp only
    rw [hf, rd_vec_ok hb, rd_vec_ok hb, if_neg]
    rintro ⟨h1, h2⟩
    apply hne
    rcases Nat.lt_or_ge r index with h | h
    · have : (r + 1) * s.cols ≤ index * s.cols := Nat.mul_le_mul_right _ h
      rw [Nat.succ_mul] at this
      omega
    · rcases Nat.eq_or_lt_of_le h with h | h
      · exact h.symm
      · have : (index + 1) * s.cols ≤ r * s.cols := Nat.mul_le_mul_right _ h
        rw [Nat.succ_mul] at this
        omega

example : ∃ s', (CFdl.make 2 1).insert i8 [⟨1 / 2, -1⟩] 1 = .ok s' ∧
    ∃ w, s'.get 24 i8 1 0 = .ok w ∧ |w.re - 1 / 2| ≤ 1 / 254 := by
  obtain ⟨s', h1, -, -, -, h2, -⟩ := C47_roundtrip_partial 24 (by norm_num) i8 (Or.inl rfl)
    (CFdl.make 2 1) rfl [⟨1 / 2, -1⟩] rfl (by norm_num [CFdl.make]) 1 (by decide) (by
      intro z hz
      rw [List.mem_singleton] at hz
      subst hz
      norm_num [abs_of_pos])
  obtain ⟨w, hw, hw', -⟩ := h2 0 _ rfl
  refine ⟨s', h1, w, hw, ?_⟩
  have : (1 : ℝ) / (2 * (i8.max : ℤ)) = 1 / 254 := by norm_num [i8, IntT.max]
  rw [← this]; exact hw'

/-- **C47 fails outside `[-1, 1]`**: components do not saturate but wrap.  With 8-bit storage `2`
reads back as `-2/127`, far from the saturated value `1`. -/
theorem C47_no_saturation :
    compress i8 2 = .ok (-2) ∧ (decompress 24 i8 (-2, 0)).re = -2 / 127 := by
  have hr : lroundR (2 * maxAsFloat 24 i8) = 254 := by
    have : (2 : ℝ) * maxAsFloat 24 i8 = 254 := by norm_num [maxAsFloat, i8, IntT.max]
    rw [this]
    unfold lroundR
    rw [if_pos (by norm_num), Int.floor_eq_iff]
    norm_num
  constructor
  · unfold compress
    rw [hr]
    dsimp only
    rw [if_pos (by decide +kernel)]
    congr 1
  · norm_num [decompress, maxAsFloat, i8, IntT.max]

/-- **C47 fails for 32-bit storage**: the largest 32-bit integer rounds up to `2^31` as a `float`, so
the component `1` becomes `2^31`, wraps, and reads back as `-1`. -/
theorem C47_int32_false :
    compress i32 1 = .ok (-2 ^ 31) ∧ (decompress 24 i32 (-2 ^ 31, 0)).re = -1 := by
  have hm : maxAsFloat 24 i32 = 2 ^ 31 := by norm_num [maxAsFloat, i32]
  have hr : lroundR (1 * maxAsFloat 24 i32) = 2 ^ 31 := by
    rw [hm]
    unfold lroundR
    rw [if_pos (by norm_num), Int.floor_eq_iff]
    norm_num
  constructor
  · unfold compress
    rw [hr]
    dsimp only
    rw [if_pos (by decide +kernel)]
    have : i32.conv (2 ^ 31) = -2 ^ 31 := by decide +kernel
    rw [this]
  · simp only [decompress, hm]; norm_num

/-- **C47 outside `[-1, 1]`, exactly**: with 8- or 16-bit storage, as long as `lround` is defined, the
stored value is the rounded scaled component reduced modulo `2 ^ w` to the range of the type.  The bound
of the round trip holds whenever the rounded scaled component is representable; a component above 1
(below -1) reads back as its saturated value 1 (-1) up to `1/(2 max)` only when the rounded scaled
component happens to be congruent to `max` (`-max`) modulo `2 ^ w`; and beyond the range of `lround` the
conversion is undefined. -/
theorem C47_outside_exact (t : IntT) (ht : t = i8 ∨ t = i16) (x : ℝ) :
    (¬ (-2 ^ 63 ≤ lroundR (x * t.max) ∧ lroundR (x * t.max) < 2 ^ 63) → compress t x = .error .overflow) ∧
    (-2 ^ 63 ≤ lroundR (x * t.max) ∧ lroundR (x * t.max) < 2 ^ 63 →
      ∃ r : ℤ, compress t x = .ok r ∧ t.Fits r ∧ (2 ^ t.width : ℤ) ∣ lroundR (x * t.max) - r ∧
        (t.Fits (lroundR (x * t.max)) → |(r : ℝ) * (1 / (t.max : ℝ)) - x| ≤ 1 / (2 * t.max)) ∧
        (1 < x → (|(r : ℝ) * (1 / (t.max : ℝ)) - 1| ≤ 1 / (2 * t.max) ↔
          (2 ^ t.width : ℤ) ∣ lroundR (x * t.max) - t.max)) ∧
        (x < -1 → (|(r : ℝ) * (1 / (t.max : ℝ)) - (-1)| ≤ 1 / (2 * t.max) ↔
          (2 ^ t.width : ℤ) ∣ lroundR (x * t.max) + t.max))) := by
  have hm : maxAsFloat 24 t = (t.max : ℝ) := by
    rcases ht with rfl | rfl <;> simp [maxAsFloat, i8, i16]
  have hmpos : (0 : ℝ) < t.max := by
    rcases ht with rfl | rfl <;> norm_num [i8, i16, IntT.max]
  have h64 : i64.Fits (lroundR (x * t.max)) ↔
      (-2 ^ 63 ≤ lroundR (x * t.max) ∧ lroundR (x * t.max) < 2 ^ 63) := by
    generalize lroundR (x * t.max) = z
    unfold IntT.Fits IntT.min IntT.max i64
    norm_num
    intro _
    omega
  constructor
  · intro h
    unfold compress
    rw [hm]
    dsimp only
    rw [if_neg (fun c => h (h64.1 c))]
  · intro h
    have hwpos : 1 ≤ t.width := by rcases ht with rfl | rfl <;> decide
    set z := lroundR (x * t.max) with hz
    have hval : compress t x = .ok (t.conv z) := by
      unfold compress
      rw [hm]
      dsimp only
      rw [if_pos (h64.2 h)]
    obtain ⟨hfit, hdvd⟩ : t.Fits (t.conv z) ∧ (2 ^ t.width : ℤ) ∣ z - t.conv z := by
      rcases ht with rfl | rfl
      all_goals
        simp only [IntT.Fits, IntT.conv, IntT.min, IntT.max, i8, i16, if_true]
        norm_num
        omega
    -- equality of the stored value with `± max` from closeness of the values read back
    have hclose : ∀ m : ℤ, |(t.conv z : ℝ) * (1 / (t.max : ℝ)) - (m : ℝ) * (1 / (t.max : ℝ))| ≤ 1 / (2 * t.max) →
        t.conv z = m := by
      intro m hc
      rw [← sub_mul, abs_mul, abs_of_pos (by positivity : (0 : ℝ) < 1 / t.max)] at hc
      have h2 : |(t.conv z : ℝ) - m| ≤ 1 / 2 := by
        have := mul_le_mul_of_nonneg_right hc hmpos.le
        have e1 : |(t.conv z : ℝ) - m| * (1 / (t.max : ℝ)) * t.max = |(t.conv z : ℝ) - m| := by field_simp
        have e2 : 1 / (2 * (t.max : ℝ)) * t.max = 1 / 2 := by field_simp
        rw [e1, e2] at this
        exact this
      have h3 := abs_le.1 h2
      have h4 : (t.conv z : ℝ) < m + 1 := by linarith
      have h5 : (m : ℝ) < t.conv z + 1 := by linarith
      have h4' : t.conv z < m + 1 := by exact_mod_cast h4
      have h5' : m < t.conv z + 1 := by exact_mod_cast h5
      omega
    have hone : (1 : ℝ) = (t.max : ℝ) * (1 / (t.max : ℝ)) := by field_simp
    have hpm : ∀ m : ℤ, m = t.max ∨ m = -t.max → (2 ^ t.width : ℤ) ∣ z - m → t.conv z = m := by
      intro m hmm hd
      have hd2 : (2 ^ t.width : ℤ) ∣ t.conv z - m := by
        have := dvd_sub hd hdvd
        have e : z - m - (z - t.conv z) = t.conv z - m := by ring
        rwa [e] at this
      obtain ⟨k, hk⟩ := hd2
      rcases ht with rfl | rfl
      all_goals
        simp only [IntT.Fits, IntT.min, IntT.max, i8, i16, if_true] at hfit hmm hk ⊢
        norm_num at hfit hmm hk ⊢
        omega
    refine ⟨t.conv z, hval, hfit, hdvd, ?_, ?_, ?_⟩
    · intro hf
      rw [IntT.conv_eq hwpos hf]
      have hc := lroundR_close (x * t.max)
      have e : (z : ℝ) * (1 / (t.max : ℝ)) - x = ((z : ℝ) - x * t.max) * (1 / (t.max : ℝ)) := by field_simp
      rw [e, abs_mul, abs_of_pos (by positivity : (0 : ℝ) < 1 / t.max)]
      calc _ ≤ 1 / 2 * (1 / (t.max : ℝ)) := by
            apply mul_le_mul_of_nonneg_right hc (by positivity)
        _ = 1 / (2 * t.max) := by field_simp
    · intro _
      constructor
      · intro hc
        rw [hone] at hc
        have := hclose t.max (by rw [mul_one_div_cancel hmpos.ne'] at hc ⊢; exact hc)
        rw [this] at hdvd
        exact hdvd
      · intro hd
        rw [hpm t.max (Or.inl rfl) hd, ← hone, sub_self, abs_zero]
        positivity
    · intro _
      constructor
      · intro hc
        have := hclose (-t.max) (by
          have e : ((-t.max : ℤ) : ℝ) * (1 / (t.max : ℝ)) = -1 := by push_cast; field_simp
          rw [e]; exact hc)
        rw [this, sub_neg_eq_add] at hdvd
        exact hdvd
      · intro hd
        have e : ((-t.max : ℤ) : ℝ) * (1 / (t.max : ℝ)) = -1 := by push_cast; field_simp
        rw [hpm (-t.max) (Or.inr rfl) (by rwa [sub_neg_eq_add]), e, sub_self, abs_zero]
        positivity

/-- Both sides occur: `3` reads back as `125/127`, and `383/127` — 256 steps too far — as `1`. -/
example : compress i8 3 = .ok 125 ∧ compress i8 (383 / 127) = .ok 127 := by
  have h1 : lroundR (3 * maxAsFloat 24 i8) = 381 := by
    have : (3 : ℝ) * maxAsFloat 24 i8 = 381 := by norm_num [maxAsFloat, i8, IntT.max]
    rw [this]; unfold lroundR
    rw [if_pos (by norm_num), Int.floor_eq_iff]; norm_num
  have h2 : lroundR (383 / 127 * maxAsFloat 24 i8) = 383 := by
    have : (383 / 127 : ℝ) * maxAsFloat 24 i8 = 383 := by norm_num [maxAsFloat, i8, IntT.max]
    rw [this]; unfold lroundR
    rw [if_pos (by norm_num), Int.floor_eq_iff]; norm_num
  constructor
  · unfold compress
    rw [h1]
    decide +kernel
  · unfold compress
    rw [h2]
    decide +kernel

/-- **C47 for 32-bit storage, exactly**: a component in `[-1, 1]` is stored as its product with `2 ^ 31`,
rounded, and reads back within `1/(2 max)` exactly when it is below `1 - 2 ^ -32`; the others read back
as `-1`. -/
theorem C47_int32_exact (x : ℝ) (hx : |x| ≤ 1) :
    ∃ r : ℤ, compress i32 x = .ok r ∧
      (|(decompress 24 i32 (r, 0)).re - x| ≤ 1 / (2 * i32.max) ↔ x < 1 - 1 / 2 ^ 32) ∧
      (1 - 1 / 2 ^ 32 ≤ x → (decompress 24 i32 (r, 0)).re = -1) := by
  have hm : maxAsFloat 24 i32 = 2 ^ 31 := by norm_num [maxAsFloat, i32]
  have hx' := abs_le.1 hx
  have hc := abs_le.1 (lroundR_close (x * 2 ^ 31))
  have habs : |lroundR (x * 2 ^ 31)| ≤ 2 ^ 31 := lroundR_abs_le (m := 2 ^ 31) (by
    rw [abs_mul, abs_of_pos (by norm_num : (0 : ℝ) < 2 ^ 31)]
    push_cast
    nlinarith [abs_nonneg x])
  have habs' := abs_le.1 habs
  have hmaxv : i32.max = 2 ^ 31 - 1 := rfl
  have hval : compress i32 x = .ok (i32.conv (lroundR (x * 2 ^ 31))) := by
    unfold compress
    rw [hm]
    dsimp only
    rw [if_pos]
    unfold IntT.Fits IntT.min IntT.max i64
    norm_num at habs' ⊢
    omega
  have hdec : ∀ r : ℤ, (decompress 24 i32 (r, 0)).re = r / 2 ^ 31 := by
    intro r
    simp only [decompress, hm]
    ring
  refine ⟨_, hval, ?_⟩
  rw [hdec]
  by_cases c : x < 1 - 1 / 2 ^ 32
  · have hlt : lroundR (x * 2 ^ 31) < 2 ^ 31 := by
      unfold lroundR
      by_cases c0 : 0 ≤ x * 2 ^ 31
      · rw [if_pos c0, Int.floor_lt]
        push_cast
        linarith
      · rw [if_neg c0]
        have h1 : x * 2 ^ 31 < 0 := not_le.1 c0
        have h2 : ⌈x * 2 ^ 31 - 1 / 2⌉ ≤ 0 := Int.ceil_le.2 (by push_cast; linarith)
        have : (0 : ℤ) < 2 ^ 31 := by norm_num
        omega
    have hfit : i32.Fits (lroundR (x * 2 ^ 31)) := by
      unfold IntT.Fits IntT.min IntT.max i32
      norm_num at habs' hlt ⊢
      omega
    rw [IntT.conv_eq (by decide) hfit]
    refine ⟨⟨fun _ => c, fun _ => ?_⟩, fun h => absurd h (not_le.2 c)⟩
    have e : (lroundR (x * 2 ^ 31) : ℝ) / 2 ^ 31 - x = ((lroundR (x * 2 ^ 31) : ℝ) - x * 2 ^ 31) / 2 ^ 31 := by
      field_simp
    rw [e, abs_div, abs_of_pos (by norm_num : (0 : ℝ) < 2 ^ 31)]
    calc |(lroundR (x * 2 ^ 31) : ℝ) - x * 2 ^ 31| / 2 ^ 31 ≤ (1 / 2) / 2 ^ 31 := by
          apply div_le_div_of_nonneg_right _ (by norm_num)
          exact lroundR_close _
      _ ≤ 1 / (2 * (i32.max : ℝ)) := by
          rw [hmaxv]; norm_num
  · have hge : lroundR (x * 2 ^ 31) = 2 ^ 31 := by
      apply le_antisymm habs'.2
      have h1 : 1 - 1 / 2 ^ 32 ≤ x := not_lt.1 c
      unfold lroundR
      rw [if_pos (by norm_num at h1 ⊢; linarith), Int.le_floor]
      push_cast
      norm_num at h1 ⊢
      linarith
    rw [hge]
    have e : i32.conv (2 ^ 31) = -2 ^ 31 := by decide +kernel
    rw [e]
    have e2 : ((-2 ^ 31 : ℤ) : ℝ) / 2 ^ 31 = -1 := by norm_num
    rw [e2]
    refine ⟨⟨fun h => ?_, fun h => absurd h c⟩, fun _ => rfl⟩
    exfalso
    have h1 : 1 - 1 / 2 ^ 32 ≤ x := not_lt.1 c
    have h2 := (abs_le.1 h).1
    rw [hmaxv] at h2
    norm_num at h1 h2
    linarith

end Neo.Props
