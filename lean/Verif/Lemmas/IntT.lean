import Verif.Model.IntT
import Verif.Lemmas.Bits
import Mathlib.Data.Nat.Size
import Mathlib.Tactic.Linarith
import Mathlib.Algebra.Order.Ring.Int
import Mathlib.Algebra.Order.Ring.Abs
import Mathlib.Algebra.Order.Group.Unbundled.Int

/-! # Lemmas about fixed-width integers -/

namespace Neo

namespace IntT

theorem Std.pos {t : IntT} (h : t.Std) : 1 ≤ t.width := by
  rcases h with h | h | h | h <;> omega

theorem pow_width {t : IntT} (h : 1 ≤ t.width) : (2 : ℤ) ^ t.width = 2 * 2 ^ (t.width - 1) := by
  obtain ⟨w, e⟩ : ∃ w, t.width = w + 1 := ⟨t.width - 1, by omega⟩
  rw [e, Nat.add_sub_cancel, pow_succ]; ring

theorem conv_eq {t : IntT} (hw : 1 ≤ t.width) {z : ℤ} (h : t.Fits z) : t.conv z = z := by
  obtain ⟨h1, h2⟩ := h
  unfold conv
  unfold IntT.min at h1
  unfold IntT.max at h2
  have := pow_width hw
  split_ifs at * with hs
  · rw [Int.emod_eq_of_lt (by omega) (by omega)]; omega
  · exact Int.emod_eq_of_lt (by omega) (by omega)

theorem arith_eq {t : IntT} (hw : 1 ≤ t.width) {z : ℤ} (h : t.Fits z) : t.arith z = .ok z := by
  unfold arith
  split_ifs
  · rfl
  · rw [conv_eq hw h]

theorem promote_width {t : IntT} (hw : 1 ≤ t.width) : 1 ≤ t.promote.width := by
  unfold promote
  split_ifs
  · norm_num
  · exact hw

theorem fits_promote {t : IntT} (h : t.Std) {z : ℤ} (hz : t.Fits z) : t.promote.Fits z := by
  unfold promote
  split_ifs with c
  · obtain ⟨h1, h2⟩ := hz
    unfold Fits IntT.min IntT.max at *
    rcases t with ⟨s, w⟩
    rcases h with h | h | h | h <;> simp only at h <;> subst h <;> cases s <;> simp at * <;> omega
  · exact hz

theorem mul_eq {t : IntT} (h : t.Std) {a b : ℤ} (hz : t.Fits (a * b)) : t.mul a b = .ok (a * b) :=
  arith_eq (promote_width h.pos) (fits_promote h hz)

theorem fits_zero (t : IntT) : t.Fits 0 := by
  unfold Fits IntT.min IntT.max
  have h1 : (1 : ℤ) ≤ 2 ^ (t.width - 1) := one_le_pow₀ (by norm_num)
  have h2 : (1 : ℤ) ≤ 2 ^ t.width := one_le_pow₀ (by norm_num)
  split_ifs <;> constructor <;> omega

/-- A value between 0 and a representable value is representable. -/
theorem fits_of_le {t : IntT} {y z : ℤ} (hz : t.Fits z) (h0 : 0 ≤ y) (h : y ≤ z) : t.Fits y :=
  ⟨(fits_zero t).1.trans h0, h.trans hz.2⟩

/-- A value of at most half the magnitude of a representable value is representable. -/
theorem fits_of_abs {t : IntT} (hw : 1 ≤ t.width) {y z : ℤ} (hz : t.Fits z) (hs : t.signed = true)
    (h : 2 * |y| ≤ |z|) : t.Fits y := by
  obtain ⟨h1, h2⟩ := hz
  have h3 : (1 : ℤ) ≤ 2 ^ (t.width - 1) := one_le_pow₀ (by norm_num)
  unfold Fits IntT.min IntT.max at *
  simp only [hs, if_true] at *
  have hzabs : |z| ≤ 2 ^ (t.width - 1) := abs_le.2 ⟨h1, by omega⟩
  have := abs_le.1 (le_refl |y|)
  constructor <;> omega

end IntT

theorem abs_pow_lt {b : ℤ} (hb : 2 ≤ |b|) {i e : ℕ} (h : i < e) : 2 * |b ^ i| ≤ |b ^ e| := by
  obtain ⟨d, rfl⟩ : ∃ d, e = i + 1 + d := ⟨e - i - 1, by omega⟩
  rw [abs_pow, abs_pow, pow_add, pow_succ]
  have h1 : (1 : ℤ) ≤ |b| ^ d := one_le_pow₀ (by omega)
  have h2 : (0 : ℤ) ≤ |b| ^ i := by positivity
  nlinarith [mul_nonneg h2 (by omega : (0 : ℤ) ≤ |b| - 2), mul_nonneg (mul_nonneg h2 (by omega : (0:ℤ) ≤ |b|)) (by omega : (0:ℤ) ≤ |b| ^ d - 1)]

theorem ipow_step_fits {t : IntT} (h : t.Std) {b : ℤ} (hb : t.Fits b) {i e : ℕ} (hi : i ≤ e)
    (hz : t.Fits (b ^ e)) : t.Fits (b ^ i) := by
  have hone : t.Fits 1 := by
    have h1 : (2 : ℤ) ^ 7 ≤ 2 ^ (t.width - 1) := by
      apply pow_le_pow_right₀ (by norm_num)
      rcases h with h | h | h | h <;> omega
    have h2 : (2 : ℤ) ^ 7 ≤ 2 ^ t.width := by
      apply pow_le_pow_right₀ (by norm_num)
      rcases h with h | h | h | h <;> omega
    unfold IntT.Fits IntT.min IntT.max
    norm_num at h1 h2
    split_ifs <;> constructor <;> omega
  rcases Nat.lt_or_ge i e with hlt | hge
  · by_cases h2 : 2 ≤ |b|
    · by_cases hs : t.signed = true
      · exact IntT.fits_of_abs h.pos hz hs (abs_pow_lt h2 hlt)
      · have hb0 : 0 ≤ b := by
          have := hb.1
          unfold IntT.min at this
          rwa [if_neg hs] at this
        have := abs_pow_lt h2 hlt
        rw [abs_of_nonneg (pow_nonneg hb0 _), abs_of_nonneg (pow_nonneg hb0 _)] at this
        have h0 : 0 ≤ b ^ i := pow_nonneg hb0 _
        exact IntT.fits_of_le hz h0 (by omega)
    · have : b = 0 ∨ b = 1 ∨ b = -1 := by
        have := abs_lt.1 (not_le.1 h2)
        omega
      rcases this with rfl | rfl | rfl
      · by_cases hi0 : i = 0
        · rw [hi0]; exact hone
        · rw [zero_pow hi0]; exact IntT.fits_zero t
      · rw [one_pow]; exact hone
      · rcases neg_one_pow_eq_or ℤ i with e' | e' <;> rw [e']
        · exact hone
        · exact hb
  · obtain rfl : i = e := by omega
    exact hz

theorem ipowTLoop_ok {t : IntT} (h : t.Std) {b : ℤ} (hb : t.Fits b) (e : ℕ) (hz : t.Fits (b ^ e)) :
    ∀ n i, i + n = e → ipowTLoop t b n (b ^ i) = .ok (b ^ e) := by
  intro n
  induction n with
  | zero => intro i hi; rw [ipowTLoop, ← hi]; rfl
  | succ n ih =>
    intro i hi
    have hf := ipow_step_fits h hb (i := i + 1) (by omega) hz
    rw [pow_succ] at hf
    rw [ipowTLoop, IntT.mul_eq h hf, bind_ok, IntT.conv_eq h.pos hf, ← pow_succ]
    exact ih (i + 1) (by omega)

theorem ipowT_ok {t : IntT} (h : t.Std) {b : ℤ} (hb : t.Fits b) (e : ℕ) (hz : t.Fits (b ^ e)) :
    ipowT t b e = .ok (b ^ e) := by
  unfold ipowT
  have := ipowTLoop_ok h hb e hz e 0 (by omega)
  rwa [pow_zero] at this

theorem pow_two_fits {t : IntT} {s : ℕ} (hz : t.Fits (2 ^ s)) :
    s < t.width ∧ (t.signed = true → s < t.width - 1) := by
  obtain ⟨-, h2⟩ := hz
  unfold IntT.max at h2
  split_ifs at h2 with hs
  · have : s < t.width - 1 := by
      by_contra hc
      have := pow_le_pow_right₀ (by norm_num : (1 : ℤ) ≤ 2) (not_lt.1 hc)
      omega
    exact ⟨by omega, fun _ => this⟩
  · refine ⟨?_, fun h => absurd h hs⟩
    by_contra hc
    have := pow_le_pow_right₀ (by norm_num : (1 : ℤ) ≤ 2) (not_lt.1 hc)
    omega

theorem fits_small {t : IntT} (h : t.Std) {z : ℤ} (h0 : 0 ≤ z) (h1 : z ≤ 127) : t.Fits z := by
  rcases t with ⟨s, w⟩
  unfold IntT.Fits IntT.min IntT.max
  rcases h with h | h | h | h <;> simp only at h <;> subst h <;> cases s <;> simp <;> omega

theorem shl1_ok {t : IntT} (h : t.Std) {s : ℕ} (hz : t.Fits (2 ^ s)) :
    (do let r ← t.unsigned.shl1 (t.unsigned.conv (s : ℤ)); pure (t.conv r)) = (.ok (2 ^ s) : Res ℤ) := by
  obtain ⟨hs, -⟩ := pow_two_fits hz
  have hu : t.unsigned.Std := h
  have hw64 : t.width ≤ 64 := by rcases h with h | h | h | h <;> omega
  rw [IntT.conv_eq hu.pos (fits_small hu (by omega) (by omega))]
  have hfu : t.unsigned.Fits (2 ^ s) := by
    unfold IntT.Fits IntT.min IntT.max IntT.unsigned
    simp only [Bool.false_eq_true, if_false]
    have : (2 : ℤ) ^ s < 2 ^ t.width := pow_lt_pow_right₀ (by norm_num) hs
    have h0 : (0 : ℤ) ≤ 2 ^ s := by positivity
    omega
  have hpw : t.width ≤ t.unsigned.promote.width := by
    unfold IntT.promote IntT.unsigned
    split_ifs with c <;> simp only at * <;> omega
  unfold IntT.shl1
  rw [if_pos ⟨by omega, by omega⟩, bind_ok, Int.toNat_natCast,
    IntT.conv_eq (IntT.promote_width hu.pos) (IntT.fits_promote hu hfu), IntT.conv_eq h.pos hz]
  rfl

theorem ipowShift_ok {t : IntT} (h : t.Std) {e k : ℕ} (hz : t.Fits (2 ^ (e * k))) :
    ipowShift t e k = .ok (2 ^ (e * k)) := by
  have hs := (pow_two_fits hz).1
  have hw64 : t.width ≤ 64 := by rcases h with h | h | h | h <;> omega
  have hc : ((e : ℤ) * k) = ((e * k : ℕ) : ℤ) := by push_cast; ring
  unfold ipowShift
  rw [IntT.mul_eq h (by rw [hc]; exact fits_small h (by positivity) (by omega)), bind_ok, hc]
  exact shl1_ok h hz

theorem ipowBase_ok {t : IntT} (h : t.Std) {b : ℤ} (hb : t.Fits b) (e : ℕ) (hz : t.Fits (b ^ e)) :
    ipowBase t b e = .ok (b ^ e) := by
  unfold ipowBase
  split_ifs with h1 h2 h3 h4 h5
  · subst h1; exact shl1_ok h hz
  · have e' : b ^ e = 2 ^ (e * 2) := by rw [h2, mul_comm e, pow_mul]; norm_num
    rw [e'] at hz ⊢; exact ipowShift_ok h hz
  · have e' : b ^ e = 2 ^ (e * 3) := by rw [h3, mul_comm e, pow_mul]; norm_num
    rw [e'] at hz ⊢; exact ipowShift_ok h hz
  · have e' : b ^ e = 2 ^ (e * 4) := by rw [h4, mul_comm e, pow_mul]; norm_num
    rw [e'] at hz ⊢; exact ipowShift_ok h hz
  · have e' : b ^ e = 2 ^ (e * 5) := by rw [h5, mul_comm e, pow_mul]; norm_num
    rw [e'] at hz ⊢; exact ipowShift_ok h hz
  · exact ipowT_ok h hb e hz

/-! ## `bit_ceil` -/

/-- `z` has bit `i` exactly if `y` has a bit in `[i, i + m)`. -/
def Smear {w : ℕ} (m : ℕ) (y z : BitVec w) : Prop :=
  ∀ i, z.getLsbD i = true ↔ ∃ j, i ≤ j ∧ j < i + m ∧ y.getLsbD j = true

theorem Smear.step {w m : ℕ} {y z : BitVec w} (h : Smear m y z) :
    Smear (m + m) y (z ||| (z >>> m)) := by
  intro i
  rw [BitVec.getLsbD_or, BitVec.getLsbD_ushiftRight, Bool.or_eq_true, h i, h (m + i)]
  constructor
  · rintro (⟨j, h1, h2, h3⟩ | ⟨j, h1, h2, h3⟩)
    · exact ⟨j, h1, by omega, h3⟩
    · exact ⟨j, by omega, by omega, h3⟩
  · rintro ⟨j, h1, h2, h3⟩
    by_cases c : j < i + m
    · exact .inl ⟨j, h1, c, h3⟩
    · exact .inr ⟨j, by omega, by omega, h3⟩

theorem Smear.one {w : ℕ} (y : BitVec w) : Smear 1 y y := by
  intro i
  constructor
  · intro h; exact ⟨i, le_rfl, by omega, h⟩
  · rintro ⟨j, h1, h2, h3⟩
    obtain rfl : j = i := by omega
    exact h3

/-- Smearing over the whole width gives `2 ^ size - 1`. -/
theorem Smear.toNat {w m : ℕ} {y z : BitVec w} (h : Smear m y z) (hm : w ≤ m) :
    z.toNat = 2 ^ Nat.size y.toNat - 1 := by
  apply Nat.eq_of_testBit_eq
  intro i
  rw [BitVec.testBit_toNat, Nat.testBit_two_pow_sub_one, Bool.eq_iff_iff, h i, decide_eq_true_iff,
    Nat.lt_size]
  constructor
  · rintro ⟨j, h1, -, h3⟩
    rw [← BitVec.testBit_toNat] at h3
    exact (Nat.pow_le_pow_right (by norm_num) h1).trans (Nat.ge_two_pow_of_testBit h3)
  · intro h2
    have hpos : 0 < y.toNat := lt_of_lt_of_le (by positivity) h2
    obtain ⟨j, hj1, hj2⟩ := Nat.exists_ge_and_testBit_of_ge_two_pow h2
    rw [BitVec.testBit_toNat] at hj2
    have := BitVec.lt_of_getLsbD hj2
    exact ⟨j, hj1, by omega, hj2⟩

theorem size_pred (x : ℕ) (hx : 1 ≤ x) : Nat.size (x - 1) = Nat.clog 2 x := by
  apply le_antisymm
  · rw [Nat.size_le]
    have := Nat.le_pow_clog (b := 2) (by norm_num) x
    omega
  · rw [Nat.clog_le_iff_le_pow (by norm_num)]
    have := Nat.lt_size_self (x - 1)
    omega

theorem bitCeilFallback_toNat {w : ℕ} (hw : w = 8 ∨ w = 16 ∨ w = 32 ∨ w = 64) (x : BitVec w)
    (h1 : 1 ≤ x.toNat) (h2 : x.toNat ≤ 2 ^ (w - 1)) :
    (bitCeilFallback w x).toNat = 2 ^ Nat.clog 2 x.toNat := by
  have hy : (x - 1).toNat = x.toNat - 1 := by
    have hlt := x.isLt
    have h2w : 2 ≤ 2 ^ w := by
      calc 2 = 2 ^ 1 := rfl
        _ ≤ 2 ^ w := Nat.pow_le_pow_right (by norm_num) (by omega)
    rw [BitVec.toNat_sub]
    have : (1 : BitVec w).toNat = 1 := by
      show (BitVec.ofNat w 1).toNat = 1
      rw [BitVec.toNat_ofNat, Nat.mod_eq_of_lt (by omega)]
    rw [this, show 2 ^ w - 1 + x.toNat = x.toNat - 1 + 2 ^ w by omega, Nat.add_mod_right,
      Nat.mod_eq_of_lt (by omega)]
  have hlast : ∀ z : BitVec w, Smear w (x - 1) z → (z + 1).toNat = 2 ^ Nat.clog 2 x.toNat := by
    intro z hz
    have e := hz.toNat le_rfl
    rw [hy, size_pred _ h1] at e
    have hp : 1 ≤ 2 ^ Nat.clog 2 x.toNat := Nat.one_le_two_pow
    have hc : Nat.clog 2 x.toNat ≤ w - 1 := (Nat.clog_le_iff_le_pow (by norm_num)).2 h2
    have hlt : 2 ^ Nat.clog 2 x.toNat < 2 ^ w := Nat.pow_lt_pow_right (by norm_num) (by omega)
    have h1' : (1 : BitVec w).toNat = 1 := by
      show (BitVec.ofNat w 1).toNat = 1
      rw [BitVec.toNat_ofNat, Nat.mod_eq_of_lt (by omega)]
    rw [BitVec.toNat_add, e, h1', Nat.sub_add_cancel hp, Nat.mod_eq_of_lt hlt]
  have s3 := (((Smear.one (x - 1)).step).step).step
  rcases hw with rfl | rfl | rfl | rfl
  · exact hlast _ s3
  · exact hlast _ s3.step
  · exact hlast _ s3.step.step
  · exact hlast _ s3.step.step.step

theorem stdBitCeilLoop_ok {w x c : ℕ} (hc : Nat.clog 2 x = c) (hw : c < w) :
    ∀ n b, b + n = w → b ≤ c → stdBitCeilLoop w x n (2 ^ b) = .ok (BitVec.ofNat w (2 ^ c)) := by
  intro n
  induction n with
  | zero => intro b hb hbc; omega
  | succ n ih =>
    intro b hb hbc
    rw [stdBitCeilLoop]
    by_cases h : x ≤ 2 ^ b
    · rw [if_pos h]
      have : c ≤ b := hc ▸ (Nat.clog_le_iff_le_pow (by norm_num)).2 h
      rw [show b = c by omega]
    · rw [if_neg h, ← pow_succ']
      refine ih (b + 1) (by omega) ?_
      have : b < Nat.clog 2 x := (Nat.lt_clog_iff_pow_lt (by norm_num)).2 (not_le.1 h)
      omega

theorem stdBitCeil_ok {w : ℕ} (x : BitVec w) (hw : 1 ≤ w) (h2 : x.toNat ≤ 2 ^ (w - 1)) :
    stdBitCeil w x = .ok (BitVec.ofNat w (2 ^ Nat.clog 2 x.toNat)) := by
  have hc : Nat.clog 2 x.toNat ≤ w - 1 := (Nat.clog_le_iff_le_pow (by norm_num)).2 h2
  exact stdBitCeilLoop_ok rfl (by omega) w 0 (by omega) (Nat.zero_le _)

theorem stdBitCeilLoop_bad {w x : ℕ} : ∀ n b, b + n = w → 2 ^ (w - 1) < x →
    stdBitCeilLoop w x n (2 ^ b) = .error .overflow := by
  intro n
  induction n with
  | zero => intros; rfl
  | succ n ih =>
    intro b hb hx
    have : 2 ^ b ≤ 2 ^ (w - 1) := Nat.pow_le_pow_right (by norm_num) (by omega)
    rw [stdBitCeilLoop, if_neg (by omega), ← pow_succ']
    exact ih (b + 1) (by omega) hx

theorem bitCeilT_toNat (fb : Bool) {w : ℕ} (hw : w = 8 ∨ w = 16 ∨ w = 32 ∨ w = 64) (x : BitVec w)
    (h1 : 1 ≤ x.toNat) (h2 : x.toNat ≤ 2 ^ (w - 1)) :
    bitCeilT fb w x = .ok (BitVec.ofNat w (2 ^ Nat.clog 2 x.toNat)) := by
  have hc : Nat.clog 2 x.toNat ≤ w - 1 := (Nat.clog_le_iff_le_pow (by norm_num)).2 h2
  have hlt : 2 ^ Nat.clog 2 x.toNat < 2 ^ w := Nat.pow_lt_pow_right (by norm_num) (by omega)
  unfold bitCeilT
  cases fb
  · exact stdBitCeil_ok x (by omega) h2
  · rw [if_pos rfl]
    congr 1
    apply BitVec.eq_of_toNat_eq
    rw [bitCeilFallback_toNat hw x h1 h2, BitVec.toNat_ofNat, Nat.mod_eq_of_lt hlt]

theorem bitLog2TLoop_ok {w : ℕ} : ∀ n (x r : BitVec w), x.toNat < 2 ^ n →
    r.toNat + Nat.log 2 x.toNat < 2 ^ w →
    ∃ o, bitLog2TLoop w (n + 1) x r = .ok o ∧ o.toNat = r.toNat + Nat.log 2 x.toNat := by
  intro n
  induction n with
  | zero =>
    intro x r hx hr
    have : x.toNat = 0 := by simpa using hx
    refine ⟨r, ?_, by rw [this]; simp⟩
    rw [bitLog2TLoop, if_neg (by omega)]
  | succ n ih =>
    intro x r hx hr
    rw [bitLog2TLoop]
    by_cases c : x.toNat > 1
    · rw [if_pos c]
      have hs : (x >>> 1).toNat = x.toNat / 2 := by
        rw [BitVec.toNat_ushiftRight, Nat.shiftRight_eq_div_pow, pow_one]
      have hlog : Nat.log 2 x.toNat = Nat.log 2 (x.toNat / 2) + 1 :=
        Nat.log_of_one_lt_of_le (by norm_num) (by omega)
      have h1 : (1 : BitVec w).toNat = 1 := by
        show (BitVec.ofNat w 1).toNat = 1
        rw [BitVec.toNat_ofNat, Nat.mod_eq_of_lt (by omega)]
      have hr1 : (r + 1).toNat = r.toNat + 1 := by
        rw [BitVec.toNat_add, h1, Nat.mod_eq_of_lt (by omega)]
      obtain ⟨o, e, ho⟩ := ih (x >>> 1) (r + 1) (by rw [hs]; rw [pow_succ] at hx; omega)
        (by rw [hr1, hs]; omega)
      exact ⟨o, e, by rw [ho, hr1, hs]; omega⟩
    · rw [if_neg c]
      refine ⟨r, rfl, ?_⟩
      rw [Nat.log_of_lt (by omega)]; rfl

theorem bitLog2T_ok {w : ℕ} (x : BitVec w) :
    ∃ o, bitLog2T w x = .ok o ∧ o.toNat = Nat.log 2 x.toNat := by
  have hz : (0 : BitVec w).toNat = 0 := by simp
  obtain ⟨o, e, h⟩ := bitLog2TLoop_ok (w := w) w x 0 x.isLt (by
    rw [hz, Nat.zero_add]
    exact lt_of_le_of_lt (Nat.log_le_self 2 _) x.isLt)
  exact ⟨o, e, by rw [h, hz, Nat.zero_add]⟩

/-- `next_order` in machine arithmetic, as long as the power of two is representable. -/
theorem nextOrderT_ok (fb : Bool) {t : IntT} (h : t.Std) {n : ℕ} (hn : 1 ≤ n)
    (hf : t.Fits (2 ^ Nat.clog 2 n)) : nextOrderT fb t n = .ok (Nat.clog 2 n) := by
  obtain ⟨hs, -⟩ := pow_two_fits hf
  have hle : n ≤ 2 ^ Nat.clog 2 n := Nat.le_pow_clog (by norm_num) n
  have hlt : 2 ^ Nat.clog 2 n < 2 ^ t.width := Nat.pow_lt_pow_right (by norm_num) hs
  have hx : (BitVec.ofInt t.width (n : ℤ)).toNat = n := by
    rw [BitVec.ofInt_natCast, BitVec.toNat_ofNat, Nat.mod_eq_of_lt (by omega)]
  have h2 : n ≤ 2 ^ (t.width - 1) := hle.trans (Nat.pow_le_pow_right (by norm_num) (by omega))
  unfold nextOrderT
  rw [bitCeilT_toNat fb h _ (by rw [hx]; exact hn) (by rw [hx]; exact h2), bind_ok, hx]
  obtain ⟨o, e, ho⟩ := bitLog2T_ok (BitVec.ofNat t.width (2 ^ Nat.clog 2 n))
  rw [BitVec.toNat_ofNat, Nat.mod_eq_of_lt hlt, Nat.log_pow (by norm_num)] at ho
  have hw64 : t.width ≤ 64 := by rcases h with h | h | h | h <;> omega
  rw [e, bind_ok, ho, pure_eq_ok, IntT.conv_eq h.pos (fits_small h (by omega) (by omega))]

end Neo
