import Verif.Lemmas.IntT

/-! # C37–C40: integer helpers in machine arithmetic -/

namespace Neo.Props

open Neo

/-! ## C37 -/

/-- **C37**: for the four unsigned widths and every `x` from 1 to the largest power of two, the
portable `bit_ceil` returns a power of two that is not below `x`, no smaller power of two is, and
`std::bit_ceil` returns the same. -/
theorem C37_bit_ceil (w : ℕ) (hw : w = 8 ∨ w = 16 ∨ w = 32 ∨ w = 64) (x : BitVec w)
    (h1 : 1 ≤ x.toNat) (h2 : x.toNat ≤ 2 ^ (w - 1)) :
    (∃ c, (bitCeilFallback w x).toNat = 2 ^ c ∧ x.toNat ≤ 2 ^ c ∧ ∀ d, x.toNat ≤ 2 ^ d → 2 ^ c ≤ 2 ^ d) ∧
    stdBitCeil w x = .ok (bitCeilFallback w x) := by
  have e := bitCeilFallback_toNat hw x h1 h2
  refine ⟨⟨_, e, Nat.le_pow_clog (by norm_num) _, fun d hd =>
    Nat.pow_le_pow_right (by norm_num) ((Nat.clog_le_iff_le_pow (by norm_num)).2 hd)⟩, ?_⟩
  have h := bitCeilT_toNat true hw x h1 h2
  have h' := bitCeilT_toNat false hw x h1 h2
  exact h'.trans h.symm

example : bitCeilFallback 8 100#8 = 128#8 ∧ bitCeilFallback 64 ((2 ^ 40 + 1) : BitVec 64) = 2 ^ 41 := by
  decide +kernel

/-- Outside that range the two differ: at 0 the standard function returns 1 and the portable one 0;
above the largest power of two the standard function is undefined and the portable one returns 0. -/
theorem C37_outside (w : ℕ) (hw : w = 8 ∨ w = 16 ∨ w = 32 ∨ w = 64) :
    (stdBitCeil w 0 = .ok 1 ∧ bitCeilFallback w 0 = 0) ∧
    ∀ x : BitVec w, 2 ^ (w - 1) < x.toNat →
      stdBitCeil w x = .error .overflow ∧ bitCeilFallback w x = 0 := by
  refine ⟨by rcases hw with rfl | rfl | rfl | rfl <;> decide +kernel, fun x hx => ⟨?_, ?_⟩⟩
  · exact stdBitCeilLoop_bad w 0 (by omega) hx
  · have hlt := x.isLt
    have hx1 : 1 ≤ x.toNat := Nat.one_le_two_pow.trans hx.le
    have hy : (x - 1).toNat = x.toNat - 1 := by
      have h2w : 2 ≤ 2 ^ w := by
        calc 2 = 2 ^ 1 := rfl
          _ ≤ 2 ^ w := Nat.pow_le_pow_right (by norm_num) (by omega)
      rw [BitVec.toNat_sub]
      have : (1 : BitVec w).toNat = 1 := by
        show (BitVec.ofNat w 1).toNat = 1
        rw [BitVec.toNat_ofNat, Nat.mod_eq_of_lt (by omega)]
      rw [this, show 2 ^ w - 1 + x.toNat = x.toNat - 1 + 2 ^ w by omega, Nat.add_mod_right,
        Nat.mod_eq_of_lt (by omega)]
    have hsz : Nat.size (x.toNat - 1) = w := by
      apply le_antisymm
      · rw [Nat.size_le]; omega
      · have h := Nat.lt_size.2 (show 2 ^ (w - 1) ≤ x.toNat - 1 by omega)
        omega
    have hlast : ∀ z : BitVec w, Smear w (x - 1) z → z + 1 = 0 := by
      intro z hz
      have e := hz.toNat le_rfl
      rw [hy, hsz] at e
      apply BitVec.eq_of_toNat_eq
      have h2w : 2 ≤ 2 ^ w := by
        calc 2 = 2 ^ 1 := rfl
          _ ≤ 2 ^ w := Nat.pow_le_pow_right (by norm_num) (by omega)
      have h1' : (1 : BitVec w).toNat = 1 := by
        show (BitVec.ofNat w 1).toNat = 1
        rw [BitVec.toNat_ofNat, Nat.mod_eq_of_lt (by omega)]
      rw [BitVec.toNat_add, e, h1', Nat.sub_add_cancel (by omega), Nat.mod_self]
      simp
    have s3 := (((Smear.one (x - 1)).step).step).step
    rcases hw with rfl | rfl | rfl | rfl
    · exact hlast _ s3
    · exact hlast _ s3.step
    · exact hlast _ s3.step.step
    · exact hlast _ s3.step.step.step

/-! ## C38 -/

/-- The powers of two that an integer type can represent. -/
theorem fits_pow_iff (t : IntT) (c : ℕ) (ht : t.Std) :
    t.Fits (2 ^ c) ↔ c < (if t.signed then t.width - 1 else t.width) := by
  constructor
  · intro h
    obtain ⟨h1, h2⟩ := pow_two_fits h
    split_ifs with hs
    · exact h2 hs
    · exact h1
  · intro h
    have h0 : (0 : ℤ) ≤ 2 ^ c := by positivity
    have hp : (2 : ℤ) ^ c < 2 ^ (if t.signed then t.width - 1 else t.width) :=
      pow_lt_pow_right₀ (by norm_num) h
    refine ⟨(IntT.fits_zero t).1.trans h0, ?_⟩
    unfold IntT.max
    split_ifs at hp ⊢ <;> omega

/-- **C38**: for every integer type and every `n` from 1 to the largest representable power of two,
`size(next_order(n))` is computed without overflow and is at least `n`, and the size of every
smaller order is below `n`.  With `std::bit_ceil` and with the portable one. -/
theorem C38_next_order (fb : Bool) (t : IntT) (ht : t.Std) (n : ℕ) (hn : 1 ≤ n)
    (hmax : ∃ c, n ≤ 2 ^ c ∧ t.Fits (2 ^ c)) :
    ∃ (o : ℕ) (s : ℕ), nextOrderT fb t n = .ok o ∧ fftSizeT t o = .ok s ∧ n ≤ s ∧
      ∀ o' < o, ∃ s' : ℕ, fftSizeT t o' = .ok s' ∧ s' < n := by
  obtain ⟨c, hc1, hc2⟩ := hmax
  have hle : Nat.clog 2 n ≤ c := (Nat.clog_le_iff_le_pow (by norm_num)).2 hc1
  have hsize : ∀ o ≤ Nat.clog 2 n, fftSizeT t o = .ok (2 ^ o) := by
    intro o ho
    have hf : t.Fits (2 ^ o) := by
      rw [fits_pow_iff t _ ht] at hc2 ⊢
      omega
    exact ipowBase_ok ht (fits_small ht (by norm_num) (by norm_num)) o hf
  have hf : t.Fits (2 ^ Nat.clog 2 n) := by
    rw [fits_pow_iff t _ ht] at hc2 ⊢
    omega
  refine ⟨Nat.clog 2 n, 2 ^ Nat.clog 2 n, nextOrderT_ok fb ht hn hf, ?_,
    Nat.le_pow_clog (by norm_num) n, fun o' ho' => ⟨2 ^ o', ?_, ?_⟩⟩
  · rw [hsize _ le_rfl]; push_cast; rfl
  · rw [hsize _ ho'.le]; push_cast; rfl
  · exact (Nat.lt_clog_iff_pow_lt (by norm_num)).1 ho'

/-- **C38**: `next_order(size(o)) = o` for every order whose size is representable. -/
theorem C38_next_order_size (fb : Bool) (t : IntT) (ht : t.Std) (o : ℕ) (ho : t.Fits (2 ^ o)) :
    ∃ s, fftSizeT t o = .ok s ∧ nextOrderT fb t s = .ok o := by
  refine ⟨2 ^ o, ipowBase_ok ht (fits_small ht (by norm_num) (by norm_num)) o ho, ?_⟩
  have hcl : Nat.clog 2 (2 ^ o) = o := Nat.clog_pow 2 _ (by norm_num)
  have := nextOrderT_ok fb ht (n := 2 ^ o) Nat.one_le_two_pow (by rw [hcl]; exact ho)
  rw [hcl] at this
  exact_mod_cast this

/-- `std::size_t`: the unbounded model of `next_order` used for the transforms is the machine one up
to `2 ^ 63`. -/
theorem C38_size_t (fb : Bool) (n : ℕ) (hn : 1 ≤ n) (h : n ≤ 2 ^ 63) :
    nextOrderT fb ⟨false, 64⟩ n = .ok (nextOrder n) := by
  rw [nextOrder_eq]
  refine nextOrderT_ok fb (by right; right; right; rfl) hn ?_
  rw [fits_pow_iff _ _ (by right; right; right; rfl)]
  have := (Nat.clog_le_iff_le_pow (by norm_num : 1 < 2)).2 h
  simp only [Bool.false_eq_true, if_false]
  omega

example : nextOrderT true ⟨false, 64⟩ 1000 = .ok 10 ∧ nextOrderT false ⟨true, 32⟩ 1025 = .ok 11 ∧
    fftSizeT ⟨true, 32⟩ 11 = .ok 2048 := by decide +kernel

/-- Above the largest power of two no order fits: the standard function is undefined and the portable
one gives order 0. -/
theorem C38_too_large : nextOrderT false ⟨false, 64⟩ (2 ^ 63 + 1) = .error .overflow ∧
    nextOrderT true ⟨false, 64⟩ (2 ^ 63 + 1) = .ok 0 := by decide +kernel

/-! ## C39 -/

/-- **C39**: for every integer type and every base and exponent whose power is representable, the
run-time `ipow(base, exponent)` and the compile-time-base `ipow<base>(exponent)` (all five shift
specialisations included) return the power; no signed overflow and no over-wide shift happens. -/
theorem C39_ipow (t : IntT) (ht : t.Std) (base : ℤ) (hb : t.Fits base) (exponent : ℕ)
    (h : t.Fits (base ^ exponent)) :
    ipowT t base exponent = .ok (base ^ exponent) ∧
    ipowBase t base exponent = .ok (base ^ exponent) :=
  ⟨ipowT_ok ht hb exponent h, ipowBase_ok ht hb exponent h⟩

/-- The unbounded model of `ipow` used for the transforms agrees for `std::size_t`. -/
theorem C39_size_t (base exponent : ℕ) (h : base ^ exponent < 2 ^ 64) (hb : base < 2 ^ 64) :
    ipowBase ⟨false, 64⟩ base exponent = .ok (ipow base exponent : ℕ) := by
  have hs : (⟨false, 64⟩ : IntT).Std := by right; right; right; rfl
  have hf : ∀ z : ℕ, z < 2 ^ 64 → (⟨false, 64⟩ : IntT).Fits z := by
    intro z hz
    unfold IntT.Fits IntT.min IntT.max
    simp only [Bool.false_eq_true, if_false]
    constructor
    · exact Int.natCast_nonneg z
    · have : (z : ℤ) < ((2 ^ 64 : ℕ) : ℤ) := by exact_mod_cast hz
      push_cast at this
      omega
  rw [ipow_eq]
  have := (C39_ipow _ hs base (hf _ hb) exponent (by exact_mod_cast hf _ h)).2
  rw [this]; push_cast; rfl

example : (⟨true, 8⟩ : IntT).Fits ((-2) ^ 7) ∧ ipowT ⟨true, 8⟩ (-2) 7 = .ok (-128) ∧
    ipowBase ⟨false, 64⟩ 8 21 = .ok (2 ^ 63) ∧ ipowBase ⟨true, 32⟩ 32 6 = .ok (2 ^ 30) := by
  decide +kernel

/-- The hypothesis is needed: one order more and the signed product overflows. -/
example : ipowT ⟨true, 32⟩ 10 10 = .error .overflow ∧ ipowBase ⟨false, 64⟩ 2 64 = .error .overflow := by
  decide +kernel

/-! ## C40 -/

theorem promote_promote (t : IntT) : t.promote.promote = t.promote := by
  unfold IntT.promote
  split_ifs <;> simp_all

/-- **C40** for non-negative `x`: the result is the least `q` with `q * y ≥ x`, provided `x + y - 1`
is representable and, for signed types of at least 32 bits, `x + y` too.  Missing: negative `x`, and
signed `x + y - 1 = max`, for which the statement is false (below). -/
theorem C40_idiv_partial (t : IntT) (ht : t.Std) (x y : ℤ) (hx : t.Fits x) (hy : t.Fits y)
    (hx0 : 0 ≤ x) (hy0 : 0 < y) (h : t.promote.Fits (x + y - 1))
    (hs : t.promote.signed = true → t.promote.Fits (x + y)) :
    ∃ q, idivT t x y = .ok q ∧ IsLeast {q : ℤ | x ≤ q * y} q := by
  have hw := IntT.promote_width ht.pos
  have hq0 : 0 ≤ (x + y - 1) / y := Int.ediv_nonneg (by omega) hy0.le
  have hqle : (x + y - 1) / y ≤ x + y - 1 := by
    rw [Int.ediv_le_iff_le_mul hy0]
    nlinarith
  have hqx : (x + y - 1) / y ≤ x := by
    rcases hx0.eq_or_lt with rfl | hx1
    · rw [Int.ediv_eq_zero_of_lt (by omega) (by omega)]
    · have : (x + y - 1) / y < x + 1 := by
        rw [Int.ediv_lt_iff_lt_mul hy0]
        nlinarith
      omega
  refine ⟨(x + y - 1) / y, ?_, ?_, ?_⟩
  · have hsum : (do let s ← t.add x y; t.promote.sub s 1) = (.ok (x + y - 1) : Res ℤ) := by
      unfold IntT.add IntT.sub
      rw [promote_promote]
      by_cases c : t.promote.signed = true
      · rw [IntT.arith_eq hw (hs c), bind_ok, IntT.arith_eq hw h]
      · unfold IntT.arith
        rw [if_neg c, bind_ok, if_neg c]
        congr 1
        have h' := IntT.conv_eq hw h
        unfold IntT.conv at h' ⊢
        rw [if_neg c] at h' ⊢
        rw [if_neg c, Int.emod_sub_emod, h']
    have : idivT t x y = ((do let s ← t.add x y; t.promote.sub s 1) >>= fun s => do
        let q ← t.promote.div s y
        pure (t.conv q)) := by
      unfold idivT
      cases t.add x y <;> rfl
    rw [this, hsum, bind_ok]
    unfold IntT.div
    rw [if_neg (by omega), promote_promote, Int.tdiv_eq_ediv_of_nonneg (by omega),
      IntT.arith_eq hw (IntT.fits_of_le h hq0 hqle), bind_ok, pure_eq_ok,
      IntT.conv_eq ht.pos (IntT.fits_of_le hx hq0 hqx)]
  · show x ≤ (x + y - 1) / y * y
    have h1 := Int.emod_add_mul_ediv (x + y - 1) y
    have h2 := Int.emod_lt_of_pos (x + y - 1) hy0
    nlinarith
  · intro q (hq : x ≤ q * y)
    have : (x + y - 1) / y < q + 1 := by
      rw [Int.ediv_lt_iff_lt_mul hy0]
      nlinarith
    omega

/-- **C40** for unsigned types: the full statement. -/
theorem C40_unsigned (t : IntT) (ht : t.Std) (hu : t.signed = false) (x y : ℤ) (hx : t.Fits x)
    (hy : t.Fits y) (hy0 : 0 < y) (h : t.Fits (x + y - 1)) :
    ∃ q, idivT t x y = .ok q ∧ IsLeast {q : ℤ | x ≤ q * y} q := by
  have hx0 : 0 ≤ x := by
    have := hx.1
    unfold IntT.min at this
    rwa [hu] at this
  refine C40_idiv_partial t ht x y hx hy hx0 hy0 (IntT.fits_promote ht h) ?_
  intro hs
  have hn : t.width < 32 := by
    by_contra c
    unfold IntT.promote at hs
    rw [if_neg c, hu] at hs
    cases hs
  have hle : x + y - 1 < 2 ^ t.width := by
    have := h.2
    unfold IntT.max at this
    rw [hu] at this
    simp only [Bool.false_eq_true, if_false] at this
    omega
  have hw16 : (2 : ℤ) ^ t.width ≤ 2 ^ 16 := pow_le_pow_right₀ (by norm_num) (by
    rcases ht with h | h | h | h <;> omega)
  unfold IntT.promote IntT.Fits IntT.min IntT.max
  rw [if_pos hn]
  norm_num at hw16 ⊢
  omega

/-- **C40** for `std::size_t` in closed form. -/
theorem C40_size_t (x y : ℕ) (hy : 0 < y) (h : x + y - 1 < 2 ^ 64) (hx : x < 2 ^ 64) (hy2 : y < 2 ^ 64) :
    ∃ q : ℕ, idivT ⟨false, 64⟩ x y = .ok q ∧ q = (x + y - 1) / y := by
  have hf : ∀ z : ℤ, 0 ≤ z → z < 2 ^ 64 → (⟨false, 64⟩ : IntT).Fits z := by
    intro z h0 hz
    unfold IntT.Fits IntT.min IntT.max
    simp only [Bool.false_eq_true, if_false]
    omega
  obtain ⟨q, e, h1, h2⟩ := C40_unsigned ⟨false, 64⟩ (by right; right; right; rfl) rfl x y
    (hf _ (by omega) (by omega)) (hf _ (by omega) (by omega)) (by omega) (hf _ (by omega) (by omega))
  have h1' : (x : ℤ) ≤ q * y := h1
  have hq0 : 0 ≤ q := by
    by_contra hc
    nlinarith
  lift q to ℕ using hq0
  refine ⟨q, e, ?_⟩
  symm
  rw [Nat.div_eq_iff hy]
  have h3 : ¬ ((x : ℤ) ≤ ((q : ℤ) - 1) * y) := fun hc => by
    have := h2 (show (q : ℤ) - 1 ∈ {q : ℤ | (x : ℤ) ≤ q * y} from hc)
    omega
  have h4 : (x : ℤ) ≤ (q * y : ℕ) := by exact_mod_cast h1'
  have h5 : ((q * y : ℕ) : ℤ) - y < x := by
    push_cast
    linarith
  omega

example : idivT ⟨false, 32⟩ (2 ^ 32 - 1) 1 = .ok (2 ^ 32 - 1) ∧ idivT ⟨true, 32⟩ 7 2 = .ok 4 := by
  decide +kernel

/-- **C40** is false as stated: with `int`, `x = max`, `y = 1` the sum `x + y` overflows although
`x + y - 1` is representable; and `idiv(-4, 3)` is 0, not the ceiling -1. -/
theorem C40_false :
    ((⟨true, 32⟩ : IntT).Fits (2 ^ 31 - 1 + 1 - 1) ∧ idivT ⟨true, 32⟩ (2 ^ 31 - 1) 1 = .error .overflow) ∧
    (idivT ⟨true, 32⟩ (-4) 3 = .ok 0 ∧ ¬ IsLeast {q : ℤ | -4 ≤ q * 3} 0) := by
  refine ⟨by decide +kernel, by decide +kernel, ?_⟩
  rintro ⟨-, h⟩
  have := h (show (-1 : ℤ) ∈ {q : ℤ | -4 ≤ q * 3} by show (-4 : ℤ) ≤ -1 * 3; norm_num)
  omega

/-- **C40** for signed types, every dividend: when `x + y` does not fit the promoted type the
addition overflows; when it does, the value is `x + y - 1` divided by `y` with truncation, and that is
the ceiling exactly when `x > -y` or `y` divides `x - 1`. -/
theorem C40_signed_exact (t : IntT) (ht : t.Std) (hu : t.signed = true) (x y : ℤ) (hx : t.Fits x)
    (hy : t.Fits y) (hy0 : 0 < y) :
    (¬ t.promote.Fits (x + y) → idivT t x y = .error .overflow) ∧
    (t.promote.Fits (x + y) → ∃ q, idivT t x y = .ok q ∧
      (∀ z : ℤ, q = z ↔ (0 ≤ x + y - 1 ∧ z * y ≤ x + y - 1 ∧ x + y - 1 < z * y + y) ∨
        (x + y - 1 < 0 ∧ x + y - 1 ≤ z * y ∧ z * y - y < x + y - 1)) ∧
      (IsLeast {q : ℤ | x ≤ q * y} q ↔ -y < x ∨ y ∣ x - 1)) := by
  have hps : t.promote.signed = true := by
    unfold IntT.promote
    split_ifs
    · rfl
    · exact hu
  have hw := IntT.promote_width ht.pos
  constructor
  · intro h
    unfold idivT IntT.add IntT.arith
    rw [if_pos hps, if_neg h]
    rfl
  · intro h
    have hmin : t.promote.min ≤ t.min ∧ t.min ≤ 0 := by
      constructor
      · have := (IntT.fits_promote ht (z := t.min) ⟨le_refl _, by
          have := hx.1; have := hx.2; omega⟩).1
        exact this
      · unfold IntT.min; rw [hu]; simp
    have hx1 := hx.1
    have hx2 := hx.2
    have h1 : t.promote.Fits (x + y - 1) := ⟨by omega, by have := h.2; omega⟩
    have hmod := Int.tmod_add_mul_tdiv (x + y - 1) y
    have hq : t.Fits ((x + y - 1).tdiv y) := by
      by_cases c : 0 ≤ x + y - 1
      · rw [Int.tdiv_eq_ediv_of_nonneg c]
        have hq0 : 0 ≤ (x + y - 1) / y := Int.ediv_nonneg c hy0.le
        refine ⟨by omega, ?_⟩
        by_cases cx : 0 < x
        · have : (x + y - 1) / y < x + 1 := by
            rw [Int.ediv_lt_iff_lt_mul hy0]
            nlinarith
          omega
        · have : (x + y - 1) / y < 1 := by
            rw [Int.ediv_lt_iff_lt_mul hy0]
            omega
          have := hy.2
          omega
      · have e : (x + y - 1).tdiv y = -((-(x + y - 1)) / y) := by
          rw [← Int.tdiv_eq_ediv_of_nonneg (by omega), Int.neg_tdiv, neg_neg]
        rw [e]
        have hq0 : 0 ≤ (-(x + y - 1)) / y := Int.ediv_nonneg (by omega) hy0.le
        have : (-(x + y - 1)) / y < -x + 1 := by
          rw [Int.ediv_lt_iff_lt_mul hy0]
          nlinarith
        have := hy.2
        exact ⟨by omega, by omega⟩
    have hval : idivT t x y = .ok ((x + y - 1).tdiv y) := by
      unfold idivT IntT.add IntT.sub IntT.div
      rw [promote_promote, IntT.arith_eq hw h, bind_ok, IntT.arith_eq hw h1, bind_ok,
        if_neg (by omega), IntT.arith_eq hw (IntT.fits_promote ht hq), bind_ok, pure_eq_ok,
        IntT.conv_eq ht.pos hq]
    have hchar : ∀ z : ℤ, (x + y - 1).tdiv y = z ↔
        (0 ≤ x + y - 1 ∧ z * y ≤ x + y - 1 ∧ x + y - 1 < z * y + y) ∨
        (x + y - 1 < 0 ∧ x + y - 1 ≤ z * y ∧ z * y - y < x + y - 1) := by
      intro z
      by_cases c : 0 ≤ x + y - 1
      · rw [Int.tdiv_eq_ediv_of_nonneg c]
        constructor
        · rintro rfl
          left
          have a1 := Int.emod_add_mul_ediv (x + y - 1) y
          have a2 := Int.emod_lt_of_pos (x + y - 1) hy0
          have a3 := Int.emod_nonneg (x + y - 1) hy0.ne'
          exact ⟨c, by nlinarith, by nlinarith⟩
        · rintro (⟨-, a, b⟩ | ⟨a, -⟩)
          · apply le_antisymm
            · have : (x + y - 1) / y < z + 1 := by
                rw [Int.ediv_lt_iff_lt_mul hy0]; nlinarith
              omega
            · rw [Int.le_ediv_iff_mul_le hy0]; exact a
          · omega
      · have e : (x + y - 1).tdiv y = -((-(x + y - 1)) / y) := by
          rw [← Int.tdiv_eq_ediv_of_nonneg (by omega), Int.neg_tdiv, neg_neg]
        rw [e]
        constructor
        · rintro rfl
          right
          have a1 := Int.emod_add_mul_ediv (-(x + y - 1)) y
          have a2 := Int.emod_lt_of_pos (-(x + y - 1)) hy0
          have a3 := Int.emod_nonneg (-(x + y - 1)) hy0.ne'
          exact ⟨by omega, by nlinarith, by nlinarith⟩
        · rintro (⟨a, -⟩ | ⟨-, a, b⟩)
          · omega
          · have : (-(x + y - 1)) / y = -z := by
              apply le_antisymm
              · have : (-(x + y - 1)) / y < -z + 1 := by
                  rw [Int.ediv_lt_iff_lt_mul hy0]; nlinarith
                omega
              · rw [Int.le_ediv_iff_mul_le hy0]; nlinarith
            omega
    refine ⟨_, hval, hchar, ?_⟩
    generalize (x + y - 1).tdiv y = q at hchar
    have hq' := (hchar q).1 rfl
    constructor
    · rintro ⟨h2, h3⟩
      have h2' : x ≤ q * y := h2
      by_contra hc
      rw [not_or] at hc
      rcases hq' with ⟨a, -⟩ | ⟨a, b, c⟩
      · omega
      · have h4 : ¬ (x ≤ (q - 1) * y) := fun hh => by
          have := h3 (show q - 1 ∈ {q : ℤ | x ≤ q * y} from hh)
          omega
        have h5 : q * y - y < x := by
          have : (q - 1) * y = q * y - y := by ring
          omega
        have : q * y = x + y - 1 := by omega
        exact hc.2 ⟨q - 1, by linarith [mul_comm y (q - 1), sub_mul q 1 y]⟩
    · intro hh
      have key : x ≤ q * y ∧ q * y < x + y := by
        rcases hq' with ⟨a, b, c⟩ | ⟨a, b, c⟩
        · omega
        · rcases hh with hh | ⟨k, hk⟩
          · omega
          · have e : x + y - 1 = (k + 1) * y := by linarith [mul_comm y k, add_mul k 1 y]
            rw [e] at b c
            have h1 : k + 1 ≤ q := le_of_mul_le_mul_right b hy0
            have h2 : q < k + 2 := by
              have : q * y < (k + 2) * y := by linarith [add_mul k 1 y, add_mul k 2 y]
              exact lt_of_mul_lt_mul_right this hy0.le
            have : q = k + 1 := by omega
            rw [this, ← e]; omega
      refine ⟨key.1, fun r hr => ?_⟩
      have hr' : x ≤ r * y := hr
      have : q * y < (r + 1) * y := by linarith [key.2, add_mul r 1 y]
      have := lt_of_mul_lt_mul_right this hy0.le
      omega

/-- Both sides of the equivalence occur for negative dividends: `idiv(-5, 3)` is right because
`3 ∣ -6`, `idiv(-2, 3)` because `-2 > -3`, and `idiv(-4, 3)` is 0 instead of -1. -/
example : idivT ⟨true, 32⟩ (-5) 3 = .ok (-1) ∧ idivT ⟨true, 32⟩ (-2) 3 = .ok 0 ∧
    idivT ⟨true, 8⟩ (-4) 3 = .ok 0 ∧ ((3 : ℤ) ∣ -5 - 1) ∧ ¬ ((3 : ℤ) ∣ -4 - 1) := by
  decide +kernel

end Neo.Props
