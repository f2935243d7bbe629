import Verif.Model.Helpers
import Verif.Lemmas.IntT
import Verif.Lemmas.Algo
import Verif.Lemmas.Backend
import Verif.Props.MultiplyAdd

/-! # C82: scalar helpers;  C83: vendor versions of `scale` and `multiply_add` -/

namespace Neo.Props

open Neo

/-! ## C82 -/

/-- **C82**, complex numbers: `real` and `imag` are the parts of the number. -/
theorem C82_complex_parts (z : ℂ) :
    (mathRealC z : ℂ) + (mathImagC z : ℂ) * Complex.I = z := by
  unfold mathRealC mathImagC
  exact Complex.re_add_im z

/-- **C82** fails for real numbers: `imag(x)` is `x`, so that the parts recompose to `x` only for
`x = 0`. -/
theorem C82_imag_of_real_false (x : ℝ) :
    (((mathRealF x : ℝ) : ℂ) + (mathImagF x : ℂ) * Complex.I = (x : ℂ)) ↔ x = 0 := by
  unfold mathRealF mathImagF
  constructor
  · intro h
    have := congrArg Complex.im h
    simpa using this
  · rintro rfl
    simp

/-- **C82**, `abs` on integers: `|x|` for every value except the smallest one of a signed type that is at least
as wide as `int`, where the behaviour is undefined. -/
theorem C82_abs (t : IntT) (ht : t.Std) (x : ℤ) (hx : t.Fits x) :
    (¬(t.signed = true ∧ 32 ≤ t.width ∧ x = t.min) → mathAbsT t x = .ok |x|) ∧
    ((t.signed = true ∧ 32 ≤ t.width ∧ x = t.min) → mathAbsT t x = .error .overflow) := by
  obtain ⟨s, w⟩ := t
  unfold IntT.Std at ht
  unfold IntT.Fits IntT.min IntT.max at hx
  unfold mathAbsT IntT.min IntT.promote IntT.arith IntT.Fits IntT.min IntT.max
  cases s with
  | false =>
    simp only [Bool.false_eq_true, if_false] at hx
    refine ⟨fun _ => ?_, fun h => by simp at h⟩
    simp only [Bool.false_eq_true, if_false]
    rw [abs_of_nonneg hx.1]
  | true =>
    simp only [if_true] at hx
    simp only [if_true]
    by_cases hneg : x < 0
    · rw [if_pos hneg, abs_of_neg hneg]
      rcases ht with h | h | h | h <;> (dsimp only at h; subst h; norm_num at hx ⊢) <;>
        first
        | omega
        | (constructor <;> intro h <;> (try split) <;> first | rfl | omega)
    · rw [if_neg hneg, abs_of_nonneg (by omega)]
      refine ⟨fun _ => rfl, ?_⟩
      rintro ⟨_, h32, hmin⟩
      have : (0 : ℤ) < 2 ^ (w - 1) := by positivity
      omega

theorem testBit_zero_ofInt (w : ℕ) (hw : 1 ≤ w) (x : ℤ) :
    (BitVec.ofInt w x &&& BitVec.ofInt w 1 = 0) ↔ Even x := by
  have h1 : BitVec.ofInt w 1 = 1#w := by
    simp
  rw [h1, ← BitVec.toNat_inj, BitVec.toNat_and]
  have hone : (1#w).toNat = 1 := by
    rw [BitVec.toNat_ofNat]
    exact Nat.mod_eq_of_lt (Nat.one_lt_two_pow (by omega))
  rw [hone, Nat.and_one_is_mod, BitVec.toNat_ofInt]
  have h2 : (2 : ℤ) ∣ ((2 ^ w : ℕ) : ℤ) := by
    obtain ⟨k, rfl⟩ : ∃ k, w = k + 1 := ⟨w - 1, by omega⟩
    rw [pow_succ]
    push_cast
    exact dvd_mul_left _ _
  have hpos : (0 : ℤ) < ((2 ^ w : ℕ) : ℤ) := by positivity
  have h3 := Int.emod_nonneg x hpos.ne'
  have h4 : (x % ((2 ^ w : ℕ) : ℤ)) % 2 = x % 2 := Int.emod_emod_of_dvd x h2
  rw [Int.even_iff]
  rw [show (0 : BitVec w).toNat = 0 from by simp]
  omega

/-- **C82**, parity: `is_even` and `is_odd` decide the parity of every value of every integer type,
negative ones included. -/
theorem C82_parity (t : IntT) (ht : t.Std) (x : ℤ) :
    (isEvenT t x = true ↔ Even x) ∧ (isOddT t x = true ↔ ¬ Even x) := by
  have hw : 1 ≤ t.width := by unfold IntT.Std at ht; omega
  unfold isEvenT isOddT
  rw [beq_iff_eq, bne_iff_ne, Ne, testBit_zero_ofInt _ hw]
  exact ⟨Iff.rfl, Iff.rfl⟩

example : isOddT ⟨true, 8⟩ (-128 + 1) = true ∧ mathAbsT ⟨true, 8⟩ (-128) = .ok 128 ∧
    mathAbsT ⟨true, 64⟩ (-2 ^ 63) = .error .overflow := by decide +kernel

/-! ## C83 -/

/-- **C83**, scale: with a documented BLAS, `scale` of a contiguous vector whose length fits the
library's `size_type` is the portable loop. -/
theorem C83_scale_partial {α : Type} [CommMagma α] (w : ℕ) (hw : 2 ≤ w) (alpha : α) (obj : List α)
    (h : obj.length < 2 ^ (w - 1)) : scaleCblas w alpha obj = scaleVec alpha obj := by
  have hp : (0 : ℤ) < 2 ^ (w - 1) := by positivity
  have hp2 : (2 : ℤ) ≤ 2 ^ (w - 1) := by
    calc (2 : ℤ) = 2 ^ 1 := by norm_num
      _ ≤ 2 ^ (w - 1) := pow_le_pow_right₀ (by norm_num) (by omega)
  have hz : (obj.length : ℤ) < 2 ^ (w - 1) := by exact_mod_cast h
  have e1 : (⟨true, w⟩ : IntT).conv obj.length = obj.length := by
    apply IntT.conv_eq (show 1 ≤ w by omega)
    unfold IntT.Fits IntT.min IntT.max
    simp only [if_true]
    constructor
    · have := Int.natCast_nonneg obj.length
      linarith
    · linarith
  have e2 : (⟨true, w⟩ : IntT).conv 1 = 1 := by
    apply IntT.conv_eq (show 1 ≤ w by omega)
    unfold IntT.Fits IntT.min IntT.max
    simp only [if_true]
    constructor <;> linarith
  unfold scaleCblas cblasScal
  rw [e1, e2]
  rcases Nat.eq_zero_or_pos obj.length with h0 | h0
  · rw [if_pos (by omega)]
    rw [List.length_eq_zero_iff] at h0
    subst h0
    rfl
  · rw [if_neg (by omega)]
    unfold scaleVec unaryOp
    rw [Int.toNat_natCast]
    apply forN_congr
    intro i _ s
    simp [mul_comm]

/-- **C83** fails for MKL's 32-bit interface: a vector of `2^31` to `2^32` elements is silently left as it is. -/
theorem C83_scale_truncated {α : Type} [Mul α] (alpha : α) (obj : List α)
    (h1 : 2 ^ 31 ≤ obj.length) (h2 : obj.length ≤ 2 ^ 32) : scaleCblas 32 alpha obj = .ok obj := by
  unfold scaleCblas cblasScal
  rw [if_pos]
  left
  unfold IntT.conv
  simp only [if_true]
  have h1' : (2 ^ 31 : ℤ) ≤ obj.length := by exact_mod_cast h1
  have h2' : (obj.length : ℤ) ≤ 2 ^ 32 := by exact_mod_cast h2
  norm_num at h1' h2' ⊢
  omega

/-- The portable loop does scale such a vector: with `alpha = 0` and ones, the results differ. -/
theorem C83_scale_truncated_witness :
    scaleCblas 32 (0 : ℝ) (vec (2 ^ 31) (fun _ => 1)) ≠ scaleVec 0 (vec (2 ^ 31) (fun _ => 1)) := by
  rw [C83_scale_truncated _ _ (by rw [length_vec]) (by rw [length_vec]; norm_num), scaleVec_vec]
  intro h
  have h' := congrArg (fun l => l[0]?) (Except.ok.inj h)
  simp only [getElem?_vec] at h'
  rw [if_pos (by positivity)] at h'
  simp at h'

/-- The documented effect of `vDSP_zvma`: `x*y + z` on every element. -/
def ZvmaContract {α : Type} [Add α] [Sub α] [Mul α] (zvma : Zvma α) : Prop :=
  ∀ (n : ℕ) (xr xi yr yi zr zi : ℕ → α),
    zvma n ⟨vec n xr, vec n xi⟩ ⟨vec n yr, vec n yi⟩ ⟨vec n zr, vec n zi⟩
      = (vec n (fun i => (xr i * yr i - xi i * yi i) + zr i), vec n (fun i => (xr i * yi i + xi i * yr i) + zi i))

/-- **C83**, multiply-add of planes that are not all of one length: both versions stop at an assertion, the
library is not called. -/
theorem C83_wrong_lengths {α : Type} [Inhabited α] [Add α] [Sub α] [Mul α] (zvma : Zvma α) (ali : Bool)
    (x y z o : SplitV α) (l : List α)
    (hl : l ∈ [x.im, y.re, y.im, o.re, o.im] ∨ (ali = false ∧ l ∈ [z.re, z.im])) (h : l.length ≠ x.re.length) :
    splitMultiplyAddVdsp zvma ali x y z o = .error .assertion ∧
    splitMultiplyAdd ali x y z ⟨o.re, o.im, []⟩ = .error .assertion := by
  have hn : ¬ (x.re.length = x.im.length ∧ x.re.length = y.re.length ∧ x.re.length = y.im.length ∧
      x.re.length = (zPlane ali z.re o.re).length ∧ x.re.length = (zPlane ali z.im o.im).length ∧
      x.re.length = o.re.length ∧ x.re.length = o.im.length) := by
    rintro ⟨h1, h2, h3, h4, h5, h6, h7⟩
    rcases hl with hl | ⟨rfl, hl⟩
    · simp only [List.mem_cons, List.not_mem_nil, or_false] at hl
      rcases hl with rfl | rfl | rfl | rfl | rfl <;> omega
    · simp only [List.mem_cons, List.not_mem_nil, or_false] at hl
      unfold zPlane at h4 h5
      rcases hl with rfl | rfl
      · exact h h4.symm
      · exact h h5.symm
  constructor
  · unfold splitMultiplyAddVdsp
    rw [decide_eq_false hn]; rfl
  · unfold splitMultiplyAdd
    rw [decide_eq_false hn]; rfl

example : splitMultiplyAddVdsp (fun _ _ _ _ => ([5], [5])) true ⟨[1], [2]⟩ ⟨[3], [4]⟩ ⟨[], []⟩ ⟨[0], [0, 0]⟩
    = (.error .assertion : Res (SplitV ℤ)) :=
  (C83_wrong_lengths _ true _ _ _ _ [0, 0] (Or.inl (by simp)) (by simp)).1

/-- **C83**, multiply-add: a library that does what it documents gives exactly the planes of the scalar
loop, for every length below `2^31`, with `z` separate from or equal to the output. -/
theorem C83_multiply_add {α : Type} [Inhabited α] [Add α] [Sub α] [Mul α] (zvma : Zvma α) (hz : ZvmaContract zvma)
    (ali : Bool) (n : ℕ) (hn : n < 2 ^ 31) (x y z o : SplitV α) (h : SameLength n x y z o) :
    ∃ re im, splitMultiplyAddVdsp zvma ali x y z o = .ok ⟨re, im⟩ ∧
      splitMultiplyAdd ali x y z ⟨o.re, o.im, []⟩ = .ok ⟨re, im, List.range n⟩ ∧
      re.length = n ∧ im.length = n := by
  rcases Nat.eq_zero_or_pos n with rfl | hp
  · refine ⟨[], [], ?_, (split_empty 1 le_rfl ali x y z o h).2, rfl, rfl⟩
    obtain ⟨xre, xim⟩ := x
    obtain ⟨yre, yim⟩ := y
    obtain ⟨zre, zim⟩ := z
    obtain ⟨ore, oim⟩ := o
    obtain ⟨⟨h1, h2⟩, ⟨h3, h4⟩, ⟨h5, h6⟩, ⟨h7, h8⟩⟩ := h
    simp only [List.length_eq_zero_iff] at h1 h2 h3 h4 h5 h6 h7 h8
    subst h1 h2 h3 h4 h5 h6 h7 h8
    have hc := hz 0 (fun _ => default) (fun _ => default) (fun _ => default) (fun _ => default)
      (fun _ => default) (fun _ => default)
    have hv : ∀ f : ℕ → α, vec 0 f = [] := fun f => rfl
    simp only [hv] at hc
    unfold splitMultiplyAddVdsp zPlane
    simp only [ite_self, List.length_nil, hc]
    rfl
  · obtain ⟨re, im, -, hs2, h3⟩ := split_both ali x y z o h hp
    refine ⟨_, _, ?_, hs2 hn, by simp, by simp⟩
    obtain ⟨xre, xim⟩ := x
    obtain ⟨yre, yim⟩ := y
    obtain ⟨zre, zim⟩ := z
    obtain ⟨ore, oim⟩ := o
    obtain ⟨⟨h1, h2⟩, ⟨h3', h4⟩, ⟨h5, h6⟩, ⟨h7, h8⟩⟩ := h
    simp only at h1 h2 h3' h4 h5 h6 h7 h8
    obtain ⟨dflt, _⟩ : ∃ a, xre[0]? = some a := by
      rw [List.getElem?_eq_getElem (by omega)]; exact ⟨_, rfl⟩
    have key : ∀ l : List α, l.length = n → ∃ f, l = vec n f := fun l hl => ⟨_, list_eq_vec dflt hl⟩
    obtain ⟨xr, rfl⟩ := key _ h1
    obtain ⟨xi, rfl⟩ := key _ h2
    obtain ⟨yr, rfl⟩ := key _ h3'
    obtain ⟨yi, rfl⟩ := key _ h4
    obtain ⟨zr, rfl⟩ := key _ h5
    obtain ⟨zi, rfl⟩ := key _ h6
    obtain ⟨orr, rfl⟩ := key _ h7
    obtain ⟨oi, rfl⟩ := key _ h8
    unfold splitMultiplyAddVdsp zPlane
    simp only [length_vec]
    rw [check_decide_ok (by cases ali <;> simp), bind_ok]
    have hz' : zvma n ⟨vec n xr, vec n xi⟩ ⟨vec n yr, vec n yi⟩
        ⟨if ali = true then vec n orr else vec n zr, if ali = true then vec n oi else vec n zi⟩
        = (vec n re, vec n im) := by
      have e1 : (if ali = true then vec n orr else vec n zr) = vec n (if ali = true then orr else zr) := by
        split <;> rfl
      have e2 : (if ali = true then vec n oi else vec n zi) = vec n (if ali = true then oi else zi) := by
        split <;> rfl
      rw [e1, e2, hz]
      have hk : ∀ i < n, re i = (xr i * yr i - xi i * yi i) + (if ali = true then orr else zr) i ∧
          im i = (xr i * yi i + xi i * yr i) + (if ali = true then oi else zi) i := by
        intro i hi
        apply h3 i hi (xr i) (xi i) (yr i) (yi i) <;> (try rw [getElem?_vec, if_pos hi])
        · rw [e1, getElem?_vec, if_pos hi]
        · rw [e2, getElem?_vec, if_pos hi]
      congr 1
      · exact vec_ext (fun i hi => (hk i hi).1.symm)
      · exact vec_ext (fun i hi => (hk i hi).2.symm)
    rw [hz']
    simp only []
    rw [wrSpan_full, bind_ok, wrSpan_full, bind_ok, pure_eq_ok]

/-- A library meeting the contract. -/
example : ZvmaContract (α := ℤ) (fun n x y z =>
    (vec n (fun i => (x.re.getD i 0 * y.re.getD i 0 - x.im.getD i 0 * y.im.getD i 0) + z.re.getD i 0),
      vec n (fun i => (x.re.getD i 0 * y.im.getD i 0 + x.im.getD i 0 * y.re.getD i 0) + z.im.getD i 0))) := by
  intro n xr xi yr yi zr zi
  dsimp only
  congr 1 <;> exact vec_ext (fun i hi => by simp only [getD_vec _ _ _ _ hi])

example : scaleCblas 32 (3 : ℤ) [1, 2] = .ok [3, 6] := by decide +kernel

end Neo.Props
