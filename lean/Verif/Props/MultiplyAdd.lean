import Mathlib.Data.Complex.Basic
import Verif.Lemmas.MultiplyAdd
import Verif.Lemmas.Out

/-! # C35, C36: scalar and batched multiply-add -/

namespace Neo.Props

open Neo

/-- Six planes of the same length, and a seventh and eighth for the output. -/
def SameLength {α : Type} (n : ℕ) (x y z o : SplitV α) : Prop :=
  (x.re.length = n ∧ x.im.length = n) ∧ (y.re.length = n ∧ y.im.length = n) ∧
  (z.re.length = n ∧ z.im.length = n) ∧ (o.re.length = n ∧ o.im.length = n)

section
variable {α : Type} [Add α] [Sub α] [Mul α]

/-- Common form of both code paths (all lists given by functions). -/
theorem split_both {n : ℕ} (ali : Bool) (x y z o : SplitV α) (h : SameLength n x y z o)
    (hn : 0 < n) :
    ∃ re im : ℕ → α, (∀ V, 1 ≤ V → splitMultiplyAddSimd V ali x y z ⟨o.re, o.im, []⟩
        = .ok ⟨vec n re, vec n im, List.range n⟩) ∧
      (n < 2 ^ 31 → splitMultiplyAdd ali x y z ⟨o.re, o.im, []⟩
        = .ok ⟨vec n re, vec n im, List.range n⟩) ∧
      ∀ i < n, ∀ a b c d e f : α, x.re[i]? = some a → x.im[i]? = some b → y.re[i]? = some c →
        y.im[i]? = some d → (if ali then o.re else z.re)[i]? = some e →
        (if ali then o.im else z.im)[i]? = some f →
        re i = (a * c - b * d) + e ∧ im i = (a * d + b * c) + f := by
  obtain ⟨xre, xim⟩ := x
  obtain ⟨yre, yim⟩ := y
  obtain ⟨zre, zim⟩ := z
  obtain ⟨ore, oim⟩ := o
  obtain ⟨⟨h1, h2⟩, ⟨h3, h4⟩, ⟨h5, h6⟩, ⟨h7, h8⟩⟩ := h
  simp only at h1 h2 h3 h4 h5 h6 h7 h8
  obtain ⟨dflt, _⟩ : ∃ a, xre[0]? = some a := by
    rw [List.getElem?_eq_getElem (by omega)]; exact ⟨_, rfl⟩
  have key : ∀ l : List α, l.length = n → ∃ f, l = vec n f := fun l hl => ⟨_, list_eq_vec dflt hl⟩
  obtain ⟨xr, rfl⟩ := key _ h1
  obtain ⟨xi, rfl⟩ := key _ h2
  obtain ⟨yr, rfl⟩ := key _ h3
  obtain ⟨yi, rfl⟩ := key _ h4
  obtain ⟨zr, rfl⟩ := key _ h5
  obtain ⟨zi, rfl⟩ := key _ h6
  obtain ⟨orr, rfl⟩ := key _ h7
  obtain ⟨oi, rfl⟩ := key _ h8
  have hz1 : (zPlane ali (vec n zr) (vec n orr)).length = n := by unfold zPlane; cases ali <;> simp
  have hz2 : (zPlane ali (vec n zi) (vec n oi)).length = n := by unfold zPlane; cases ali <;> simp
  refine ⟨maRe ali xr xi yr yi zr orr, maIm ali xr xi yr yi zi oi, fun V hV => ?_, fun hs => ?_, ?_⟩
  · unfold splitMultiplyAddSimd
    rw [check_decide_ok (by simp only [length_vec, hz1, hz2, and_self]), bind_ok, length_vec]
    exact simdMultiplyAdd_ok ali xr xi yr yi zr zi orr oi hV
  · unfold splitMultiplyAdd
    rw [check_decide_ok (by simp only [length_vec, hz1, hz2, and_self]), bind_ok, length_vec]
    have hc : (⟨true, 32⟩ : IntT).conv (n : ℤ) = n := by
      refine i32_conv ((fits_i32 _).2 ⟨by omega, ?_⟩)
      have : (n : ℤ) < ((2 ^ 31 : ℕ) : ℤ) := by exact_mod_cast hs
      norm_num at this
      omega
    rw [hc, Int.toNat_natCast, forN_maStep ali xr xi yr yi zr zi orr oi le_rfl, maState_full]
  · intro i hi a b c d e f ha hb hc hd he hf
    have rdv : ∀ (g : ℕ → α) v, (vec n g)[i]? = some v → v = g i := by
      intro g v hv
      rw [getElem?_vec, if_pos hi] at hv
      exact (Option.some.inj hv).symm
    have he' : e = if ali then orr i else zr i := by
      cases ali
      · exact rdv _ _ he
      · exact rdv _ _ he
    have hf' : f = if ali then oi i else zi i := by
      cases ali
      · exact rdv _ _ hf
      · exact rdv _ _ hf
    rw [rdv _ _ ha, rdv _ _ hb, rdv _ _ hc, rdv _ _ hd, he', hf']
    exact ⟨rfl, rfl⟩

theorem split_empty (V : ℕ) (hV : 1 ≤ V) (ali : Bool) (x y z o : SplitV α) (h : SameLength 0 x y z o) :
    splitMultiplyAddSimd V ali x y z ⟨o.re, o.im, []⟩ = .ok ⟨[], [], []⟩ ∧
    splitMultiplyAdd ali x y z ⟨o.re, o.im, []⟩ = .ok ⟨[], [], []⟩ := by
  obtain ⟨xre, xim⟩ := x
  obtain ⟨yre, yim⟩ := y
  obtain ⟨zre, zim⟩ := z
  obtain ⟨ore, oim⟩ := o
  obtain ⟨⟨h1, h2⟩, ⟨h3, h4⟩, ⟨h5, h6⟩, ⟨h7, h8⟩⟩ := h
  simp only [List.length_eq_zero_iff] at h1 h2 h3 h4 h5 h6 h7 h8
  subst h1 h2 h3 h4 h5 h6 h7 h8
  constructor
  · unfold splitMultiplyAddSimd simdMultiplyAdd
    rw [check_decide_ok (by unfold zPlane; cases ali <;> simp), bind_ok, if_neg (by omega)]
    simp [forBatch, forR]
  · unfold splitMultiplyAdd
    rw [check_decide_ok (by unfold zPlane; cases ali <;> simp), bind_ok]
    have : ((⟨true, 32⟩ : IntT).conv (([] : List α).length : ℤ)).toNat = 0 := by
      rw [List.length_nil]; decide +kernel
    rw [this]
    rfl

/-- **C35** (split-complex): for every batch width and every length below `2 ^ 31` the batched
multiply-add and the element-wise loop give the same planes, every index is stored exactly once, in
order, and no access is out of bounds.  `z` may be the output itself.  No algebraic law is used, so
this holds for floating-point numbers too. -/
theorem C35_simd_eq_scalar (V : ℕ) (hV : 1 ≤ V) (ali : Bool) (n : ℕ) (hn : n < 2 ^ 31)
    (x y z o : SplitV α) (h : SameLength n x y z o) :
    ∃ re im, splitMultiplyAddSimd V ali x y z ⟨o.re, o.im, []⟩ = .ok ⟨re, im, List.range n⟩ ∧
      splitMultiplyAdd ali x y z ⟨o.re, o.im, []⟩ = .ok ⟨re, im, List.range n⟩ ∧
      re.length = n ∧ im.length = n := by
  rcases Nat.eq_zero_or_pos n with rfl | hp
  · exact ⟨[], [], (split_empty V hV ali x y z o h).1, (split_empty V hV ali x y z o h).2, rfl, rfl⟩
  · obtain ⟨re, im, h1, h2, -⟩ := split_both ali x y z o h hp
    exact ⟨_, _, h1 V hV, h2 hn, by simp, by simp⟩

/-- **C35** (split-complex, any length): the batched version has no upper limit on the length and
computes each element from the planes at the same index. -/
theorem C35_simd_elements (V : ℕ) (hV : 1 ≤ V) (ali : Bool) (n : ℕ) (x y z o : SplitV α)
    (h : SameLength n x y z o) :
    ∃ re im, splitMultiplyAddSimd V ali x y z ⟨o.re, o.im, []⟩ = .ok ⟨re, im, List.range n⟩ ∧
      re.length = n ∧ im.length = n ∧
      ∀ i < n, ∀ a b c d e f : α, x.re[i]? = some a → x.im[i]? = some b → y.re[i]? = some c →
        y.im[i]? = some d → (if ali then o.re else z.re)[i]? = some e →
        (if ali then o.im else z.im)[i]? = some f →
        re[i]? = some ((a * c - b * d) + e) ∧ im[i]? = some ((a * d + b * c) + f) := by
  rcases Nat.eq_zero_or_pos n with rfl | hp
  · exact ⟨[], [], (split_empty V hV ali x y z o h).1, rfl, rfl, fun i hi => by omega⟩
  · obtain ⟨re, im, h1, -, h3⟩ := split_both ali x y z o h hp
    refine ⟨_, _, h1 V hV, by simp, by simp, fun i hi a b c d e f ha hb hc hd he hf => ?_⟩
    obtain ⟨p, q⟩ := h3 i hi a b c d e f ha hb hc hd he hf
    rw [getElem?_vec, getElem?_vec, if_pos hi, if_pos hi, p, q]
    exact ⟨rfl, rfl⟩

omit [Sub α] in
/-- **C35** (interleaved vectors, xsimd batches): the same for `out = x * y + z`, any length. -/
theorem C35_interleaved (V : ℕ) (hV : 1 ≤ V) (ali : Bool) (n : ℕ) (x y z o : List α)
    (hx : x.length = n) (hy : y.length = n) (hz : z.length = n) (ho : o.length = n) :
    ∃ r, simdMultiplyAddPlain V ali x y z (o, []) = .ok (r, List.range n) ∧
      multiplyAddPlain ali x y z (o, []) = .ok (r, List.range n) ∧ r.length = n := by
  rcases Nat.eq_zero_or_pos n with rfl | hp
  · simp only [List.length_eq_zero_iff] at hx hy hz ho
    subst hx hy hz ho
    refine ⟨[], ?_, ?_, rfl⟩
    · unfold simdMultiplyAddPlain
      rw [if_neg (by omega)]
      simp [forBatch, forR]
    · unfold multiplyAddPlain
      rw [check_decide_ok (by unfold zPlane; cases ali <;> simp), bind_ok]
      rfl
  · obtain ⟨dflt, _⟩ : ∃ a, x[0]? = some a := by
      rw [List.getElem?_eq_getElem (by omega)]; exact ⟨_, rfl⟩
    have key : ∀ l : List α, l.length = n → ∃ f, l = vec n f := fun l hl => ⟨_, list_eq_vec dflt hl⟩
    obtain ⟨x, rfl⟩ := key _ hx
    obtain ⟨y, rfl⟩ := key _ hy
    obtain ⟨z, rfl⟩ := key _ hz
    obtain ⟨o, rfl⟩ := key _ ho
    exact ⟨_, simdMultiplyAddPlain_ok ali x y z o hV, multiplyAddPlain_ok ali x y z o, by simp⟩

theorem huge_bound (n : ℕ) (h1 : 2 ^ 31 ≤ n) (h2 : n < 2 ^ 32) :
    ((⟨true, 32⟩ : IntT).conv (n : ℤ)).toNat = 0 := by
  have g1 : ((2 ^ 31 : ℕ) : ℤ) ≤ n := by exact_mod_cast h1
  have g2 : (n : ℤ) < ((2 ^ 32 : ℕ) : ℤ) := by exact_mod_cast h2
  clear h1 h2
  norm_num at g1 g2
  have e : (⟨true, 32⟩ : IntT).conv (n : ℤ) = (n + 2147483648) % 4294967296 - 2147483648 := by
    unfold IntT.conv
    rw [if_pos rfl]
    norm_num
  rw [e]
  rw [show (n : ℤ) + 2147483648 = (n - 2147483648) + 4294967296 by ring, Int.add_emod_right,
    Int.emod_eq_of_lt (by linarith) (by linarith)]
  exact Int.toNat_of_nonpos (by linarith)

/-- Beyond that the element-wise loop is wrong: `static_cast<int>` of an extent from `2 ^ 31` to
`2 ^ 32 - 1` is negative and nothing is written. -/
theorem C35_scalar_huge (ali : Bool) (n : ℕ) (h1 : 2 ^ 31 ≤ n) (h2 : n < 2 ^ 32)
    (x y z o : SplitV α) (h : SameLength n x y z o) :
    splitMultiplyAdd ali x y z ⟨o.re, o.im, []⟩ = .ok ⟨o.re, o.im, []⟩ := by
  obtain ⟨⟨a1, a2⟩, ⟨a3, a4⟩, ⟨a5, a6⟩, ⟨a7, a8⟩⟩ := h
  unfold splitMultiplyAdd
  rw [check_decide_ok (by unfold zPlane; cases ali <;> simp [a1, a2, a3, a4, a5, a6, a7, a8]), bind_ok, a1]
  rw [huge_bound n h1 h2]
  rfl

end

/-- **C36**: read as complex numbers, the split multiply-add (element-wise or batched, `z` separate or
accumulated in place) is `x * y + z` at every index. -/
theorem C36_split_is_complex (ali : Bool) (n : ℕ) (hn : n < 2 ^ 31) (x y z o : SplitV ℝ)
    (h : SameLength n x y z o) :
    ∃ re im, splitMultiplyAdd ali x y z ⟨o.re, o.im, []⟩ = .ok ⟨re, im, List.range n⟩ ∧
      (∀ V, 1 ≤ V → splitMultiplyAddSimd V ali x y z ⟨o.re, o.im, []⟩ = .ok ⟨re, im, List.range n⟩) ∧
      re.length = n ∧ im.length = n ∧
      ∀ i < n, (⟨re.getD i 0, im.getD i 0⟩ : ℂ)
        = ⟨x.re.getD i 0, x.im.getD i 0⟩ * ⟨y.re.getD i 0, y.im.getD i 0⟩
          + (if ali then ⟨o.re.getD i 0, o.im.getD i 0⟩ else ⟨z.re.getD i 0, z.im.getD i 0⟩) := by
  rcases Nat.eq_zero_or_pos n with rfl | hp
  · exact ⟨[], [], (split_empty 1 le_rfl ali x y z o h).2,
      fun V hV => (split_empty V hV ali x y z o h).1, rfl, rfl, fun i hi => by omega⟩
  · obtain ⟨re, im, h1, h2, h3⟩ := split_both ali x y z o h hp
    refine ⟨_, _, h2 hn, h1, by simp, by simp, fun i hi => ?_⟩
    obtain ⟨⟨a1, a2⟩, ⟨a3, a4⟩, ⟨a5, a6⟩, ⟨a7, a8⟩⟩ := h
    have g : ∀ l : List ℝ, l.length = n → l[i]? = some (l.getD i 0) := by
      intro l hl
      rw [List.getD, List.getElem?_eq_getElem (by omega)]; rfl
    obtain ⟨p, q⟩ := h3 i hi _ _ _ _ _ _ (g _ a1) (g _ a2) (g _ a3) (g _ a4)
      (g (if ali then o.re else z.re) (by cases ali <;> simp [a5, a7]))
      (g (if ali then o.im else z.im) (by cases ali <;> simp [a6, a8]))
    rw [getD_vec _ _ _ _ hi, getD_vec _ _ _ _ hi, p, q]
    apply Complex.ext
    · cases ali <;> simp
    · cases ali <;> simp

example : SameLength 3 (⟨[1, 2, 3], [4, 5, 6]⟩ : SplitV ℤ) ⟨[1, 0, 2], [1, 1, 1]⟩ ⟨[0, 0, 0], [0, 0, 0]⟩
      ⟨[1, 1, 1], [2, 2, 2]⟩ ∧
    splitMultiplyAddSimd 2 true (⟨[1, 2, 3], [4, 5, 6]⟩ : SplitV ℤ) ⟨[1, 0, 2], [1, 1, 1]⟩
      ⟨[0, 0, 0], [0, 0, 0]⟩ ⟨[1, 1, 1], [2, 2, 2], []⟩ = .ok ⟨[-2, -4, 1], [7, 4, 17], [0, 1, 2]⟩ := by
  refine ⟨by unfold SameLength; decide, by decide +kernel⟩

end Neo.Props
