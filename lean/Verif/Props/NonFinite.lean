import Verif.Lemmas.NonFinite
import Verif.Props.Fft
import Mathlib.Data.List.GetD

/-!
# C100: infinities and NaN in the transforms; C03 in any arithmetic; C93 for infinities
-/

namespace Neo.Props

open Neo Spec

/-- The selectable kernels over any number type. -/
def Kernel.runG {R : Type} [Add R] [Sub R] [Mul R] : Kernel → List R → List R → Res (List R)
  | .v1 => dit2V1
  | .v2 => dit2V2
  | .v3 => dit2V3
  | .v4 => dit2V4

private theorem kernelG_run {R : Type} [Add R] [Sub R] [Mul R] {b : ℕ} (hb : 1 ≤ b) (k : Kernel)
    (h2 : k = .v2 → ∀ x y : R, x * y = y * x) (h4 : k = .v4 → 2 ≤ b) (w f : ℕ → R) :
    k.runG (vec (2 ^ b) f) (vec (2 ^ (b - 1)) w) = .ok (vec (2 ^ b) (ditRun b w f b)) := by
  cases k
  · exact dit2V1_run hb w f
  · exact dit2V2_run (h2 rfl) hb w f
  · exact dit2V3_run hb w f
  · exact dit2V4_run (h4 rfl) w f

section any
variable {R C : Type} [Zero R] [Add R] [Mul R] [Zero C] [AddCommMagma C] [Sub C] [Mul C]

theorem kernelG_fn {A : Arith R C} {b : ℕ} (hb : 1 ≤ b) (k : Kernel)
    (h2 : k = .v2 → ∀ x y : C, x * y = y * x) (h4 : k = .v4 → 2 ≤ b) (x : ℕ → C) (dir : Direction) :
    (dit2PlanGOf A b).callWith k.runG (vec (2 ^ b) x) dir = .ok (vec (2 ^ b) (ditGn A b dir x)) := by
  unfold Dit2Plan.callWith dit2PlanGOf
  simp only [length_vec, decide_true, check_true, bind_ok, bitrevApply_digitRev, makeTwiddleLutRadix2G_eq A hb]
  cases dir
  · rw [if_pos rfl]; exact kernelG_run hb k h2 h4 _ _
  · rw [if_neg (by decide)]; exact kernelG_run hb k h2 h4 _ _

/-- **C03** in any arithmetic: the four kernels give bit-identical results whatever the operations do (rounding,
overflow, NaN), for every order from 2 and, v4 excepted, for order 1.  The kernel v2 writes its products the other way
round, so it needs a multiplication that does not depend on the order of the factors. -/
theorem C03_any_arithmetic (A : Arith R C) (order : ℕ) (h1 : 1 ≤ order) (h2 : order ≤ 27) (k k' : Kernel)
    (hk : k = .v4 → 2 ≤ order) (hk' : k' = .v4 → 2 ≤ order)
    (hm : k = .v2 ∨ k' = .v2 → ∀ x y : C, x * y = y * x) :
    ∃ p, Dit2Plan.makeG A order = .ok p ∧ ∀ (x : List C) (dir : Direction), x.length = 2 ^ order →
      ∃ y, y.length = 2 ^ order ∧ p.callWith k.runG x dir = .ok y ∧ p.callWith k'.runG x dir = .ok y := by
  refine ⟨_, dit2Plan_makeG_eq A h2, fun x dir hx => ⟨vec (2 ^ order) (ditGn A order dir (fun i => x.getD i 0)), ?_, ?_, ?_⟩⟩
  · exact length_vec ..
  · conv_lhs => rw [list_eq_vec 0 hx]
    exact kernelG_fn h1 k (fun e => hm (Or.inl e)) hk _ dir
  · conv_lhs => rw [list_eq_vec 0 hx]
    exact kernelG_fn h1 k' (fun e => hm (Or.inr e)) hk' _ dir

end any

section ieee
variable {f : Fmt}

/-- **C03** for IEEE arithmetic: all four kernels agree bit for bit (v4 from order 2). -/
theorem C03_bit_exact (tw : ℕ → ℕ → Direction → IC f) (order : ℕ) (h1 : 1 ≤ order) (h2 : order ≤ 27) (k k' : Kernel)
    (hk : k = .v4 → 2 ≤ order) (hk' : k' = .v4 → 2 ≤ order) :
    ∃ p, Dit2Plan.makeG (ieeeArith f tw) order = .ok p ∧ ∀ (x : List (IC f)) (dir : Direction), x.length = 2 ^ order →
      ∃ y, y.length = 2 ^ order ∧ p.callWith k.runG x dir = .ok y ∧ p.callWith k'.runG x dir = .ok y :=
  C03_any_arithmetic (ieeeArith f tw) order h1 h2 k k' hk hk' fun _ => IC.mul_comm'

private theorem mem_vec {α : Type} {n : ℕ} {g : ℕ → α} {u : α} (h : u ∈ vec n g) : ∃ i < n, g i = u := by
  obtain ⟨i, hi, rfl⟩ := List.mem_map.1 h
  exact ⟨i, List.mem_range.1 hi, rfl⟩

private theorem idx {α : Type} (d : α) {l : List α} {z : α} (h : z ∈ l) : ∃ i < l.length, l.getD i d = z := by
  obtain ⟨i, hi, e⟩ := List.getElem_of_mem h
  exact ⟨i, hi, by rw [List.getD_eq_getElem _ _ hi, e]⟩

/-- **C100** (complex transform).  In IEEE arithmetic of any binary format, with any twiddle tables, in both directions
and with every kernel: an infinity or NaN in the real part of any sample leaves no finite real part in the result, and
the same for imaginary parts; in a sample other than `0` and `N/2` either part leaves nothing finite at all; a NaN
part leaves only NaN there. -/
theorem C100_fft (tw : ℕ → ℕ → Direction → IC f) (order : ℕ) (h1 : 1 ≤ order) (h2 : order ≤ 27) (k : Kernel)
    (hk : k = .v4 → 2 ≤ order) :
    ∃ p, Dit2Plan.makeG (ieeeArith f tw) order = .ok p ∧ ∀ (x : List (IC f)) (dir : Direction), x.length = 2 ^ order →
      ∃ y, p.callWith k.runG x dir = .ok y ∧ y.length = 2 ^ order ∧
        (∀ z ∈ x, z.re.NonFinite → ∀ u ∈ y, u.re.NonFinite) ∧
        (∀ z ∈ x, z.im.NonFinite → ∀ u ∈ y, u.im.NonFinite) ∧
        (∀ i < 2 ^ order, i ≠ 0 → i ≠ 2 ^ order / 2 → (x.getD i 0).re.NonFinite ∨ (x.getD i 0).im.NonFinite →
          ∀ u ∈ y, u.re.NonFinite ∧ u.im.NonFinite) ∧
        (∀ z ∈ x, z.re = .nan → ∀ u ∈ y, u.re = .nan) ∧
        (∀ z ∈ x, z.im = .nan → ∀ u ∈ y, u.im = .nan) := by
  refine ⟨_, dit2Plan_makeG_eq _ h2, fun x dir hx =>
    ⟨vec (2 ^ order) (ditGn (ieeeArith f tw) order dir (fun i => x.getD i 0)), ?_, length_vec .., ?_, ?_, ?_, ?_, ?_⟩⟩
  · conv_lhs => rw [list_eq_vec 0 hx]
    exact kernelG_fn h1 k (fun _ => IC.mul_comm') hk _ dir
  · intro z hz hn u hu
    obtain ⟨j, hj, rfl⟩ := mem_vec hu
    obtain ⟨i, hi, rfl⟩ := idx 0 hz
    exact ditGn_re dir _ (by omega) hn hj
  · intro z hz hn u hu
    obtain ⟨j, hj, rfl⟩ := mem_vec hu
    obtain ⟨i, hi, rfl⟩ := idx 0 hz
    exact ditGn_im dir _ (by omega) hn hj
  · intro i hi hi0 hi1 hn u hu
    obtain ⟨j, hj, rfl⟩ := mem_vec hu
    exact ditGn_inner h1 dir (fun i => x.getD i 0) hi hi0 hi1 hn hj
  · intro z hz hn u hu
    obtain ⟨j, hj, rfl⟩ := mem_vec hu
    obtain ⟨i, hi, rfl⟩ := idx 0 hz
    exact ditGn_bad (A := ieeeArith f tw) IC.reNan_absorbing dir (fun i => x.getD i 0) (by omega) hn hj
  · intro z hz hn u hu
    obtain ⟨j, hj, rfl⟩ := mem_vec hu
    obtain ⟨i, hi, rfl⟩ := idx 0 hz
    exact ditGn_bad (A := ieeeArith f tw) IC.imNan_absorbing dir (fun i => x.getD i 0) (by omega) hn hj

/-- **C100** (complex transform, the samples `0` and `N/2`).  The exception of `C100_fft` is real: the imaginary parts
of the result do not depend on the real parts of the samples `0` and `N/2` at all, nor the real parts of the result on
the imaginary parts of these samples.  Both bit for bit. -/
theorem C100_fft_edge (tw : ℕ → ℕ → Direction → IC f) (order : ℕ) (h1 : 1 ≤ order) (h2 : order ≤ 27) (k : Kernel)
    (hk : k = .v4 → 2 ≤ order) :
    ∃ p, Dit2Plan.makeG (ieeeArith f tw) order = .ok p ∧ ∀ (x x' : List (IC f)) (dir : Direction),
      x.length = 2 ^ order → x'.length = 2 ^ order →
      (∀ i < 2 ^ order, i ≠ 0 → i ≠ 2 ^ order / 2 → x.getD i 0 = x'.getD i 0) →
      ∃ y y', p.callWith k.runG x dir = .ok y ∧ p.callWith k.runG x' dir = .ok y' ∧
        (x.map IC.im = x'.map IC.im → y.map IC.im = y'.map IC.im) ∧
        (x.map IC.re = x'.map IC.re → y.map IC.re = y'.map IC.re) := by
  refine ⟨_, dit2Plan_makeG_eq _ h2, fun x x' dir hx hx' h =>
    ⟨vec (2 ^ order) (ditGn (ieeeArith f tw) order dir (fun i => x.getD i 0)),
      vec (2 ^ order) (ditGn (ieeeArith f tw) order dir (fun i => x'.getD i 0)), ?_, ?_, ?_, ?_⟩⟩
  · conv_lhs => rw [list_eq_vec 0 hx]
    exact kernelG_fn h1 k (fun _ => IC.mul_comm') hk _ dir
  · conv_lhs => rw [list_eq_vec 0 hx']
    exact kernelG_fn h1 k (fun _ => IC.mul_comm') hk _ dir
  · intro he
    rw [map_vec, map_vec]
    refine vec_ext fun j hj => ditGn_edge (P := IC.im) IC.im_add_congr IC.im_sub_congr h1 dir _ _ ?_ h hj
    rw [list_eq_vec 0 hx, list_eq_vec 0 hx', map_vec, map_vec] at he
    exact fun i hi => vec_inj.1 he i hi
  · intro he
    rw [map_vec, map_vec]
    refine vec_ext fun j hj => ditGn_edge (P := IC.re) IC.re_add_congr IC.re_sub_congr h1 dir _ _ ?_ h hj
    rw [list_eq_vec 0 hx, list_eq_vec 0 hx', map_vec, map_vec] at he
    exact fun i hi => vec_inj.1 he i hi

/-- **C100** (real transform).  For a real-input plan in any state of its scratch buffer: one infinity or NaN anywhere
in the samples leaves no finite real part in the spectrum, and, anywhere but at `0` and `N/2`, no finite imaginary part
either. -/
theorem C100_rfft (tw : ℕ → ℕ → Direction → IC f) (order : ℕ) (h1 : 1 ≤ order) (h2 : order ≤ 27) :
    ∃ p0, RfftPlanG.make (ieeeArith f tw) order = .ok p0 ∧ ∀ (buf : List (IC f)) (x : List (IR f)) (out : List (IC f)),
      buf.length = 2 ^ order → x.length = 2 ^ order → 2 ^ order / 2 + 1 ≤ out.length →
      ∃ p' y, ({ p0 with buffer := buf } : RfftPlanG (ieeeArith f tw)).rfft x out = .ok (p', y) ∧
        y.length = out.length ∧
        (∀ z ∈ x, z.val.NonFinite → ∀ k ≤ 2 ^ order / 2, (y.getD k 0).re.NonFinite) ∧
        (∀ i < 2 ^ order, i ≠ 0 → i ≠ 2 ^ order / 2 → (x.getD i 0).val.NonFinite →
          ∀ k ≤ 2 ^ order / 2, (y.getD k 0).im.NonFinite) ∧
        (∀ z ∈ x, z.val = .nan → ∀ k ≤ 2 ^ order / 2, (y.getD k 0).re = .nan) := by
  refine ⟨_, rfftPlanG_make_eq h2, fun buf x out hb hx ho => ?_⟩
  obtain ⟨f', e⟩ := rfftG_fn (A := ieeeArith f tw) h1 ho (fun i => buf.getD i 0) (fun i => x.getD i 0)
    (fun i => out.getD i 0)
  have hN : 2 ^ order / 2 < 2 ^ order := Nat.div_lt_self (by positivity) (by norm_num)
  rw [← list_eq_vec 0 hx, ← list_eq_vec 0 (rfl : out.length = out.length)] at e
  have hp : rfftPlanGOf (ieeeArith f tw) order (fun i => buf.getD i 0)
      = { rfftPlanGOf (ieeeArith f tw) order (fun _ => 0) with buffer := buf } := by
    unfold rfftPlanGOf
    rw [← list_eq_vec 0 hb]
  rw [hp] at e
  refine ⟨_, _, e, ?_, ?_, ?_, ?_⟩
  · exact length_vec ..
  · intro z hz hn k hk
    rw [getD_vec _ _ _ _ (by omega), if_pos (by omega)]
    obtain ⟨i, hi, rfl⟩ := idx 0 hz
    exact ditGn_re .forward (fun i => (ieeeArith f tw).ofReal (x.getD i 0)) (i0 := i) (by omega) hn (by omega)
  · intro i hi hi0 hi1 hn k hk
    rw [getD_vec _ _ _ _ (by omega), if_pos (by omega)]
    exact (ditGn_inner h1 .forward (fun i => (ieeeArith f tw).ofReal (x.getD i 0)) hi hi0 hi1 (Or.inl hn) (by omega)).2
  · intro z hz hn k hk
    rw [getD_vec _ _ _ _ (by omega), if_pos (by omega)]
    obtain ⟨i, hi, rfl⟩ := idx 0 hz
    exact ditGn_bad (A := ieeeArith f tw) IC.reNan_absorbing .forward (fun i => (ieeeArith f tw).ofReal (x.getD i 0))
      (i0 := i) (by omega) hn (by omega)

/-- **C100** (inverse real transform).  An infinity or NaN in any bin leaves no finite sample, except in the imaginary
parts of the bins `0` and `N/2`: these are ignored, bit for bit. -/
theorem C100_irfft (tw : ℕ → ℕ → Direction → IC f) (order : ℕ) (h1 : 1 ≤ order) (h2 : order ≤ 27) :
    ∃ p0, RfftPlanG.make (ieeeArith f tw) order = .ok p0 ∧ ∀ (buf c : List (IC f)) (out : List (IR f)),
      buf.length = 2 ^ order → 2 ^ order / 2 + 1 ≤ c.length → c.length ≤ 2 ^ order → 2 ^ order ≤ out.length →
      ∃ p' y, ({ p0 with buffer := buf } : RfftPlanG (ieeeArith f tw)).irfft c out = .ok (p', y) ∧
        y.length = out.length ∧
        (∀ k ≤ 2 ^ order / 2, (c.getD k 0).re.NonFinite → ∀ n < 2 ^ order, (y.getD n 0).val.NonFinite) ∧
        (∀ k < 2 ^ order / 2, k ≠ 0 → (c.getD k 0).im.NonFinite → ∀ n < 2 ^ order, (y.getD n 0).val.NonFinite) ∧
        ∀ (buf' c' : List (IC f)), buf'.length = 2 ^ order → c'.length = c.length →
          (∀ k < 2 ^ order / 2, k ≠ 0 → c.getD k 0 = c'.getD k 0) → (c.getD 0 0).re = (c'.getD 0 0).re →
          (c.getD (2 ^ order / 2) 0).re = (c'.getD (2 ^ order / 2) 0).re →
          ∃ p'', ({ p0 with buffer := buf' } : RfftPlanG (ieeeArith f tw)).irfft c' out = .ok (p'', y) := by
  refine ⟨_, rfftPlanG_make_eq h2, fun buf c out hb hc hc2 ho => ?_⟩
  have call : ∀ (buf c : List (IC f)), buf.length = 2 ^ order → 2 ^ order / 2 + 1 ≤ c.length → c.length ≤ 2 ^ order →
      ∃ p', ({ rfftPlanGOf (ieeeArith f tw) order (fun _ => 0) with buffer := buf } :
        RfftPlanG (ieeeArith f tw)).irfft c out = .ok (p', vec out.length (fun n => if n < 2 ^ order
          then irfftGn (ieeeArith f tw) order (fun i => c.getD i 0) n else out.getD n 0)) := by
    intro buf c hb hc hc2
    obtain ⟨f', e⟩ := irfftG_fn (A := ieeeArith f tw) h1 hc hc2 ho (fun i => buf.getD i 0) (fun i => c.getD i 0)
      (fun i => out.getD i 0)
    rw [← list_eq_vec 0 (rfl : c.length = c.length), ← list_eq_vec 0 (rfl : out.length = out.length)] at e
    have hp : rfftPlanGOf (ieeeArith f tw) order (fun i => buf.getD i 0)
        = { rfftPlanGOf (ieeeArith f tw) order (fun _ => 0) with buffer := buf } := by
      unfold rfftPlanGOf
      rw [← list_eq_vec 0 hb]
    rw [hp] at e
    exact ⟨_, e⟩
  have hN : 2 ^ order / 2 < 2 ^ order := Nat.div_lt_self (by positivity) (by norm_num)
  have hev : 2 ^ order / 2 * 2 = 2 ^ order := by
    obtain ⟨d, rfl⟩ : ∃ d, order = d + 1 := ⟨order - 1, by omega⟩
    rw [pow_succ]; omega
  obtain ⟨p', e⟩ := call buf c hb hc hc2
  refine ⟨p', _, e, length_vec .., ?_, ?_, ?_⟩
  · intro k hk hn n hn2
    rw [getD_vec _ _ _ _ (by omega), if_pos hn2]
    refine ditGn_re .backward _ (i0 := k) (by omega) ?_ hn2
    unfold hermG
    rw [if_pos hk]
    exact hn
  · intro k hk hk0 hn n hn2
    rw [getD_vec _ _ _ _ (by omega), if_pos hn2]
    refine (ditGn_inner h1 .backward _ (i0 := k) (by omega) hk0 (by omega) ?_ hn2).1
    unfold hermG
    rw [if_pos (by omega)]
    exact Or.inr hn
  · intro buf' c' hb' hc' hin he0 he1
    obtain ⟨p'', e'⟩ := call buf' c' hb' (by omega) (by omega)
    refine ⟨p'', ?_⟩
    rw [e']
    congr 2
    refine vec_ext fun n _ => ?_
    split
    · rename_i hn
      have hc : ∀ k ≤ 2 ^ order / 2, (c'.getD k 0).re = (c.getD k 0).re := by
        intro k hk
        by_cases k0 : k = 0
        · rw [k0, he0]
        · by_cases k1 : k = 2 ^ order / 2
          · rw [k1, he1]
          · rw [hin k (by omega) k0]
      refine congrArg IR.mk (ditGn_edge (P := IC.re) IC.re_add_congr IC.re_sub_congr h1 .backward _ _ ?_ ?_ hn)
      · intro i hi
        unfold hermG
        split
        · exact hc i ‹_›
        · exact hc (2 ^ order - i) (by omega)
      · intro i hi i0 i1
        unfold hermG
        split
        · exact (hin i (by omega) i0).symm
        · beta_reduce
          rw [hin (2 ^ order - i) (by omega) (by omega)]
    · rfl

/-! ## The convolvers -/

private theorem nonFinite_index {B : ℕ} {blocks : List (List (IR f))} (hb : ∀ b ∈ blocks, b.length = B) {i : ℕ}
    (hi : i < blocks.length) {z : IR f} (h : z ∈ blocks.getD i []) :
    ∃ i0 < B, blocks.flatten.getD (i * B + i0) 0 = z := by
  obtain ⟨i0, h0, e⟩ := List.getElem_of_mem h
  have hl : (blocks.getD i []).length = B := by
    rw [List.getD_eq_getElem _ _ hi]
    exact hb _ (List.getElem_mem _)
  refine ⟨i0, by omega, ?_⟩
  rw [flatten_getD 0 hb hi (by omega), List.getD_eq_getElem _ _ h0, e]

/-- **C93** (overlap-add, infinities).  An infinity or NaN in input block `i` leaves no finite sample in the output
blocks `i, …, i + N`, whatever the filter; an infinity or NaN in any coefficient of the filter leaves no finite sample
in any output block, whatever the input, silence included. -/
theorem C93_nonfinite_upola (tw : ℕ → ℕ → Direction → IC f) {a : ℕ} (ha : 1 ≤ a) (ha2 : a ≤ 26) {v : MatView}
    {data : List (IC f)} (hv : v.InRange data.length) (hr : 1 ≤ v.rows) (hc : v.cols = 2 ^ a + 1)
    (blocks : List (List (IR f))) (hb : ∀ b ∈ blocks, b.length = 2 ^ a) :
    ∃ outs, upolaRunG (ieeeArith f tw) v data blocks = .ok outs ∧
      outs.map List.length = blocks.map List.length ∧
      (∀ i < blocks.length, ∀ z ∈ blocks.getD i [], z.val.NonFinite →
        ∀ t, i ≤ t → t ≤ i + v.rows → ∀ y ∈ outs.getD t [], y.val.NonFinite) ∧
      (∀ r < v.rows, ∀ k < v.cols, (data.getD (v.off + r * v.s0 + k * v.s1) 0).re.NonFinite ∨
          (data.getD (v.off + r * v.s0 + k * v.s1) 0).im.NonFinite →
        ∀ b ∈ outs, ∀ y ∈ b, y.val.NonFinite) := by
  refine ⟨_, upolaRunG_eq ha ha2 hv hr hc blocks hb, ?_, ?_, ?_⟩
  · have h := blocks_eq_vec (0 : IR f) blocks hb
    rw [vec_const_len]
    conv_rhs => rw [h]
    rw [vec_const_len]
  · intro i hi z hz hn t h1 h2 y hy
    obtain ⟨i0, h0, rfl⟩ := nonFinite_index hb hi hz
    by_cases ht : t < blocks.length
    · rw [getD_vec _ _ _ _ ht] at hy
      obtain ⟨n, hn', rfl⟩ := mem_vec hy
      exact ola_nonFinite _ _ hr h0 hn h1 h2 hn'
    · rw [List.getD_eq_default _ _ (by rw [length_vec]; omega)] at hy
      exact absurd hy List.not_mem_nil
  · intro r hr' k hk hn b hb' y hy
    obtain ⟨t, ht, rfl⟩ := mem_vec hb'
    obtain ⟨n, hn', rfl⟩ := mem_vec hy
    exact ola_filter (s := r) (k := k) (matAt v data) _ hr' (by omega) hn t hn'

/-- **C93** (overlap-save, infinities).  The same for `upols_convolver`. -/
theorem C93_nonfinite_upols (tw : ℕ → ℕ → Direction → IC f) {a : ℕ} (ha : 1 ≤ a) (ha2 : a ≤ 26) {v : MatView}
    {data : List (IC f)} (hv : v.InRange data.length) (hr : 1 ≤ v.rows) (hc : v.cols = 2 ^ a + 1)
    (blocks : List (List (IR f))) (hb : ∀ b ∈ blocks, b.length = 2 ^ a) :
    ∃ outs, upolsRunG (ieeeArith f tw) v data blocks = .ok outs ∧
      outs.map List.length = blocks.map List.length ∧
      (∀ i < blocks.length, ∀ z ∈ blocks.getD i [], z.val.NonFinite →
        ∀ t, i ≤ t → t ≤ i + v.rows → ∀ y ∈ outs.getD t [], y.val.NonFinite) ∧
      (∀ r < v.rows, ∀ k < v.cols, (data.getD (v.off + r * v.s0 + k * v.s1) 0).re.NonFinite ∨
          (data.getD (v.off + r * v.s0 + k * v.s1) 0).im.NonFinite →
        ∀ b ∈ outs, ∀ y ∈ b, y.val.NonFinite) := by
  refine ⟨_, upolsRunG_eq ha ha2 hv hr hc blocks hb, ?_, ?_, ?_⟩
  · have h := blocks_eq_vec (0 : IR f) blocks hb
    rw [vec_const_len]
    conv_rhs => rw [h]
    rw [vec_const_len]
  · intro i hi z hz hn t h1 h2 y hy
    obtain ⟨i0, h0, rfl⟩ := nonFinite_index hb hi hz
    by_cases ht : t < blocks.length
    · rw [getD_vec _ _ _ _ ht] at hy
      obtain ⟨n, hn', rfl⟩ := mem_vec hy
      exact ols_nonFinite _ _ hr h0 hn h1 h2 hn'
    · rw [List.getD_eq_default _ _ (by rw [length_vec]; omega)] at hy
      exact absurd hy List.not_mem_nil
  · intro r hr' k hk hn b hb' y hy
    obtain ⟨t, ht, rfl⟩ := mem_vec hb'
    obtain ⟨n, hn', rfl⟩ := mem_vec hy
    exact ols_filter (s := r) (k := k) (matAt v data) _ hr' (by omega) hn t hn'

/-- One infinite sample among eight: index 3 is neither `0` nor `N/2`. -/
example : ([0, 0, 0, ⟨.inf false, .fin 0⟩, 0, 0, 0, 0] : List (IC f)).length = 2 ^ 3 ∧ (3 : ℕ) ≠ 0 ∧ (3 : ℕ) ≠ 2 ^ 3 / 2 ∧
    ((([0, 0, 0, ⟨.inf false, .fin 0⟩, 0, 0, 0, 0] : List (IC f))).getD 3 0).re.NonFinite :=
  ⟨rfl, by decide, by decide, FVal.nonFinite_inf false⟩

/-- A filter of one partition with an infinite coefficient, and a block of silence. -/
example : ({ rows := 1, cols := 3, off := 0, s0 := 3, s1 := 1 } : MatView).InRange
      ([0, ⟨.fin 0, .inf true⟩, 0] : List (IC f)).length ∧
    (([0, ⟨.fin 0, .inf true⟩, 0] : List (IC f)).getD (0 + 0 * 3 + 1 * 1) 0).im.NonFinite ∧
    (∀ b ∈ [[(0 : IR f), 0]], b.length = 2 ^ 1) := by
  refine ⟨?_, FVal.nonFinite_inf true, ?_⟩
  · intro r hr c hc
    have h1 : r < 1 := hr
    have h2 : c < 3 := hc
    show 0 + r * 3 + c * 1 < 3
    omega
  · intro b hb
    rw [List.mem_singleton.1 hb]
    rfl

end ieee

end Neo.Props
