import Verif.Lemmas.Root
import Verif.Lemmas.BitRevInterleaved
import Verif.Lemmas.Out
import Verif.Lemmas.Algo

/-!
# Properties of the default FFT plan: C01 – C07, C56
-/

namespace Neo.Props

open Finset

/-! ## C01 -/

/-- The selectable kernels of `c2c_dit2_plan`. -/
inductive Kernel where
  | v1 | v2 | v3 | v4
  deriving DecidableEq

/-- Call operator of the plan with a chosen kernel. -/
noncomputable def Kernel.run : Kernel → List ℂ → List ℂ → Res (List ℂ)
  | .v1 => dit2V1
  | .v2 => dit2V2
  | .v3 => dit2V3
  | .v4 => dit2V4

theorem kernel_ok {b : ℕ} (hb : 1 ≤ b) (k : Kernel) (hk : k = .v4 → 2 ≤ b) : KernelOk b k.run := by
  intro ω X h
  cases k
  · exact dit2V1_vec hb h X
  · exact dit2V2_vec hb h X
  · exact dit2V3_vec hb h X
  · exact dit2V4_vec (hk rfl) h X

/-- **C01**: for every supported order ≥ 1 the plan can be built and `fft`/`ifft` leave exactly the
(unnormalised) forward/backward DFT in the buffer; in particular nothing faults. -/
theorem C01_fft_is_dft (order : ℕ) (h1 : 1 ≤ order) (h2 : order ≤ 27) :
    ∃ p, Dit2Plan.make order = .ok p ∧ p.size = 2 ^ order ∧
      ∀ x : List ℂ, x.length = 2 ^ order →
        Produces (fft p x) (2 ^ order) (Spec.dft (2 ^ order) (fun n => x.getD n 0)) ∧
        Produces (ifft p x) (2 ^ order) (Spec.idft (2 ^ order) (fun n => x.getD n 0)) := by
  refine ⟨_, dit2Plan_make_eq h2, rfl, fun x hx => ?_⟩
  have e := list_eq_vec 0 hx
  constructor
  · rw [produces_iff]
    conv_lhs => rw [e]
    exact dit2_call h1 _ .forward
  · rw [produces_iff]
    conv_lhs => rw [e]
    exact dit2_call h1 _ .backward

/-- **C01**, for every selectable kernel (v4 needs order ≥ 2). -/
theorem C01_every_kernel (order : ℕ) (h1 : 1 ≤ order) (h2 : order ≤ 27) (k : Kernel)
    (hk : k = .v4 → 2 ≤ order) :
    ∃ p, Dit2Plan.make order = .ok p ∧
      ∀ x : List ℂ, x.length = 2 ^ order →
        Produces (p.callWith k.run x .forward) (2 ^ order)
          (Spec.dft (2 ^ order) (fun n => x.getD n 0)) ∧
        Produces (p.callWith k.run x .backward) (2 ^ order)
          (Spec.idft (2 ^ order) (fun n => x.getD n 0)) := by
  refine ⟨_, dit2Plan_make_eq h2, fun x hx => ?_⟩
  have e := list_eq_vec 0 hx
  have hok := kernel_ok h1 k hk
  constructor
  · rw [produces_iff]
    conv_lhs => rw [e]
    exact dit2_callWith h1 hok _ .forward
  · rw [produces_iff]
    conv_lhs => rw [e]
    exact dit2_callWith h1 hok _ .backward

/-- The out-of-place overloads give the same result and report mismatched buffers. -/
theorem C01_out_of_place (p : Dit2Plan) (x out : List ℂ) :
    (x.length = out.length → fftOut p x out = fft p x ∧ ifftOut p x out = ifft p x) ∧
    (x.length ≠ out.length → fftOut p x out = .error .assertion ∧
      ifftOut p x out = .error .assertion) := by
  constructor
  · intro h
    have hc : copyVec x out = .ok x := copyVec_eq h
    unfold fftOut ifftOut
    rw [hc]; exact ⟨rfl, rfl⟩
  · intro h
    have hc : copyVec x out = .error .assertion := copyVec_bad h
    unfold fftOut ifftOut
    rw [hc]; exact ⟨rfl, rfl⟩

/-- Hypotheses of C01 are met, e.g. by a length-8 ramp. -/
example : ∃ x : List ℂ, x.length = 2 ^ 3 ∧ (1 : ℕ) ≤ 3 ∧ 3 ≤ 27 :=
  ⟨[1, 2, 3, 4, 5, 6, 7, 8], rfl, by norm_num, by norm_num⟩

/-- The kernels really compute something: a length-4 transform over `ZMod 17` with `ω = 4`
(`4^2 = -1`), on bit-reversed input. -/
example : dit2V3 [(1 : ZMod 17), 3, 2, 4] [1, 4] = .ok [10, 7, 15, 6] := by decide +kernel

/-! ## C02 -/

/-- **C02**: `ifft ∘ fft` and `fft ∘ ifft` are multiplication by `N`. -/
theorem C02_roundtrip (order : ℕ) (h1 : 1 ≤ order) (h2 : order ≤ 27) :
    ∃ p, Dit2Plan.make order = .ok p ∧ ∀ x : List ℂ, x.length = 2 ^ order →
      (∃ y, fft p x = .ok y ∧ ifft p y = .ok (x.map (fun v => (2 : ℂ) ^ order * v))) ∧
      (∃ y, ifft p x = .ok y ∧ fft p y = .ok (x.map (fun v => (2 : ℂ) ^ order * v))) := by
  refine ⟨_, dit2Plan_make_eq h2, fun x hx => ?_⟩
  have e := list_eq_vec 0 hx
  have hm : x.map (fun v => (2 : ℂ) ^ order * v)
      = vec (2 ^ order) (fun i => (2 : ℂ) ^ order * x.getD i 0) := by
    conv_lhs => rw [e]
    rw [map_vec]
  constructor
  · refine ⟨vec (2 ^ order) (specDft .forward (2 ^ order) (fun n => x.getD n 0)), ?_, ?_⟩
    · conv_lhs => rw [e]
      exact dit2_call h1 _ .forward
    · unfold ifft
      rw [dit2_call h1, hm]
      congr 1
      apply vec_ext
      intro i hi
      have : specDft .backward (2 ^ order) (specDft .forward (2 ^ order) (fun n => x.getD n 0)) i
          = Spec.idft (2 ^ order) (Spec.dft (2 ^ order) (fun n => x.getD n 0)) i := rfl
      rw [this, idft_dft _ hi]
      push_cast; ring
  · refine ⟨vec (2 ^ order) (specDft .backward (2 ^ order) (fun n => x.getD n 0)), ?_, ?_⟩
    · conv_lhs => rw [e]
      exact dit2_call h1 _ .backward
    · unfold fft
      rw [dit2_call h1, hm]
      congr 1
      apply vec_ext
      intro i hi
      have : specDft .forward (2 ^ order) (specDft .backward (2 ^ order) (fun n => x.getD n 0)) i
          = Spec.dft (2 ^ order) (Spec.idft (2 ^ order) (fun n => x.getD n 0)) i := rfl
      rw [this, dft_idft _ hi]
      push_cast; ring

/-- **C02**, consequence: `fft` loses no information. -/
theorem C02_injective (order : ℕ) (h1 : 1 ≤ order) (h2 : order ≤ 27) :
    ∃ p, Dit2Plan.make order = .ok p ∧ ∀ x y : List ℂ, x.length = 2 ^ order →
      y.length = 2 ^ order → fft p x = fft p y → x = y := by
  obtain ⟨p, hp, h⟩ := C02_roundtrip order h1 h2
  refine ⟨p, hp, fun x y hx hy hxy => ?_⟩
  obtain ⟨⟨a, ha, ha'⟩, _⟩ := h x hx
  obtain ⟨⟨b, hb, hb'⟩, _⟩ := h y hy
  have hab : a = b := by
    rw [ha, hb] at hxy; exact Except.ok.inj hxy
  rw [hab, hb'] at ha'
  have := Except.ok.inj ha'
  have hinj : Function.Injective (fun v : ℂ => (2 : ℂ) ^ order * v) := by
    intro u v huv
    exact mul_left_cancel₀ (pow_ne_zero _ two_ne_zero) huv
  exact (List.map_injective_iff.2 hinj this).symm

/-! ## C03 -/

/-- **C03**, the part that holds: for every order ≥ 2 all four kernels give the same result, and for
order 1 the kernels v1, v2 and v3 do.  Missing: kernel v4 at order 1 (see below: it is wrong). -/
theorem C03_kernels_agree_partial (order : ℕ) (h1 : 1 ≤ order) (h2 : order ≤ 27) (k k' : Kernel)
    (hk : k = .v4 → 2 ≤ order) (hk' : k' = .v4 → 2 ≤ order) :
    ∃ p, Dit2Plan.make order = .ok p ∧ ∀ (x : List ℂ) (dir : Direction), x.length = 2 ^ order →
      p.callWith k.run x dir = p.callWith k'.run x dir := by
  refine ⟨_, dit2Plan_make_eq h2, fun x dir hx => ?_⟩
  rw [list_eq_vec 0 hx, dit2_callWith h1 (kernel_ok h1 k hk), dit2_callWith h1 (kernel_ok h1 k' hk')]

example : (Kernel.v4 = .v4 → 2 ≤ 2) ∧ (Kernel.v1 = .v4 → 2 ≤ 2) := by simp

/-- At order 1 kernel v4 applies the only butterfly twice: it multiplies by 2 instead of
transforming. -/
theorem C03_v4_order_one (a b : ℂ) :
    ∃ p, Dit2Plan.make 1 = .ok p ∧
      p.callWith Kernel.v4.run [a, b] .forward = .ok [2 * a, 2 * b] ∧
      p.callWith Kernel.v3.run [a, b] .forward = .ok [a + b, a - b] := by
  refine ⟨_, dit2Plan_make_eq (by norm_num), ?_, ?_⟩
  · unfold Dit2Plan.callWith dit2PlanOf
    simp only [makeTwiddleLutRadix2_eq le_rfl]
    have h0 : bitrevApply (vec (2 ^ 1) (digitRev 2 1)) [a, b] = .ok [a, b] := by
      have : [a, b] = vec (2 ^ 1) (fun i => [a, b].getD i 0) := list_eq_vec 0 rfl
      rw [this, bitrevApply_digitRev]
      rfl
    have ht : twVec 1 (root (2 ^ 1) .forward) = [1] := by
      simp [twVec, vec, List.range_succ]
    rw [h0, ht]
    have hl : bitLog2 2 = 1 := bitLog2_two_pow 1
    simp [Kernel.run, dit2V4, dit2Stage0, forStep, forN, butterfly0, butterflyTw, rd, wr, hl,
      forR]
    constructor <;> ring
  · unfold Dit2Plan.callWith dit2PlanOf
    simp only [makeTwiddleLutRadix2_eq le_rfl]
    have h0 : bitrevApply (vec (2 ^ 1) (digitRev 2 1)) [a, b] = .ok [a, b] := by
      have : [a, b] = vec (2 ^ 1) (fun i => [a, b].getD i 0) := list_eq_vec 0 rfl
      rw [this, bitrevApply_digitRev]
      rfl
    rw [h0]
    have hl : bitLog2 2 = 1 := bitLog2_two_pow 1
    simp [Kernel.run, dit2V3, dit2Stage0, forStep, forN, butterfly0, rd, wr, hl,
      forR]

/-- **C03** is false as stated: the kernels v3 and v4 disagree at order 1. -/
theorem C03_false_at_order_one : ∃ p, Dit2Plan.make 1 = .ok p ∧ ∃ x : List ℂ, x.length = 2 ^ 1 ∧
    p.callWith Kernel.v4.run x .forward ≠ p.callWith Kernel.v3.run x .forward := by
  obtain ⟨p, hp, h4, h3⟩ := C03_v4_order_one 1 0
  refine ⟨p, hp, [1, 0], rfl, ?_⟩
  rw [h4, h3]
  intro h
  have := Except.ok.inj h
  simp at this

/-! ## C04 -/

/-- **C04** is false of the code: every kernel run by an order-0 plan on a one-element buffer reads
`x[1]`, whatever the element is. -/
theorem C04_order_zero_out_of_bounds (k : Kernel) (a : ℂ) (dir : Direction) :
    ∃ p, Dit2Plan.make 0 = .ok p ∧ p.size = 1 ∧
      p.callWith k.run [a] dir = .error .oob := by
  refine ⟨_, dit2Plan_make_eq (by norm_num), rfl, ?_⟩
  unfold Dit2Plan.callWith dit2PlanOf
  have h0 : bitrevApply (vec (2 ^ 0) (digitRev 2 0)) [a] = .ok [a] := by
    have : [a] = vec (2 ^ 0) (fun i => [a].getD i 0) := list_eq_vec 0 rfl
    rw [this, bitrevApply_digitRev]
    rfl
  have hs : dit2Stage0 [a] = .error .oob := by
    simp [dit2Stage0, forStep, forN, butterfly0, rd]
  simp only [h0, bind_ok]
  cases k <;> cases dir <;>
    simp [Kernel.run, dit2V1, dit2V2, dit2V3, dit2V4, hs]

/-- **C04**, the part that holds: the reordering step of an order-0 plan is the identity, and an
order-0 plan can be built.  Missing: the kernel call (refuted above). -/
theorem C04_reorder_partial (a : ℂ) : ∃ p, Dit2Plan.make 0 = .ok p ∧
    bitrevApply p.reorder [a] = .ok [a] := by
  refine ⟨_, dit2Plan_make_eq (by norm_num), ?_⟩
  have : [a] = vec (2 ^ 0) (fun i => [a].getD i 0) := list_eq_vec 0 rfl
  unfold dit2PlanOf
  rw [this, bitrevApply_digitRev]
  rfl

/-! ## C05 -/

/-- **C05**: construction throws exactly for unsupported orders; otherwise the observers agree with
the requested order. -/
theorem C05_plan_orders (order : ℕ) :
    (Dit2Plan.make order = .error .exception ↔ dit2MaxOrder < order) ∧
    (order ≤ dit2MaxOrder → ∃ p, Dit2Plan.make order = .ok p ∧ p.order = order ∧
      p.size = 2 ^ order ∧ p.size ≤ dit2MaxSize) := by
  constructor
  · constructor
    · intro h
      by_contra hle
      have : order ≤ 27 := by unfold dit2MaxOrder at hle; omega
      rw [dit2Plan_make_eq this] at h
      cases h
    · intro h
      unfold Dit2Plan.make dit2CheckOrder
      rw [if_pos h]; rfl
  · intro h
    refine ⟨_, dit2Plan_make_eq h, rfl, rfl, ?_⟩
    show 2 ^ order ≤ dit2MaxSize
    unfold dit2MaxSize
    rw [fftSize_eq]
    exact Nat.pow_le_pow_right (by norm_num) h

example : dit2MaxOrder < 28 ∧ 27 ≤ dit2MaxOrder := by decide

/-- **C05**: a call with a buffer of the wrong size is reported, not executed. -/
theorem C05_wrong_size (p : Dit2Plan) (x : List ℂ) (dir : Direction) (h : x.length ≠ p.size) :
    p.call x dir = .error .assertion := by
  unfold Dit2Plan.call Dit2Plan.callWith
  have : decide (x.length = p.size) = false := decide_eq_false h
  rw [this]; rfl

/-! ## C06 -/

/-- **C06**: the reordering table exists for every order, and applying it moves the sample at `i`
to the bit-reversed index, permutes the buffer, and is an involution. -/
theorem C06_bitrev {α : Type} (order : ℕ) (x : List α) (hx : x.length = 2 ^ order) :
    ∃ table y, bitrevMake (2 ^ order) = .ok table ∧ bitrevApply table x = .ok y ∧
      y.Perm x ∧ bitrevApply table y = .ok x ∧
      (∀ i < 2 ^ order, ∀ r, Spec.IsDigitRev 2 order i r → y[r]? = x[i]?) ∧
      bitrevorder x = .ok y := by
  rcases x with _ | ⟨d, xs⟩
  · exfalso
    have : 0 < 2 ^ order := by positivity
    simp at hx
    omega
  · set x := d :: xs with hxd
    have e := list_eq_vec d hx
    have hlt : ∀ i < 2 ^ order, digitRev 2 order i < 2 ^ order :=
      fun i _ => digitRev_lt (by norm_num) order i
    have hinv : ∀ i < 2 ^ order, digitRev 2 order (digitRev 2 order i) = i :=
      fun i hi => digitRev_invol (by norm_num) hi
    refine ⟨_, vec (2 ^ order) (fun i => x.getD (digitRev 2 order i) d), bitrevMake_eq order,
      ?_, ?_, ?_, ?_, ?_⟩
    · conv_lhs => rw [e]
      exact bitrevApply_digitRev order _
    · conv_rhs => rw [e]
      exact perm_vec_comp hlt hinv (fun i => x.getD i d)
    · rw [bitrevApply_digitRev]
      congr 1
      conv_rhs => rw [e]
      apply vec_ext
      intro i hi
      rw [hinv i hi]
    · intro i hi r hr
      rw [digitRev_unique (by norm_num) hr, getElem?_vec, if_pos (hlt i hi), hinv i hi]
      conv_rhs => rw [e]
      rw [getElem?_vec, if_pos hi]
    · conv_lhs => rw [e]
      exact bitrevorder_vec order _

/-- **C06** for interleaved `(re, im, re, im, …)` buffers: both the table-driven and the table-free
variant move whole pairs to the bit-reversed position. -/
theorem C06_bitrev_interleaved {α : Type} (order : ℕ) (x : List α)
    (hx : x.length = 2 * 2 ^ order) :
    ∃ table y, bitrevMake (2 ^ order) = .ok table ∧
      bitrevApplyInterleaved table x = .ok y ∧ bitrevorderInterleaved x = .ok y ∧
      y.length = x.length ∧
      (∀ i < 2 ^ order, ∀ r, Spec.IsDigitRev 2 order i r →
        y[2 * r]? = x[2 * i]? ∧ y[2 * r + 1]? = x[2 * i + 1]?) := by
  rcases x with _ | ⟨d, xs⟩
  · exfalso
    have : 0 < 2 ^ order := by positivity
    simp at hx
  · set x := d :: xs with hxd
    have e : x = pairVec (2 ^ order) (fun i e => x.getD (2 * i + e) d) := by
      unfold pairVec
      conv_lhs => rw [list_eq_vec d hx]
      exact vec_ext (fun m _ => by beta_reduce; rw [Nat.div_add_mod])
    have hinv : ∀ i < 2 ^ order, digitRev 2 order (digitRev 2 order i) = i :=
      fun i hi => digitRev_invol (by norm_num) hi
    refine ⟨_, pairVec (2 ^ order) (fun i e => x.getD (2 * digitRev 2 order i + e) d),
      bitrevMake_eq order, ?_, ?_, ?_, ?_⟩
    · conv_lhs => rw [e]
      exact bitrevApplyInterleaved_vec (fun i _ => digitRev_lt (by norm_num) order i) hinv _
    · conv_lhs => rw [e]
      exact bitrevorderInterleaved_vec order _
    · rw [hx]; simp [pairVec]
    · intro i hi r hr
      rw [digitRev_unique (by norm_num) hr]
      have hlt := digitRev_lt (show 0 < 2 by norm_num) order i
      set r := digitRev 2 order i with hrd
      have hri : digitRev 2 order r = i := hinv i hi
      have a1 : 2 * r / 2 = r := by omega
      have a2 : (2 * r + 1) / 2 = r := by omega
      have a3 : 2 * r % 2 = 0 := by omega
      have a4 : (2 * r + 1) % 2 = 1 := by omega
      constructor
      · unfold pairVec
        rw [getElem?_vec, if_pos (by omega), a1, a3]
        beta_reduce
        rw [hri]
        conv_rhs => rw [list_eq_vec d hx]
        rw [getElem?_vec, if_pos (by omega)]
        rfl
      · unfold pairVec
        rw [getElem?_vec, if_pos (by omega), a2, a4]
        beta_reduce
        rw [hri]
        conv_rhs => rw [list_eq_vec d hx]
        rw [getElem?_vec, if_pos (by omega)]

example : bitrevorderInterleaved [0, 1, 2, 3, 4, 5, 6, 7] = .ok [0, 1, 4, 5, 2, 3, 6, 7] := by
  decide +kernel

/-- **C06** for split buffers: real and imaginary parts are permuted alike. -/
theorem C06_bitrev_split {α : Type} (order : ℕ) (re im : List α) (hre : re.length = 2 ^ order)
    (him : im.length = 2 ^ order) :
    ∃ table re' im', bitrevMake (2 ^ order) = .ok table ∧
      bitrevApplySplit table (re, im) = .ok (re', im') ∧
      bitrevApply table re = .ok re' ∧ bitrevApply table im = .ok im' := by
  rcases re with _ | ⟨d, res⟩
  · exfalso
    have : 0 < 2 ^ order := by positivity
    simp at hre
    omega
  · rw [list_eq_vec d hre, list_eq_vec d him]
    exact ⟨_, _, _, bitrevMake_eq order,
      bitrevApplySplit_vec (fun i _ => digitRev_lt (by norm_num) order i)
        (fun _ hi => digitRev_invol (by norm_num) hi) _ _,
      bitrevApply_digitRev order _, bitrevApply_digitRev order _⟩

example : bitrevorder [0, 1, 2, 3, 4, 5, 6, 7] = .ok [0, 4, 2, 6, 1, 5, 3, 7] := by decide +kernel
example : Spec.IsDigitRev 2 3 3 6 := by
  refine ⟨by norm_num, ?_⟩; decide

/-! ## C07 -/

/-- **C07**: for every radix ≥ 2 and order the digit-reversal plan exchanges the elements at
digit-reversed indices, permutes the buffer and is an involution. -/
theorem C07_digitrev {α : Type} (radix order : ℕ) (hr : 2 ≤ radix) (x : List α)
    (hx : x.length = radix ^ order) :
    ∃ lut y, digitrevMake radix (radix ^ order) = .ok lut ∧ digitrevApply lut x = .ok y ∧
      y.Perm x ∧ digitrevApply lut y = .ok x ∧
      (∀ i < radix ^ order, ∀ r, Spec.IsDigitRev radix order i r → y[r]? = x[i]?) := by
  have hr0 : 0 < radix := by omega
  rcases x with _ | ⟨d, xs⟩
  · exfalso
    have : 0 < radix ^ order := by positivity
    simp at hx
    omega
  · set x := d :: xs with hxd
    have e := list_eq_vec d hx
    have hlt : ∀ i < radix ^ order, digitRev radix order i < radix ^ order :=
      fun i _ => digitRev_lt hr0 order i
    have hinv : ∀ i < radix ^ order, digitRev radix order (digitRev radix order i) = i :=
      fun i hi => digitRev_invol hr0 hi
    refine ⟨_, vec (radix ^ order) (fun i => x.getD (digitRev radix order i) d),
      digitrevMake_eq hr order, ?_, ?_, ?_, ?_⟩
    · conv_lhs => rw [e]
      exact digitrev_plan hr order _
    · conv_rhs => rw [e]
      exact perm_vec_comp hlt hinv (fun i => x.getD i d)
    · rw [digitrev_plan hr order]
      congr 1
      conv_rhs => rw [e]
      apply vec_ext
      intro i hi
      rw [hinv i hi]
    · intro i hi r hr'
      rw [digitRev_unique hr0 hr', getElem?_vec, if_pos (hlt i hi), hinv i hi]
      conv_rhs => rw [e]
      rw [getElem?_vec, if_pos hi]

example : digitrevMake 3 9 = .ok [0, 3, 6, 1, 4, 7, 2, 5, 0] := by decide +kernel

end Neo.Props
