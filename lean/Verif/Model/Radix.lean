import Verif.Model.DigitRev
import Verif.Model.IntT
import Verif.Model.Loops

/-!
# Model: the in-place reference plans of radix 3, 4 and 5

`src/neo/fft/reference/c2c_dif3_plan.hpp`, `c2c_dif5_plan.hpp` and `c2c_dit4_plan.hpp`.  Floating-point
numbers are exact; the plans of radix 3 and 5 are also given over any arithmetic.  `size()` is `ipow<R>(order())` without wrapping: the model is meant for orders
with `R ^ order < 2 ^ 64`.
-/

namespace Neo

/-- `static_cast<int>(n)` of a `std::size_t`, used as a loop bound: a negative bound is as good as 0.
`src/neo/fft/reference/c2c_dif3_plan.hpp:44`; `src/neo/fft/reference/c2c_dif5_plan.hpp:46`. -/
def intBound (n : Nat) : Nat := (IntT.conv ⟨true, 32⟩ n).toNat

/-! ## Radix 3 -/

section generic
variable {C : Type} [Add C] [Mul C]

/-- One butterfly of the radix-3 plan, `src/neo/fft/reference/c2c_dif3_plan.hpp:57-75`, in any arithmetic; `tw n k dir` is
`twiddle<Complex>(n, k, dir)`, lines 40-41. -/
def dif3ButterflyG (tw : Nat → Nat → Direction → C) (dir : Direction) (mr i j : Nat) (wi : C) (x : List C) :
    Res (List C) := do
  let w31 := tw 3 1 .forward
  let w32 := tw 3 2 .forward
  let t0 ← rd x (i + j)
  let t1 ← rd x (i + j + mr)
  let t2 ← rd x (i + j + 2 * mr)
  let t1 := t1 * wi
  let t2 := t2 * (wi * wi)
  let a ← rd x (i + j)
  let x ← wr x (i + j) (a + (t1 + t2))
  if dir = .forward then do
    let x ← wr x (i + j + mr) (t0 + t1 * w31 + t2 * w32)
    wr x (i + j + 2 * mr) (t0 + t1 * w32 + t2 * w31)
  else do
    let x ← wr x (i + j + mr) (t0 + t1 * w32 + t2 * w31)
    wr x (i + j + 2 * mr) (t0 + t1 * w31 + t2 * w32)

/-- Body of the loop over `m`: `w`, `mr`, `wi` and the loops over `i` and `j`,
`src/neo/fft/reference/c2c_dif3_plan.hpp:49-78` and `c2c_dif5_plan.hpp:51-89`, in any arithmetic; `one` is
`Complex{Float(1), Float(0)}` (`wi` runs through the powers of `w`). -/
def difStageG (tw : Nat → Nat → Direction → C) (one : C) (radix len : Nat) (dir : Direction)
    (butterfly : (mr i j : Nat) → C → List C → Res (List C)) (m : Nat) (x : List C) :
    Res (List C) := do
  let w := tw m 1 dir
  let mr := m / radix
  let r ← forN mr (fun i (s : List C × C) => do
    let x ← forIntStep m len (fun j x => butterfly mr i j s.2 x) len 0 s.1
    pure (x, s.2 * w)) (x, one)
  pure r.1

end generic

/-- Data members of the in-place plans of radix 3, 4 and 5: the order and the digit-reversal table,
`src/neo/fft/reference/c2c_dif3_plan.hpp:83-84`, `c2c_dif5_plan.hpp:94-95`. -/
structure RadixPlan where
  order : Nat
  reorder : List Nat

/-- Constructors, `src/neo/fft/reference/c2c_dif3_plan.hpp:24`, `c2c_dif5_plan.hpp:24`. -/
def RadixPlan.make (radix order : Nat) : Res RadixPlan := do
  let lut ← digitrevMake radix (ipow radix order)
  pure { order := order, reorder := lut }

/-- `c2c_dif3_plan::operator()`, `src/neo/fft/reference/c2c_dif3_plan.hpp:36-80`, in any arithmetic. -/
def RadixPlan.dif3G {C : Type} [Add C] [Mul C] (tw : Nat → Nat → Direction → C) (one : C) (p : RadixPlan) (x : List C)
    (dir : Direction) : Res (List C) := do
  let len := intBound x.length
  let x ← digitrevApply p.reorder x
  forIntMul 3 len (difStageG tw one 3 len dir (dif3ButterflyG tw dir)) 32 3 x

/-- `c2c_dif3_plan::operator()`, `src/neo/fft/reference/c2c_dif3_plan.hpp:36-80`. -/
noncomputable def RadixPlan.dif3 (p : RadixPlan) (x : List ℂ) (dir : Direction) : Res (List ℂ) :=
  p.dif3G twiddle 1 x dir

/-! ## Radix 5 -/

/-- One butterfly of the radix-5 plan, `src/neo/fft/reference/c2c_dif5_plan.hpp:59-86`, in any arithmetic; `tw n k dir` is
`twiddle<Complex>(n, k, dir)`, lines 40-43. -/
def dif5ButterflyG {C : Type} [Add C] [Mul C] (tw : Nat → Nat → Direction → C) (dir : Direction) (mr i j : Nat) (wi : C)
    (x : List C) : Res (List C) := do
  let w51 := tw 5 1 .forward
  let w52 := tw 5 2 .forward
  let w53 := tw 5 3 .forward
  let w54 := tw 5 4 .forward
  let t0 ← rd x (i + j)
  let t1 ← rd x (i + j + mr)
  let t2 ← rd x (i + j + 2 * mr)
  let t3 ← rd x (i + j + 3 * mr)
  let t4 ← rd x (i + j + 4 * mr)
  let t1 := t1 * wi
  let t2 := t2 * (wi * wi)
  let t3 := t3 * (wi * wi * wi)
  let t4 := t4 * (wi * wi * wi * wi)
  let a ← rd x (i + j)
  let x ← wr x (i + j) (a + (t1 + t2 + t3 + t4))
  if dir = .forward then do
    let x ← wr x (i + j + mr) (t0 + t1 * w51 + t2 * w52 + t3 * w53 + t4 * w54)
    let x ← wr x (i + j + 2 * mr) (t0 + t1 * w52 + t2 * w54 + t3 * w51 + t4 * w53)
    let x ← wr x (i + j + 3 * mr) (t0 + t1 * w53 + t2 * w51 + t3 * w54 + t4 * w52)
    wr x (i + j + 4 * mr) (t0 + t1 * w54 + t2 * w53 + t3 * w52 + t4 * w51)
  else do
    let x ← wr x (i + j + mr) (t0 + t1 * w54 + t2 * w53 + t3 * w52 + t4 * w51)
    let x ← wr x (i + j + 2 * mr) (t0 + t1 * w53 + t2 * w51 + t3 * w54 + t4 * w52)
    let x ← wr x (i + j + 3 * mr) (t0 + t1 * w52 + t2 * w54 + t3 * w51 + t4 * w53)
    wr x (i + j + 4 * mr) (t0 + t1 * w51 + t2 * w52 + t3 * w53 + t4 * w54)

/-- `c2c_dif5_plan::operator()`, `src/neo/fft/reference/c2c_dif5_plan.hpp:36-91`, in any arithmetic. -/
def RadixPlan.dif5G {C : Type} [Add C] [Mul C] (tw : Nat → Nat → Direction → C) (one : C) (p : RadixPlan) (x : List C)
    (dir : Direction) : Res (List C) := do
  let len := intBound x.length
  let x ← digitrevApply p.reorder x
  forIntMul 5 len (difStageG tw one 5 len dir (dif5ButterflyG tw dir)) 32 5 x

/-- `c2c_dif5_plan::operator()`, `src/neo/fft/reference/c2c_dif5_plan.hpp:36-91`. -/
noncomputable def RadixPlan.dif5 (p : RadixPlan) (x : List ℂ) (dir : Direction) : Res (List ℂ) :=
  p.dif5G twiddle 1 x dir

/-- The two in-place plans, `src/neo/fft/reference/c2c_dif3_plan.hpp:19-85` and `c2c_dif5_plan.hpp:19-96`. -/
inductive OddRadix where
  | three | five

/-- The local `radix`, `src/neo/fft/reference/c2c_dif3_plan.hpp:43`, `c2c_dif5_plan.hpp:45`. -/
def OddRadix.val : OddRadix → Nat
  | .three => 3
  | .five => 5

/-- Construction of the plan and one call, `src/neo/fft/reference/c2c_dif3_plan.hpp:24,36-80`,
`c2c_dif5_plan.hpp:24,36-91`, in any arithmetic. -/
def OddRadix.run {C : Type} [Add C] [Mul C] (q : OddRadix) (tw : Nat → Nat → Direction → C) (one : C) (order : Nat)
    (x : List C) (dir : Direction) : Res (List C) := do
  let p ← RadixPlan.make q.val order
  match q with
  | .three => p.dif3G tw one x dir
  | .five => p.dif5G tw one x dir

/-! ## Radix 4 -/

/-- Data members of `c2c_radix4_plan`, `src/neo/fft/reference/c2c_dit4_plan.hpp:203-205`; the two rows
of `_w` are separate lists. -/
structure Radix4Plan where
  order : Nat
  reorder : List Nat
  wFwd : List ℂ
  wBwd : List ℂ

/-- One row of `make_twiddle_lut`, `src/neo/fft/reference/c2c_dit4_plan.hpp:190-201`.  The array is
zero-initialised.  For `n < 4` the bound `n / 4UL - 1UL` wraps and the loop leaves the array; for
`kmax + 1 ≥ 2 ^ 32` the `unsigned int` counter never ends the loop. -/
noncomputable def radix4Lut (n : Nat) (dir : Direction) : Res (List ℂ) :=
  if n < 4 then .error .oob else
  let kmax := 3 * (n / 4 - 1)
  forUInt (kmax + 1) (fun i w => wr w i (twiddle n i dir)) (List.replicate n 0)

/-- Constructor, `src/neo/fft/reference/c2c_dit4_plan.hpp:23`. -/
noncomputable def Radix4Plan.make (order : Nat) : Res Radix4Plan := do
  let lut ← digitrevMake 4 (ipow 4 order)
  let fwd ← radix4Lut (ipow 4 order) .forward
  let bwd ← radix4Lut (ipow 4 order) .backward
  pure { order := order, reorder := lut, wFwd := fwd, wBwd := bwd }

/-- The four stores of a decimation-in-time butterfly,
`src/neo/fft/reference/c2c_dit4_plan.hpp:85-93` and `:111-119`. -/
def dit4Store (z : ℂ) (i0 i1 i2 i3 : Nat) (c0 c1 c2 c3 : ℂ) (x : List ℂ) : Res (List ℂ) := do
  let d0 := c0 + c2
  let d1 := c0 - c2
  let d2 := c1 + c3
  let d3 := (c1 - c3) * z
  let x ← wr x i0 (d0 + d2)
  let x ← wr x i1 (d1 - d3)
  let x ← wr x i2 (-d2 + d0)
  wr x i3 (d3 + d1)

/-- First butterfly of a block (no twiddles), `src/neo/fft/reference/c2c_dit4_plan.hpp:74-94`. -/
def dit4First (z : ℂ) (base offset : Nat) (x : List ℂ) : Res (List ℂ) := do
  let c0 ← rd x base
  let c1 ← rd x (base + 1 * offset)
  let c2 ← rd x (base + 2 * offset)
  let c3 ← rd x (base + 3 * offset)
  dit4Store z base (base + 1 * offset) (base + 2 * offset) (base + 3 * offset) c0 c1 c2 c3 x

/-- Butterfly with twiddles, `src/neo/fft/reference/c2c_dit4_plan.hpp:96-120`. -/
def dit4Tw (z : ℂ) (w : List ℂ) (wStride base offset k : Nat) (x : List ℂ) : Res (List ℂ) := do
  let w1 ← rd w (1 * k * wStride)
  let w2 ← rd w (2 * k * wStride)
  let w3 ← rd w (3 * k * wStride)
  let c0 ← rd x (base + k)
  let c1 ← rd x (base + k + 1 * offset)
  let c2 ← rd x (base + k + 2 * offset)
  let c3 ← rd x (base + k + 3 * offset)
  dit4Store z (base + k) (base + k + 1 * offset) (base + k + 2 * offset) (base + k + 3 * offset)
    c0 (c1 * w1) (c2 * w2) (c3 * w3) x

/-- Loop variables of `c2c_dit4` and `c2c_dif4`; `base` is 0 at the start of every stage.
`src/neo/fft/reference/c2c_dit4_plan.hpp:20-125`. -/
structure Radix4State where
  x : List ℂ
  length : Nat
  wStride : Nat
  krange : Nat
  block : Nat

/-- One stage of `c2c_dit4`, `src/neo/fft/reference/c2c_dit4_plan.hpp:69-130`. -/
def dit4Stage (z : ℂ) (w : List ℂ) (s : Radix4State) : Res Radix4State := do
  let offset := s.length / 4
  let r ← forN s.block (fun _ (xb : List ℂ × Nat) => do
    let base := xb.2
    let x ← dit4First z base offset xb.1
    let x ← forR 1 s.krange (fun k x => dit4Tw z w s.wStride base offset k x) x
    pure (x, base + 4 * s.krange)) (s.x, 0)
  pure { x := r.1, length := 4 * s.length, wStride := s.wStride / 4, krange := 4 * s.krange,
         block := s.block / 4 }

/-- `c2c_dit4`, `src/neo/fft/reference/c2c_dit4_plan.hpp:52-131`.  (For `order = 0` the loop body is not
executed, so the wrapped `w_stride` is never used.) -/
def dit4Kernel (x w : List ℂ) (order : Nat) (sign : ℝ) : Res (List ℂ) := do
  let z : ℂ := ⟨0, sign⟩
  let r ← forN order (fun _ s => dit4Stage z w s)
    { x := x, length := 4, wStride := ipow 4 (order - 1), krange := 1, block := x.length / 4 }
  pure r.x

/-- One butterfly of `c2c_dif4`, `src/neo/fft/reference/c2c_dit4_plan.hpp:153-176`. -/
def dif4Butterfly (z : ℂ) (w : List ℂ) (wStride base offset k : Nat) (x : List ℂ) : Res (List ℂ) := do
  let i0 := base + k
  let i1 := base + k + offset
  let i2 := base + k + 2 * offset
  let i3 := base + k + 3 * offset
  let c0 ← rd x i0
  let c1 ← rd x i1
  let c2 ← rd x i2
  let c3 ← rd x i3
  let d0 := c0 + c2
  let d1 := c0 - c2
  let d2 := c1 + c3
  let d3 := c1 - c3
  let x ← wr x i0 (d0 + d2)
  if k = 0 then do
    let x ← wr x i1 (d1 - z * d3)
    let x ← wr x i2 (d0 - d2)
    wr x i3 (d1 + z * d3)
  else do
    let w1 ← rd w (1 * k * wStride)
    let w2 ← rd w (2 * k * wStride)
    let w3 ← rd w (3 * k * wStride)
    let x ← wr x i1 ((d1 - z * d3) * w1)
    let x ← wr x i2 ((d0 - d2) * w2)
    wr x i3 ((d1 + z * d3) * w3)

/-- One stage of `c2c_dif4`, `src/neo/fft/reference/c2c_dit4_plan.hpp:150-187`. -/
def dif4Stage (z : ℂ) (w : List ℂ) (s : Radix4State) : Res Radix4State := do
  let offset := s.length / 4
  let r ← forN s.block (fun _ (xb : List ℂ × Nat) => do
    let base := xb.2
    let x ← forN s.krange (fun k x => dif4Butterfly z w s.wStride base offset k x) xb.1
    pure (x, base + 4 * s.krange)) (s.x, 0)
  pure { x := r.1, length := s.length / 4, wStride := s.wStride * 4, krange := s.krange / 4,
         block := s.block * 4 }

/-- `c2c_dif4`, `src/neo/fft/reference/c2c_dit4_plan.hpp:133-188`. -/
def dif4Kernel (x w : List ℂ) (order : Nat) (sign : ℝ) : Res (List ℂ) := do
  let z : ℂ := ⟨0, sign⟩
  let r ← forN order (fun _ s => dif4Stage z w s)
    { x := x, length := ipow 4 order, wStride := 1, krange := ipow 4 order / 4, block := 1 }
  pure r.x

/-- `c2c_radix4_plan::operator()`, `src/neo/fft/reference/c2c_dit4_plan.hpp:34-49`. -/
def Radix4Plan.call (p : Radix4Plan) (useDIT : Bool) (x : List ℂ) (dir : Direction) :
    Res (List ℂ) := do
  let sign : ℝ := if dir = .forward then -1 else 1
  let w := if dir = .forward then p.wFwd else p.wBwd
  if useDIT then do
    let x ← digitrevApply p.reorder x
    dit4Kernel x w p.order sign
  else do
    let x ← dif4Kernel x w p.order sign
    digitrevApply p.reorder x

end Neo
