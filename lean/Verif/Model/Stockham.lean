import Verif.Model.Algo
import Verif.Model.Fft2
import Verif.Model.Loops

/-!
# Model: the Stockham reference plans (`src/neo/fft/reference/c2c_stockham_*_plan.hpp`)

The loops and butterflies are written over any arithmetic (`StockArith`); the exact instance is `exactStock`, the IEEE
instances are in `Verif.Model.StockhamIeee`.  `size()` is `ipow<R>(order())` without wrapping: the model is meant
for orders with `R ^ order < 2 ^ 64`.  The member `_work` is an argument and part of the result.
-/

namespace Neo

/-! ## Decimation in frequency, radix 3, 4, 5 and 8

In these files `l` is a `std::size_t`; `m`, `j`, `k` and `t` are `unsigned int`.  Expressions made of
the latter only are reduced modulo `2 ^ 32` (`u32`). -/

/-- The loops over `t`, `j` and `k` shared by the four plans; `body l m j k y x` is the innermost block.
`src/neo/fft/reference/c2c_stockham_dif3_plan.hpp:48-79`, `c2c_stockham_dif4_plan.hpp:47-82`,
`c2c_stockham_dif5_plan.hpp:52-97`, `c2c_stockham_dif8_plan.hpp:49-111`. -/
def stockhamLoop {C : Type} (radix order : Nat)
    (body : (l m j k : Nat) → (y x : List C) → Res (List C)) (x work : List C) :
    Res (List C × List C) := do
  let n := ipow radix order
  let r ← forUInt order (fun _ (s : (List C × List C) × Nat × Nat) => do
    let l := s.2.1
    let m := s.2.2
    let y ← copyVec s.1.1 s.1.2
    let x ← forUInt l (fun j x => forN m (fun k x => body l m j k y x) x) s.1.1
    pure ((x, y), l / radix, u32 (m * radix))) ((x, work), n / radix, 1)
  pure r.1

/-- The imaginary unit with the sign of the direction,
`src/neo/fft/reference/c2c_stockham_dif3_plan.hpp:44-45` and likewise in the other plans. -/
noncomputable def signedI (dir : Direction) : ℂ := ⟨0, if dir = .forward then -1 else 1⟩

/-- What the butterflies use besides `+`, `-` and `*` of complex numbers, for one direction: `twiddle<Complex>(size, index,
dir)`, the constant `i`, the product `Complex * Float`, and the real constants.
`src/neo/fft/reference/c2c_stockham_dif3_plan.hpp:44-46,56-57,66-67`, `c2c_stockham_dif4_plan.hpp:44-45,54-56`,
`c2c_stockham_dif5_plan.hpp:44-50,59-62,77-83`, `c2c_stockham_dif8_plan.hpp:44-47,56-62,88-89`. -/
structure StockArith (R C : Type) where
  tw : Nat → Nat → C
  i : C
  scale : C → R → C
  half : R
  quarter : R
  sinPiBy3 : R
  sqrt5By4 : R
  sin2PiBy5 : R
  sinRatio : R
  sqrt2By2 : R

/-- Exact arithmetic, `src/neo/fft/reference/c2c_stockham_dif3_plan.hpp:44-46`,
`c2c_stockham_dif5_plan.hpp:44-50`, `c2c_stockham_dif8_plan.hpp:44-47`. -/
noncomputable def exactStock (dir : Direction) : StockArith ℝ ℂ where
  tw n k := twiddle n k dir
  i := signedI dir
  scale z r := z * (r : ℂ)
  half := 0.5
  quarter := 0.25
  sinPiBy3 := Real.sin (Real.pi / 3)
  sqrt5By4 := Real.sqrt 5 / 4
  sin2PiBy5 := Real.sin (2 * Real.pi / 5)
  sinRatio := Real.sin (Real.pi / 5) / Real.sin (2 * Real.pi / 5)
  sqrt2By2 := Real.sqrt 2 / 2

section bodies
variable {R C : Type} [Add C] [Sub C] [Mul C]

/-- `src/neo/fft/reference/c2c_stockham_dif3_plan.hpp:59-73`. -/
def stockham3BodyG (A : StockArith R C) (l m j k : Nat) (y x : List C) : Res (List C) := do
  let w1 := A.tw (3 * l) (u32 (1 * j))
  let w2 := A.tw (3 * l) (u32 (2 * j))
  let c0 ← rd y (u32 (k + j * m) + 0 * l * m)
  let c1 ← rd y (u32 (k + j * m) + 1 * l * m)
  let c2 ← rd y (u32 (k + j * m) + 2 * l * m)
  let d0 := c1 + c2
  let d1 := c0 - A.scale d0 A.half
  let d2 := A.scale ((c1 - c2) * A.i) A.sinPiBy3
  let x ← wr x (u32 (k + 3 * j * m + 0 * m)) (c0 + d0)
  let x ← wr x (u32 (k + 3 * j * m + 1 * m)) ((d1 + d2) * w1)
  wr x (u32 (k + 3 * j * m + 2 * m)) ((d1 - d2) * w2)

/-- `src/neo/fft/reference/c2c_stockham_dif4_plan.hpp:58-76`. -/
def stockham4BodyG (A : StockArith R C) (l m j k : Nat) (y x : List C) : Res (List C) := do
  let w1 := A.tw (l * 4) (u32 (1 * j))
  let w2 := A.tw (l * 4) (u32 (2 * j))
  let w3 := A.tw (l * 4) (u32 (3 * j))
  let c0 ← rd y (u32 (k + j * m) + 0 * l * m)
  let c1 ← rd y (u32 (k + j * m) + 1 * l * m)
  let c2 ← rd y (u32 (k + j * m) + 2 * l * m)
  let c3 ← rd y (u32 (k + j * m) + 3 * l * m)
  let d0 := c0 + c2
  let d1 := c0 - c2
  let d2 := c1 + c3
  let d3 := (c1 - c3) * A.i
  let x ← wr x (u32 (k + 4 * j * m + 0 * m)) (d0 + d2)
  let x ← wr x (u32 (k + 4 * j * m + 1 * m)) ((d1 + d3) * w1)
  let x ← wr x (u32 (k + 4 * j * m + 2 * m)) ((d0 - d2) * w2)
  wr x (u32 (k + 4 * j * m + 3 * m)) ((d1 - d3) * w3)

/-- `src/neo/fft/reference/c2c_stockham_dif5_plan.hpp:63-91`, constants from `:47-50`. -/
def stockham5BodyG (A : StockArith R C) (l m j k : Nat) (y x : List C) : Res (List C) := do
  let w1 := A.tw (l * 5) (u32 (1 * j))
  let w2 := A.tw (l * 5) (u32 (2 * j))
  let w3 := A.tw (l * 5) (u32 (3 * j))
  let w4 := A.tw (l * 5) (u32 (4 * j))
  let c0 ← rd y (u32 (k + j * m) + 0 * l * m)
  let c1 ← rd y (u32 (k + j * m) + 1 * l * m)
  let c2 ← rd y (u32 (k + j * m) + 2 * l * m)
  let c3 ← rd y (u32 (k + j * m) + 3 * l * m)
  let c4 ← rd y (u32 (k + j * m) + 4 * l * m)
  let d0 := c1 + c4
  let d1 := c2 + c3
  let d2 := A.scale (c1 - c4) A.sin2PiBy5
  let d3 := A.scale (c2 - c3) A.sin2PiBy5
  let d4 := d0 + d1
  let d5 := A.scale (d0 - d1) A.sqrt5By4
  let d6 := c0 - A.scale d4 A.quarter
  let d7 := d6 + d5
  let d8 := d6 - d5
  let d9 := (d2 + A.scale d3 A.sinRatio) * A.i
  let d10 := (A.scale d2 A.sinRatio - d3) * A.i
  let x ← wr x (u32 (k + 5 * j * m + 0 * m)) (c0 + d4)
  let x ← wr x (u32 (k + 5 * j * m + 1 * m)) ((d7 + d9) * w1)
  let x ← wr x (u32 (k + 5 * j * m + 2 * m)) ((d8 + d10) * w2)
  let x ← wr x (u32 (k + 5 * j * m + 3 * m)) ((d8 - d10) * w3)
  wr x (u32 (k + 5 * j * m + 4 * m)) ((d7 - d9) * w4)

/-- `src/neo/fft/reference/c2c_stockham_dif8_plan.hpp:60-105`, constant from `:44`. -/
def stockham8BodyG (A : StockArith R C) (l m j k : Nat) (y x : List C) : Res (List C) := do
  let w1 := A.tw (l * 8) (u32 (1 * j))
  let w2 := A.tw (l * 8) (u32 (2 * j))
  let w3 := A.tw (l * 8) (u32 (3 * j))
  let w4 := A.tw (l * 8) (u32 (4 * j))
  let w5 := A.tw (l * 8) (u32 (5 * j))
  let w6 := A.tw (l * 8) (u32 (6 * j))
  let w7 := A.tw (l * 8) (u32 (7 * j))
  let c0 ← rd y (u32 (k + j * m) + 0 * l * m)
  let c1 ← rd y (u32 (k + j * m) + 1 * l * m)
  let c2 ← rd y (u32 (k + j * m) + 2 * l * m)
  let c3 ← rd y (u32 (k + j * m) + 3 * l * m)
  let c4 ← rd y (u32 (k + j * m) + 4 * l * m)
  let c5 ← rd y (u32 (k + j * m) + 5 * l * m)
  let c6 ← rd y (u32 (k + j * m) + 6 * l * m)
  let c7 ← rd y (u32 (k + j * m) + 7 * l * m)
  let d0 := c0 + c4
  let d1 := c0 - c4
  let d2 := c2 + c6
  let d3 := (c2 - c6) * A.i
  let d4 := c1 + c5
  let d5 := c1 - c5
  let d6 := c3 + c7
  let d7 := c3 - c7
  let e0 := d0 + d2
  let e1 := d0 - d2
  let e2 := d4 + d6
  let e3 := (d4 - d6) * A.i
  let e4 := A.scale (d5 - d7) A.sqrt2By2
  let e5 := A.scale (d5 + d7) A.sqrt2By2 * A.i
  let e6 := d1 + e4
  let e7 := d1 - e4
  let e8 := d3 + e5
  let e9 := d3 - e5
  let x ← wr x (u32 (k + 8 * j * m + m * 0)) (e0 + e2)
  let x ← wr x (u32 (k + 8 * j * m + m * 1)) ((e6 + e8) * w1)
  let x ← wr x (u32 (k + 8 * j * m + m * 2)) ((e1 + e3) * w2)
  let x ← wr x (u32 (k + 8 * j * m + m * 3)) ((e7 - e9) * w3)
  let x ← wr x (u32 (k + 8 * j * m + m * 4)) ((e0 - e2) * w4)
  let x ← wr x (u32 (k + 8 * j * m + m * 5)) ((e7 + e9) * w5)
  let x ← wr x (u32 (k + 8 * j * m + m * 6)) ((e1 - e3) * w6)
  wr x (u32 (k + 8 * j * m + m * 7)) ((e6 - e8) * w7)

end bodies

/-- The innermost block in exact arithmetic, `src/neo/fft/reference/c2c_stockham_dif3_plan.hpp:59-73`. -/
noncomputable def stockham3Body (dir : Direction) : (l m j k : Nat) → (y x : List ℂ) → Res (List ℂ) :=
  stockham3BodyG (exactStock dir)

/-- The innermost block in exact arithmetic, `src/neo/fft/reference/c2c_stockham_dif4_plan.hpp:58-76`. -/
noncomputable def stockham4Body (dir : Direction) : (l m j k : Nat) → (y x : List ℂ) → Res (List ℂ) :=
  stockham4BodyG (exactStock dir)

/-- The innermost block in exact arithmetic, `src/neo/fft/reference/c2c_stockham_dif5_plan.hpp:63-91`. -/
noncomputable def stockham5Body (dir : Direction) : (l m j k : Nat) → (y x : List ℂ) → Res (List ℂ) :=
  stockham5BodyG (exactStock dir)

/-- The innermost block in exact arithmetic, `src/neo/fft/reference/c2c_stockham_dif8_plan.hpp:60-105`. -/
noncomputable def stockham8Body (dir : Direction) : (l m j k : Nat) → (y x : List ℂ) → Res (List ℂ) :=
  stockham8BodyG (exactStock dir)

/-- `c2c_stockham_dif3_plan::operator()`, `src/neo/fft/reference/c2c_stockham_dif3_plan.hpp:39-80`. -/
noncomputable def stockhamDif3 (order : Nat) (x work : List ℂ) (dir : Direction) :
    Res (List ℂ × List ℂ) := stockhamLoop 3 order (stockham3Body dir) x work

/-- `c2c_stockham_dif4_plan::operator()`, `src/neo/fft/reference/c2c_stockham_dif4_plan.hpp:39-83`. -/
noncomputable def stockhamDif4 (order : Nat) (x work : List ℂ) (dir : Direction) :
    Res (List ℂ × List ℂ) := stockhamLoop 4 order (stockham4Body dir) x work

/-- `c2c_stockham_dif5_plan::operator()`, `src/neo/fft/reference/c2c_stockham_dif5_plan.hpp:39-98`. -/
noncomputable def stockhamDif5 (order : Nat) (x work : List ℂ) (dir : Direction) :
    Res (List ℂ × List ℂ) := stockhamLoop 5 order (stockham5Body dir) x work

/-- `c2c_stockham_dif8_plan::operator()`, `src/neo/fft/reference/c2c_stockham_dif8_plan.hpp:39-112`. -/
noncomputable def stockhamDif8 (order : Nat) (x work : List ℂ) (dir : Direction) :
    Res (List ℂ × List ℂ) := stockhamLoop 8 order (stockham8Body dir) x work

/-! ## Decimation in time, radix 4 -/

/-- `src/neo/fft/reference/c2c_stockham_dit4_plan.hpp:58-86`; `l`, `r`, `lstar` and `rstar` are
`std::size_t`, `j` and `k` are `unsigned int`. -/
noncomputable def stockhamDit4Body (dir : Direction) (l r j k : Nat) (y x : List ℂ) :
    Res (List ℂ) := do
  let i := signedI dir
  let lstar := l / 4
  let rstar := 4 * r
  let w1 := twiddle l (u32 (1 * j)) dir
  let w2 := twiddle l (u32 (2 * j)) dir
  let w3 := twiddle l (u32 (3 * j)) dir
  let a ← rd y (j * rstar + r * 0 + k)
  let b ← rd y (j * rstar + r * 1 + k)
  let b := b * w1
  let c ← rd y (j * rstar + r * 2 + k)
  let c := c * w2
  let d ← rd y (j * rstar + r * 3 + k)
  let d := d * w3
  let t0 := a + c
  let t1 := a - c
  let t2 := b + d
  let t3 := b - d
  let x ← wr x ((j + lstar * 0) * r + k) (t0 + t2)
  let x ← wr x ((j + lstar * 1) * r + k) (t1 - t3 * i)
  let x ← wr x ((j + lstar * 2) * r + k) (t0 - t2)
  wr x ((j + lstar * 3) * r + k) (t1 + t3 * i)

/-- `c2c_stockham_dit4_plan::operator()`, `src/neo/fft/reference/c2c_stockham_dit4_plan.hpp:34-90`
(`ipow<4UL>(q)` without wrapping; the table `_w` is never read). -/
noncomputable def stockhamDit4 (order : Nat) (x work : List ℂ) (dir : Direction) :
    Res (List ℂ × List ℂ) := do
  let n := ipow 4 order
  forUInt order (fun q (s : List ℂ × List ℂ) => do
    let l := ipow 4 (q + 1)
    let r := n / l
    let y ← copyVec s.1 s.2
    let x ← forUInt (l / 4) (fun j x => forUInt r (fun k x => stockhamDit4Body dir l r j k y x) x) s.1
    pure (x, y)) (x, work)

/-! ## Decimation in frequency, radix 2 -/

/-- One row of the tables of the radix-2 plans, `src/neo/fft/reference/c2c_stockham_dif2_plan.hpp:106-113`
(direction `backward`) and `:193-201` (row 0: `backward`, row 1: `forward`). -/
noncomputable def stockham2Lut (n : Nat) (dir : Direction) : List ℂ :=
  (List.range (n / 2)).map (fun i => twiddle n i dir)

/-- Final copy `work[k] = x[k]`, `src/neo/fft/reference/c2c_stockham_dif2_plan.hpp:82-84`. -/
def fft0Copy (stride : Nat) (x work : List ℂ) : Res (List ℂ) :=
  forN stride (fun k work => do
    let v ← rd x k
    wr work k v) work

/-- One pass, `src/neo/fft/reference/c2c_stockham_dif2_plan.hpp:89-101`. -/
def fft0Pass (w : List ℂ) (stageLen stride : Nat) (x work : List ℂ) : Res (List ℂ) :=
  let m := stageLen / 2
  forN m (fun j work => do
    let w1 ← rd w (j * stride)
    forN stride (fun k work => do
      let a ← rd x (k + stride * (j + 0))
      let b ← rd x (k + stride * (j + m))
      let work ← wr work (k + stride * (2 * j + 0)) (a + b)
      wr work (k + stride * (2 * j + 1)) ((a - b) * w1)) work) work

/-- `fft0`, `src/neo/fft/reference/c2c_stockham_dif2_plan.hpp:71-104`; the result is `(x, work)`.  The fuel
bounds the recursion depth. -/
def fft0 (w : List ℂ) : (fuel stageLen stride : Nat) → (workIsOutput : Bool) → (x work : List ℂ) →
    Res (List ℂ × List ℂ)
  | 0, _, _, _, _, _ => .error .diverge
  | fuel + 1, stageLen, stride, workIsOutput, x, work =>
    if stageLen = 1 then
      if workIsOutput then do
        let work ← fft0Copy stride x work
        pure (x, work)
      else pure (x, work)
    else do
      let work ← fft0Pass w stageLen stride x work
      let r ← fft0 w fuel (stageLen / 2) (stride * 2) (!workIsOutput) work x
      pure (r.2, r.1)

/-- The lambda `conjugate`, `src/neo/fft/reference/c2c_stockham_dif2_plan.hpp:55-59`. -/
noncomputable def conjugateVec (n : Nat) (x : List ℂ) : Res (List ℂ) :=
  forN n (fun i x => do
    let v ← rd x i
    wr x i ((starRingEnd ℂ) v)) x

/-- `c2c_stockham_dif2r_plan::operator()`, `src/neo/fft/reference/c2c_stockham_dif2_plan.hpp:38-64`. -/
noncomputable def stockhamDif2r (order : Nat) (x work : List ℂ) (dir : Direction) :
    Res (List ℂ × List ℂ) :=
  let n := ipow 2 order
  let w := stockham2Lut n .backward
  if dir = .forward then fft0 w (order + 1) n 1 false x work
  else do
    let x ← conjugateVec n x
    let r ← fft0 w (order + 1) n 1 false x work
    let x ← conjugateVec n r.1
    pure (x, r.2)

/-- `butterfly`, `src/neo/fft/reference/c2c_stockham_dif2_plan.hpp:169-191`: reads `x`, writes `y`. -/
def dif2iButterfly (x y w : List ℂ) (stageLen stride offset : Nat) : Res (List ℂ) :=
  forN stageLen (fun j y => do
    let jm := j * stride
    let jm2 := jm * 2
    let w1 ← rd w jm
    forN stride (fun k y => do
      let c0 ← rd x (k + jm)
      let c1 ← rd x (k + jm + offset)
      let y ← wr y (k + jm2) (c0 + c1)
      wr y (k + jm2 + stride) ((c0 - c1) * w1)) y) y

/-- `c2c_stockham_dif2i_plan::operator()`, `src/neo/fft/reference/c2c_stockham_dif2_plan.hpp:143-166`.
All sizes are `int`; from order 31 on `stride * 2` overflows in stage 30 (the stages before do nothing
then, because `n` is not positive). -/
noncomputable def stockhamDif2i (order : Nat) (x work : List ℂ) (dir : Direction) :
    Res (List ℂ × List ℂ) :=
  if 31 ≤ order then .error .overflow else do
  let n := ipow 2 order
  let w := if dir = .forward then stockham2Lut n .backward else stockham2Lut n .forward
  let s ← forN order (fun stage (s : List ℂ × List ℂ) => do
    let stride := ipow 2 stage
    let stageLen := n / (stride * 2)
    let offset := stageLen * stride
    if stage % 2 = 0 then do
      let y ← dif2iButterfly s.1 s.2 w stageLen stride offset
      pure (s.1, y)
    else do
      let x ← dif2iButterfly s.2 s.1 w stageLen stride offset
      pure (x, s.2)) (x, work)
  if order % 2 = 1 then do
    let x ← copyVec s.2 s.1
    pure (x, s.2)
  else pure s

end Neo
