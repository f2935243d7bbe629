import Verif.Model.Upc
import Verif.Model.Rfft
import Verif.Model.Conv
import Verif.Spec.Ieee

/-!
# Model: the partitioned convolvers over any arithmetic

The code of `Verif.Model.Overlap` for arbitrary number types.  Nothing is assumed about the operations except, later, that
complex addition is commutative; in particular they may round, overflow, or produce NaN.  The convolver itself, its
delay line and its filter are the definitions of `Verif.Model.Upc`, which do not depend on the number type.  The second
part gives the operations of the IEEE 754 binary formats.
-/

namespace Neo

/-- The operations of the number types that are not `+`, `-`, `*` or zero: `Complex(x)` of a real sample, `math::conj`
(`src/neo/math/conj.hpp:23-41`), `z.real()`, `Float(1) / Float(size)`, and the entries of the twiddle tables
(`src/neo/fft/twiddle.hpp:17-29`). -/
structure Arith (R C : Type) where
  ofReal : R → C
  conj : C → C
  realPart : C → R
  invSize : ℕ → R
  twiddle : ℕ → ℕ → Direction → C

section any
variable {R C : Type} [Zero R] [Add R] [Mul R] [Zero C] [Add C] [Sub C] [Mul C] {A : Arith R C}

/-- `make_twiddle_lut_radix2` and `fill_twiddle_lut_radix2`, `src/neo/fft/twiddle.hpp:32-52`. -/
def makeTwiddleLutRadix2G (A : Arith R C) (size : ℕ) (dir : Direction) : List C :=
  (List.range (size / 2)).map (fun i => A.twiddle (size / 2 * 2) i dir)

/-- `c2c_dit2_plan` constructor, `src/neo/fft/reference/c2c_dit2_plan.hpp:42-55`. -/
def Dit2Plan.makeG (A : Arith R C) (order : ℕ) : Res (Dit2Plan C) := do
  let order ← dit2CheckOrder order
  let size := fftSize order
  let reorder ← bitrevMake (1 <<< order)
  pure {
    order := order
    size := size
    reorder := reorder
    wf := makeTwiddleLutRadix2G A size .forward
    wb := makeTwiddleLutRadix2G A size .backward }

/-- `neo::copy(in, out)` from a real to a complex vector, `src/neo/algorithm/copy.hpp:18-27`. -/
def copyRealToComplexG (A : Arith R C) (input : List R) (output : List C) : Res (List C) := do
  check (input.length = output.length)
  forN input.length (fun i out => do
    let v ← rd input i
    wr out i (A.ofReal v)) output

/-- `fallback_rfft_plan`, `src/neo/fft/fallback/fallback_rfft_plan.hpp:14-61`, over any arithmetic. -/
structure RfftPlanG (A : Arith R C) where
  order : Nat
  fft : Dit2Plan C
  buffer : List C

/-- `fallback_rfft_plan::size()`, `fallback_rfft_plan.hpp:25`. -/
def RfftPlanG.size (p : RfftPlanG A) : Nat := fftSize p.order

/-- Constructor, `fallback_rfft_plan.hpp:21,57-60`. -/
def RfftPlanG.make (A : Arith R C) (order : Nat) : Res (RfftPlanG A) := do
  let fft ← Dit2Plan.makeG A order
  pure { order := order, fft := fft, buffer := vec (fftSize order) (fun _ => 0) }

/-- Forward call operator, `fallback_rfft_plan.hpp:27-36`. -/
def RfftPlanG.rfft (p : RfftPlanG A) (input : List R) (out : List C) :
    Res (RfftPlanG A × List C) := do
  let coeffs := p.size / 2 + 1
  let buf ← copyRealToComplexG A input p.buffer
  let buf ← p.fft.call buf .forward
  let src ← rdSpan buf 0 coeffs
  let out ← copyInto src out 0 coeffs
  pure ({ p with buffer := buf }, out)

/-- Backward call operator, `fallback_rfft_plan.hpp:38-55`. -/
def RfftPlanG.irfft (p : RfftPlanG A) (input : List C) (out : List R) :
    Res (RfftPlanG A × List R) := do
  let coeffs := p.size / 2 + 1
  let buf ← copyInto input p.buffer 0 input.length
  let buf ← forR coeffs p.size (fun i buf => do
    let v ← rd buf (p.size - i)
    wr buf i (A.conj v)) buf
  let buf ← p.fft.call buf .backward
  let out ← forN p.size (fun i out => do
    let v ← rd buf i
    wr out i (A.realPart v)) out
  pure ({ p with buffer := buf }, out)

/-- `overlap_add`, `src/neo/convolution/overlap_add.hpp:22-51`, over any arithmetic. -/
structure OverlapAddG (A : Arith R C) where
  blockSize : Nat
  filterSize : Nat
  rfft : RfftPlanG A
  window : List R
  spectrum : List C
  overlap : List R

/-- Constructor, `overlap_add.hpp:53-57`. -/
def OverlapAddG.make (A : Arith R C) (blockSize filterSize : Nat) : Res (OverlapAddG A) := do
  if blockSize + filterSize = 0 then .error .exception else .ok ()
  let rfft ← RfftPlanG.make A (nextOrder (outputSizeFull blockSize filterSize))
  pure {
    blockSize := blockSize
    filterSize := filterSize
    rfft := rfft
    window := vec rfft.size (fun _ => 0)
    spectrum := vec (rfft.size / 2 + 1) (fun _ => 0)
    overlap := vec blockSize (fun _ => 0) }

/-- Call operator, `overlap_add.hpp:77-107`.  `signal` and `padding` are views of the window. -/
def OverlapAddG.call {σ : Type} (o : OverlapAddG A) (block : List R)
    (cb : Callback σ C) (s : σ) : Res (OverlapAddG A × List R × σ) := do
  check (block.length = o.blockSize)
  let bs := o.blockSize
  let window := o.window
  let _ ← rdSpan window 0 bs
  let padding ← rdSpan window bs (bs * 2)
  -- copy and zero-pad input
  let window ← copyInto block window 0 bs
  let padding ← fillVec padding 0
  let window ← wrSpan window bs padding
  -- K-point rfft
  let (plan, spectrum) ← o.rfft.rfft window o.spectrum
  -- convolve
  let (spectrum, s) ← cb spectrum s
  -- K-point irfft
  let (plan, window) ← plan.irfft spectrum window
  let window ← scaleVec (A.invSize plan.size) window
  -- copy to output
  let signal ← rdSpan window 0 bs
  let block ← addVec signal o.overlap block
  -- save overlap for next iteration
  let padding ← rdSpan window bs (bs * 2)
  let overlap ← copyVec padding o.overlap
  pure ({ o with rfft := plan, window := window, spectrum := spectrum, overlap := overlap },
    block, s)

/-- `overlap_save`, `src/neo/convolution/overlap_save.hpp:20-58`, over any arithmetic. -/
structure OverlapSaveG (A : Arith R C) where
  blockSize : Nat
  filterSize : Nat
  plan : RfftPlanG A
  window : List R
  realBuffer : List R
  complexBuffer : List C

/-- Constructor, `overlap_save.hpp:60-64`. -/
def OverlapSaveG.make (A : Arith R C) (blockSize filterSize : Nat) : Res (OverlapSaveG A) := do
  if blockSize + filterSize = 0 then .error .exception else .ok ()
  let plan ← RfftPlanG.make A (nextOrder (blockSize + filterSize - 1))
  pure {
    blockSize := blockSize
    filterSize := filterSize
    plan := plan
    window := vec plan.size (fun _ => 0)
    realBuffer := vec plan.size (fun _ => 0)
    complexBuffer := vec plan.size (fun _ => 0) }

/-- Call operator, `overlap_save.hpp:84-112`. -/
def OverlapSaveG.call {σ : Type} (o : OverlapSaveG A) (block : List R)
    (cb : Callback σ C) (s : σ) : Res (OverlapSaveG A × List R × σ) := do
  check (block.length = o.blockSize)
  let bs := o.blockSize
  let K := o.plan.size
  let lo ← subIdx K bs
  let _ ← rdSpan o.window lo K
  let window ← slideWindowLeft bs o.window
  let window ← copyInto block window lo (K - lo)
  -- 2B-point R2C-FFT
  let (plan, complexBuf) ← o.plan.rfft window o.complexBuffer
  -- apply processing to the first K/2+1 coefficients
  let coeffs ← rdSpan complexBuf 0 (K / 2 + 1)
  let (coeffs, s) ← cb coeffs s
  let complexBuf ← wrSpan complexBuf 0 coeffs
  -- 2B-point C2R-IFFT
  let (plan, realBuf) ← plan.irfft complexBuf o.realBuffer
  let realBuf ← scaleVec (A.invSize plan.size) realBuf
  -- copy block_size samples to output
  let keep ← rdSpan realBuf lo K
  let block ← copyVec keep block
  pure ({ o with plan := plan, window := window, realBuffer := realBuf,
                 complexBuffer := complexBuf }, block, s)

/-- `overlap_add` as a template argument.
`src/neo/convolution/uniform_partitioned_convolver.hpp:28,40,50`; `src/neo/convolution/overlap_add.hpp:24-107`. -/
def olaOpsG (A : Arith R C) : OverlapOps (OverlapAddG A) R C where
  make := OverlapAddG.make A
  call := fun o block cb s => o.call block cb s

/-- `overlap_save` as a template argument.
`src/neo/convolution/uniform_partitioned_convolver.hpp:28,40,50`; `src/neo/convolution/overlap_save.hpp:21-112`. -/
def olsOpsG (A : Arith R C) : OverlapOps (OverlapSaveG A) R C where
  make := OverlapSaveG.make A
  call := fun o block cb s => o.call block cb s

/-- `upola_convolver`, `src/neo/convolution/dense_convolver.hpp:24`, over any arithmetic. -/
def upolaRunG (A : Arith R C) (v : MatView) (data : List C) (blocks : List (List R)) :
    Res (List (List R)) :=
  Upc.run (olaOpsG A) denseFdlOps denseFilterOps { rows := 0, cols := 0, data := [] } v data () blocks

/-- `upols_convolver`, `dense_convolver.hpp:20`, over any arithmetic. -/
def upolsRunG (A : Arith R C) (v : MatView) (data : List C) (blocks : List (List R)) :
    Res (List (List R)) :=
  Upc.run (olsOpsG A) denseFdlOps denseFilterOps { rows := 0, cols := 0, data := [] } v data () blocks

end any

/-! ## IEEE 754 -/

open Spec

/-- Real numbers of the format `f`: `float`, `double`.
`src/neo/convolution/overlap_add.hpp:26-28`. -/
@[ext] structure IR (f : Fmt) where
  val : FVal

/-- Complex numbers with parts in the format `f`, `neo::scalar_complex`, `src/neo/complex/scalar_complex.hpp:14-57`. -/
@[ext] structure IC (f : Fmt) where
  re : FVal
  im : FVal

noncomputable section
variable {f : Fmt}

/-- Zero. `src/neo/convolution/overlap_add.hpp:26-28`. -/
instance : Zero (IR f) := ⟨⟨.fin 0⟩⟩
/-- Rounded sum. `src/neo/convolution/overlap_add.hpp:26-28`. -/
instance : Add (IR f) := ⟨fun a b => ⟨f.round (a.val.add b.val)⟩⟩
/-- Rounded product. `src/neo/convolution/overlap_add.hpp:26-28`. -/
instance : Mul (IR f) := ⟨fun a b => ⟨f.round (a.val.mul b.val)⟩⟩

/-- Zero. `src/neo/convolution/overlap_add.hpp:26-28`. -/
instance : Zero (IC f) := ⟨⟨.fin 0, .fin 0⟩⟩
/-- `operator+`, `scalar_complex.hpp:35-41`: the sums of the parts, each rounded. -/
instance : Add (IC f) := ⟨fun a b => ⟨f.round (a.re.add b.re), f.round (a.im.add b.im)⟩⟩
/-- `operator-`, `scalar_complex.hpp:43-49`: the differences of the parts, each rounded. -/
instance : Sub (IC f) := ⟨fun a b => ⟨f.round (a.re.sub b.re), f.round (a.im.sub b.im)⟩⟩
/-- `operator*`, `scalar_complex.hpp:51-57`: four products, a difference and a sum, each rounded (not fused, and without
the recovery of infinities that `std::complex` may perform). -/
instance : Mul (IC f) := ⟨fun a b =>
  ⟨f.round ((f.round (a.re.mul b.re)).sub (f.round (a.im.mul b.im))),
    f.round ((f.round (a.re.mul b.im)).add (f.round (a.im.mul b.re)))⟩⟩

/-- The other operations in the format `f`.  The entries `tw size index dir` of the twiddle tables come from the maths
library; nothing is assumed about them.
`src/neo/fft/twiddle.hpp:17-29`; `src/neo/convolution/overlap_add.hpp:100`. -/
def ieeeArith (f : Fmt) (tw : ℕ → ℕ → Direction → IC f) : Arith (IR f) (IC f) where
  ofReal x := ⟨x.val, .fin 0⟩
  conj z := ⟨z.re, z.im.neg⟩
  realPart z := ⟨z.re⟩
  invSize n := ⟨f.round (FVal.div (.fin 1) (f.round (.fin n)))⟩
  twiddle := tw

end

end Neo
