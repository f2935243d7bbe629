import Verif.Model.Mat
import Verif.Model.Fft2
import Verif.Spec.Dft

/-!
# Model: plans on top of vendor libraries

`neo/fft/backend/vdsp.hpp`, `neo/fft/backend/mkl.hpp`, `neo/fft/backend/ipp.hpp`: the plan types that
`fft_plan`, `split_fft_plan`, `dft_plan` and `rfft_plan` name when Apple Accelerate, Intel IPP or Intel
MKL is available.

The libraries themselves are not part of the repository.  They appear as an arbitrary `Vendor`, a
collection of functions; what their documentation promises is collected in `Vendor.Contract`, which the
theorems assume.  A vendor function gets raw pointers: it reads and writes as many elements as its size
says, and the model reports `oob` when a buffer is shorter.

`vz` is the value of `always_vectorizable<…>` (`src/neo/container/mdspan.hpp:186-188`) for the vectors
passed in: default accessor and the same contiguous layout.  Vectors are their element sequences, for
contiguous and for strided ones.  The precision (`float` or `double`) selects the vendor function and is
not modelled otherwise; allocation failure is not modelled.
-/

namespace Neo

/-- Arbitrary vendor functions.  `setup order`: creating a set-up object for `2^order` elements
succeeds; `dftSetup n`: the same for arbitrary sizes; `c2c dir n x`: complex transform;
`ccs n x`, `ccsInv n y`: real transforms in IPP's CCS format.
`src/neo/fft/backend/vdsp.hpp:83,138,259,289`; `src/neo/fft/backend/mkl.hpp:56-58,90-92`; `src/neo/fft/backend/ipp.hpp:63-70,83-90,189-207,277-290,367-383,465-482`. -/
structure Vendor where
  setup : Int → Bool
  dftSetup : Int → Bool
  c2c : Direction → Nat → List ℂ → List ℂ
  ccs : Nat → List ℝ → List ℝ
  ccsInv : Nat → List ℝ → List ℝ

/-- What the documentation of the libraries promises for the calls made by the plans: `vDSP_fft_zop`,
`vDSP_fft_zip`, `DftiCompute{Forward,Backward}` with default scale, `ippsFFT{Fwd,Inv}_CToC` and
`ippsDFT{Fwd,Inv}_CToC` with `IPP_FFT_NODIV_BY_ANY` compute the unnormalised transforms;
`ippsFFTFwd_RToCCS` stores the bins `0 … n/2` as pairs, and `ippsFFTInv_CCSToR` inverts (without
scaling) spectra in that format, whose first and last bin are real.
`src/neo/fft/backend/vdsp.hpp:138,259,289`; `src/neo/fft/backend/mkl.hpp:56-58`; `src/neo/fft/backend/ipp.hpp:189-207,277-290,367-383,465-482`. -/
structure Vendor.Contract (v : Vendor) : Prop where
  c2c : ∀ dir n x, x.length = n → (v.c2c dir n x).length = n ∧
    ∀ k < n, (v.c2c dir n x)[k]? = some (if dir = .forward then Spec.dft n (fun i => x.getD i 0) k
      else Spec.idft n (fun i => x.getD i 0) k)
  ccs : ∀ n x, n % 2 = 0 → 0 < n → x.length = n → (v.ccs n x).length = n + 2 ∧
    ∀ k ≤ n / 2,
      (v.ccs n x)[2 * k]? = some (Spec.dft n (fun i => (x.getD i 0 : ℂ)) k).re ∧
      (v.ccs n x)[2 * k + 1]? = some (Spec.dft n (fun i => (x.getD i 0 : ℂ)) k).im
  ccsInv : ∀ n y, n % 2 = 0 → 0 < n → y.length = n + 2 → y.getD 1 0 = 0 → y.getD (n + 1) 0 = 0 →
    (v.ccsInv n y).length = n ∧
    ∀ i < n, (v.ccsInv n y)[i]? = some (Spec.idft n
      (fun k => if k ≤ n / 2 then ⟨y.getD (2 * k) 0, y.getD (2 * k + 1) 0⟩
        else ⟨y.getD (2 * (n - k)) 0, -y.getD (2 * (n - k) + 1) 0⟩) i).re

/-- `static_cast<int>(n)` of a `size_t` (two's complement).
`src/neo/fft/backend/ipp.hpp:63,68,83,88`. -/
def castInt (n : Nat) : Int := if n % 2 ^ 32 < 2 ^ 31 then (n % 2 ^ 32 : Nat) else (n % 2 ^ 32 : Nat) - 2 ^ 32

/-- `fft::size(order)` for a `size_t`: shifting by 64 or more is undefined,
`src/neo/fft/order.hpp:26-31`, `src/neo/math/ipow.hpp:24-26`. -/
def sizeOfOrder (order : Nat) : Res Nat := if 64 ≤ order then .error .overflow else .ok (fftSize order)

/-- An in-place complex vendor call on the pointer `buf`. `src/neo/fft/backend/mkl.hpp:56-58`. -/
def Vendor.inPlace (v : Vendor) (dir : Direction) (n : Nat) (buf : List ℂ) : Res (List ℂ) := do
  let x ← rdSpan buf 0 n
  wrSpan buf 0 (v.c2c dir n x)

/-- An out-of-place complex vendor call. `src/neo/fft/backend/ipp.hpp:191-192,279-280`. -/
def Vendor.outOfPlace (v : Vendor) (dir : Direction) (n : Nat) (input out : List ℂ) :
    Res (List ℂ) := do
  let x ← rdSpan input 0 n
  wrSpan out 0 (v.c2c dir n x)

/-- A split-complex vendor call (in place when `out = input`).
`src/neo/fft/backend/vdsp.hpp:138,259,289`. -/
def Vendor.splitCall (v : Vendor) (dir : Direction) (n : Nat) (input out : List ℝ × List ℝ) :
    Res (List ℝ × List ℝ) := do
  let re ← rdSpan input.1 0 n
  let im ← rdSpan input.2 0 n
  let y := v.c2c dir n (List.zipWith Complex.mk re im)
  let re ← wrSpan out.1 0 (y.map Complex.re)
  let im ← wrSpan out.2 0 (y.map Complex.im)
  pure (re, im)

/-! ## Apple vDSP -/

/-- `apple_vdsp_fft_plan`, `src/neo/fft/backend/vdsp.hpp:24-71`; `_input` and `_output` are the two rows
of 2×N arrays. -/
structure AppleFftPlan where
  order : Nat
  size : Nat
  input : List ℝ × List ℝ
  output : List ℝ × List ℝ

/-- Constructor, `vdsp.hpp:65-71,75-90`: `_size` is computed before the order is checked. -/
def AppleFftPlan.make (v : Vendor) (order : Nat) : Res AppleFftPlan := do
  let size ← sizeOfOrder order
  if 27 < order then .error .exception else do
    check (v.setup order)
    pure { order := order, size := size,
           input := (vec size (fun _ => 0), vec size (fun _ => 0)),
           output := (vec size (fun _ => 0), vec size (fun _ => 0)) }

/-- `operator()`, `vdsp.hpp:122-146`. -/
def AppleFftPlan.call (v : Vendor) (p : AppleFftPlan) (x : List ℂ) (dir : Direction) :
    Res (AppleFftPlan × List ℂ) := do
  check (x.length = p.size)
  let input ← forN x.length (fun i (s : List ℝ × List ℝ) => do
    let z ← rd x i
    let re ← wr s.1 i z.re
    let im ← wr s.2 i z.im
    pure (re, im)) p.input
  let output ← v.splitCall dir (1 <<< p.order) input p.output
  let x ← forN x.length (fun i x => do
    let re ← rd output.1 i
    let im ← rd output.2 i
    wr x i ⟨re, im⟩) x
  pure ({ p with input := input, output := output }, x)

/-- `apple_vdsp_split_fft_plan`, `src/neo/fft/backend/vdsp.hpp:151-196` (its buffers are never used). -/
structure AppleSplitPlan where
  order : Nat
  size : Nat

/-- Constructor, `vdsp.hpp:190-211`: no limit on the order. -/
def AppleSplitPlan.make (v : Vendor) (order : Nat) : Res AppleSplitPlan := do
  let size ← sizeOfOrder order
  check (v.setup order)
  pure { order := order, size := size }

/-- In-place `operator()`, `vdsp.hpp:243-266`.  The `else` branch is the expression statement
`always_false<InOutVec>;`, which does nothing. -/
def AppleSplitPlan.call (v : Vendor) (vz : Bool) (p : AppleSplitPlan) (x : List ℝ × List ℝ)
    (dir : Direction) : Res (List ℝ × List ℝ) := do
  check (x.1.length = p.size)
  check (x.1.length = x.2.length)
  if vz then v.splitCall dir (1 <<< p.order) x x else pure x

/-- Out-of-place `operator()`, `vdsp.hpp:271-296`. -/
def AppleSplitPlan.callOut (v : Vendor) (vz : Bool) (p : AppleSplitPlan) (input out : List ℝ × List ℝ)
    (dir : Direction) : Res (List ℝ × List ℝ) := do
  check (input.1.length = p.size)
  check (input.1.length = input.2.length ∧ input.1.length = out.1.length
    ∧ input.1.length = out.2.length)
  if vz then v.splitCall dir (1 <<< p.order) input out else pure out

/-! ## Intel MKL -/

/-- `intel_mkl_fft_plan`, `src/neo/fft/backend/mkl.hpp:19-100`. -/
structure MklFftPlan where
  order : Nat
  buffer : List ℂ

/-- Constructor, `mkl.hpp:25,77-99` (the status of the `Dfti` calls is ignored by the code). -/
noncomputable def MklFftPlan.make (order : Nat) : Res MklFftPlan :=
  if 27 < order then .error .exception
  else .ok { order := order, buffer := vec (fftSize order) (fun _ => 0) }

/-- `operator()`, `mkl.hpp:48-69`; the descriptor has length `ipow<2>(order)`. -/
def MklFftPlan.call (v : Vendor) (vz : Bool) (p : MklFftPlan) (x : List ℂ) (dir : Direction) :
    Res (MklFftPlan × List ℂ) := do
  check (x.length = fftSize p.order)
  if vz then do
    let x ← v.inPlace dir (fftSize p.order) x
    pure (p, x)
  else do
    let buf ← copyVec x p.buffer
    let buf ← v.inPlace dir (fftSize p.order) buf
    let x ← copyVec buf x
    pure ({ p with buffer := buf }, x)

/-! ## Intel IPP -/

/-- `detail::make_ipp_fft_handle`, `src/neo/fft/backend/ipp.hpp:30-71`: the status of the size query is
turned into an exception. -/
def ippHandle (v : Vendor) (order : Nat) : Res Unit :=
  if v.setup (castInt order) then .ok () else .error .exception

/-- `intel_ipp_fft_plan`, `ipp.hpp:119-217`. -/
structure IppFftPlan where
  order : Nat
  buffer : List ℂ

/-- Constructor, `ipp.hpp:125-129`. -/
noncomputable def IppFftPlan.make (v : Vendor) (order : Nat) : Res IppFftPlan := do
  ippHandle v order
  let n ← sizeOfOrder order
  pure { order := order, buffer := vec n (fun _ => 0) }

/-- In-place `operator()`, `ipp.hpp:145-161`. -/
def IppFftPlan.call (v : Vendor) (vz : Bool) (p : IppFftPlan) (x : List ℂ) (dir : Direction) :
    Res (IppFftPlan × List ℂ) := do
  let n ← sizeOfOrder p.order
  check (x.length = n)
  if vz then do
    let x ← v.inPlace dir (1 <<< p.order) x
    pure (p, x)
  else do
    let buf ← copyVec x p.buffer
    let buf ← v.inPlace dir (1 <<< p.order) buf
    let x ← copyVec buf x
    pure ({ p with buffer := buf }, x)

/-- Out-of-place `operator()`, `ipp.hpp:163-181`.  The `mdspan` of `_buffer` is contiguous, so the inner
call takes its first branch. -/
def IppFftPlan.callOut (v : Vendor) (vz : Bool) (p : IppFftPlan) (input out : List ℂ)
    (dir : Direction) : Res (IppFftPlan × List ℂ) := do
  let n ← sizeOfOrder p.order
  check (input.length = n)
  check (out.length = n)
  if vz then do
    let out ← v.outOfPlace dir (1 <<< p.order) input out
    pure (p, out)
  else do
    let buf ← copyVec input p.buffer
    let r ← p.call v true buf dir
    let out ← copyVec r.2 out
    pure ({ p with buffer := r.2 }, out)

/-- `intel_ipp_dft_plan`, `ipp.hpp:222-301`. -/
structure IppDftPlan where
  size : Nat
  tmpIn : List ℂ
  tmpOut : List ℂ

/-- Constructor, `ipp.hpp:227-230,295-300`. -/
noncomputable def IppDftPlan.make (v : Vendor) (size : Nat) : Res IppDftPlan :=
  if v.dftSetup (castInt size) then
    .ok { size := size, tmpIn := vec size (fun _ => 0), tmpOut := vec size (fun _ => 0) }
  else .error .exception

/-- Out-of-place `operator()`, `ipp.hpp:250-270`. -/
def IppDftPlan.callOut (v : Vendor) (vz : Bool) (p : IppDftPlan) (input out : List ℂ)
    (dir : Direction) : Res (IppDftPlan × List ℂ) := do
  check (input.length = p.size)
  check (out.length = p.size)
  if vz then do
    let out ← v.outOfPlace dir p.size input out
    pure (p, out)
  else do
    let tin ← copyVec input p.tmpIn
    let tout ← v.outOfPlace dir p.size tin p.tmpOut
    let out ← copyVec tout out
    pure ({ p with tmpIn := tin, tmpOut := tout }, out)

/-- In-place `operator()`, `ipp.hpp:240-248`; the inner call is on contiguous views. -/
def IppDftPlan.call (v : Vendor) (p : IppDftPlan) (x : List ℂ) (dir : Direction) :
    Res (IppDftPlan × List ℂ) := do
  check (x.length = p.size)
  let tin ← copyVec x p.tmpIn
  let r ← ({ p with tmpIn := tin } : IppDftPlan).callOut v true tin p.tmpOut dir
  let x ← copyVec r.2 x
  pure ({ p with tmpIn := tin, tmpOut := r.2 }, x)

/-- `intel_ipp_split_fft_plan`, `ipp.hpp:306-393` (its buffer is never used). -/
structure IppSplitPlan where
  order : Nat

/-- Constructor, `ipp.hpp:311-314,388-389`. -/
def IppSplitPlan.make (v : Vendor) (order : Nat) : Res IppSplitPlan := do
  let _ ← sizeOfOrder order
  ippHandle v order
  pure { order := order }

/-- In-place `operator()`, `ipp.hpp:326-339`.  The `else` branch is the expression statement
`always_false<InOutVec>;`, which does nothing. -/
def IppSplitPlan.call (v : Vendor) (vz : Bool) (p : IppSplitPlan) (x : List ℝ × List ℝ)
    (dir : Direction) : Res (List ℝ × List ℝ) := do
  let n ← sizeOfOrder p.order
  check (x.1.length = n)
  check (x.1.length = x.2.length)
  if vz then v.splitCall dir (1 <<< p.order) x x else pure x

/-- Out-of-place `operator()`, `ipp.hpp:341-361`. -/
def IppSplitPlan.callOut (v : Vendor) (vz : Bool) (p : IppSplitPlan) (input out : List ℝ × List ℝ)
    (dir : Direction) : Res (List ℝ × List ℝ) := do
  let n ← sizeOfOrder p.order
  check (input.1.length = n)
  check (input.1.length = input.2.length ∧ input.1.length = out.1.length
    ∧ input.1.length = out.2.length)
  if vz then v.splitCall dir (1 <<< p.order) input out else pure out

/-- `reinterpret_cast<Float*>` of a complex pointer: alternating real and imaginary parts.
`src/neo/fft/backend/ipp.hpp:424-458`. -/
noncomputable def asReals (z : List ℂ) : List ℝ :=
  vec (2 * z.length) (fun j => if j % 2 = 0 then (z.getD (j / 2) 0).re else (z.getD (j / 2) 0).im)

/-- The inverse view. `src/neo/fft/backend/ipp.hpp:424-458`. -/
def asComplex (r : List ℝ) : List ℂ :=
  vec (r.length / 2) (fun i => ⟨r.getD (2 * i) 0, r.getD (2 * i + 1) 0⟩)

/-- `intel_ipp_rfft_plan`, `ipp.hpp:398-492`; `_buffer` holds `2·N` reals. -/
structure IppRfftPlan where
  order : Nat
  buffer : List ℝ

/-- Constructor, `ipp.hpp:404-407,487-491`: the buffer is a default member initialiser, made before the
handle. -/
noncomputable def IppRfftPlan.make (v : Vendor) (order : Nat) : Res IppRfftPlan := do
  let n ← sizeOfOrder order
  ippHandle v order
  pure { order := order, buffer := vec (n * 2) (fun _ => 0) }

/-- Forward `operator()`, `ipp.hpp:419-439`. -/
noncomputable def IppRfftPlan.rfft (v : Vendor) (vz : Bool) (p : IppRfftPlan) (input : List ℝ)
    (out : List ℂ) : Res (IppRfftPlan × List ℂ) := do
  let n ← sizeOfOrder p.order
  check (input.length = n)
  if vz then do
    let x ← rdSpan input 0 (1 <<< p.order)
    let r ← wrSpan (asReals out) 0 (v.ccs (1 <<< p.order) x)
    pure (p, asComplex r)
  else do
    let buf ← copyInto input p.buffer 0 n
    let x ← rdSpan buf 0 (1 <<< p.order)
    let buf ← wrSpan buf 0 (v.ccs (1 <<< p.order) x)
    let out ← forN (n / 2 + 1) (fun i out => do
      let re ← rd buf (i * 2)
      let im ← rd buf (i * 2 + 1)
      wr out i ⟨re, im⟩) out
    pure ({ p with buffer := buf }, out)

/-- Backward `operator()`, `ipp.hpp:441-458`: no length is asserted. -/
noncomputable def IppRfftPlan.irfft (v : Vendor) (vz : Bool) (p : IppRfftPlan) (input : List ℂ)
    (out : List ℝ) : Res (IppRfftPlan × List ℝ) := do
  if vz then do
    let y ← rdSpan (asReals input) 0 ((1 <<< p.order) + 2)
    let out ← wrSpan out 0 (v.ccsInv (1 <<< p.order) y)
    pure (p, out)
  else do
    let buf ← forN input.length (fun i buf => do
      let z ← rd input i
      let buf ← wr buf (i * 2) z.re
      wr buf (i * 2 + 1) z.im) p.buffer
    let y ← rdSpan buf 0 ((1 <<< p.order) + 2)
    let buf ← wrSpan buf 0 (v.ccsInv (1 <<< p.order) y)
    let n ← sizeOfOrder p.order
    let x ← rdSpan buf 0 n
    let out ← copyVec x out
    pure ({ p with buffer := buf }, out)

end Neo
