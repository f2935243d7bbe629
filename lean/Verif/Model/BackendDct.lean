import Verif.Model.Backend
import Verif.Spec.DctOrtho

/-!
# Model: cosine transforms on top of Intel IPP

`intel_ipp_dct_plan` and its aliases `intel_ipp_dct2_plan` and `intel_ipp_dct3_plan`
(`src/neo/fft/backend/ipp.hpp:93-112,494-583`).  As in `Model/Backend.lean` the library is arbitrary and
its documentation is an assumption.  The precision only selects the library functions; allocation
failure is not modelled.
-/

namespace Neo

/-- Arbitrary library functions.  `setup dir len`: the status of `ippsDCT{Fwd,Inv}GetSize` and
`ippsDCT{Fwd,Inv}Init` is `ippStsNoErr`; `run dir len x`: `ippsDCT{Fwd,Inv}_…_I` with a set-up object
for `len` elements.  `src/neo/fft/backend/ipp.hpp:532-535,542-545,552-555,562-565`. -/
structure DctVendor where
  setup : Direction → Int → Bool
  run : Direction → Nat → List ℝ → List ℝ

/-- What the documentation of IPP promises: lengths that are not positive are rejected
(`ippStsSizeErr`), the forward transform is the orthonormal DCT-II and the inverse one the orthonormal
DCT-III.  `src/neo/fft/backend/ipp.hpp:104,109,523`. -/
structure DctVendor.Contract (v : DctVendor) : Prop where
  setup : ∀ dir len, v.setup dir len = true → 0 < len
  run : ∀ dir n x, x.length = n → (v.run dir n x).length = n ∧
    ∀ k < n, (v.run dir n x)[k]? = some (if dir = .forward then Spec.dct2Ortho n (fun i => x.getD i 0) k
      else Spec.dct3Ortho n (fun i => x.getD i 0) k)

/-- `detail::make_ipp_dct_handle`, `src/neo/fft/backend/ipp.hpp:93-112`: `len` is computed by a shift in
`size_t` (undefined from 64 on) and then narrowed to `int`; a bad status becomes an exception
(`src/neo/fft/backend/ipp.hpp:30-51`).  The result is the length stored in the set-up object. -/
def ippDctHandle (v : DctVendor) (dir : Direction) (order : Nat) : Res Int := do
  let n ← sizeOfOrder order
  let len := castInt n
  if v.setup dir len then .ok len else .error .exception

/-- `intel_ipp_dct_plan<Float, dir>`, `src/neo/fft/backend/ipp.hpp:495-577`; `handle` is the length in
the set-up object that `_handle` points to. -/
structure IppDctPlan where
  dir : Direction
  order : Nat
  buffer : List ℝ
  handle : Int

/-- Constructor, `src/neo/fft/backend/ipp.hpp:502-505,572-576`: `_buffer{size()}` is initialised before
the body runs. -/
noncomputable def IppDctPlan.make (v : DctVendor) (dir : Direction) (order : Nat) : Res IppDctPlan := do
  let n ← sizeOfOrder order
  let h ← ippDctHandle v dir order
  pure { dir := dir, order := order, buffer := vec n (fun _ => 0), handle := h }

/-- `operator()`, `src/neo/fft/backend/ipp.hpp:517-525`: the vector is copied to `_buffer`, transformed
there by the library (whose status is ignored) and copied back. -/
def IppDctPlan.call (v : DctVendor) (p : IppDctPlan) (x : List ℝ) : Res (IppDctPlan × List ℝ) := do
  let buf ← copyVec x p.buffer
  let y ← rdSpan buf 0 p.handle.toNat
  let buf ← wrSpan buf 0 (v.run p.dir p.handle.toNat y)
  let x ← copyVec buf x
  pure ({ p with buffer := buf }, x)

/-- `intel_ipp_dct2_plan`, `src/neo/fft/backend/ipp.hpp:579-580`. -/
noncomputable def ippDct2 (v : DctVendor) (order : Nat) : Res IppDctPlan := IppDctPlan.make v .forward order

/-- `intel_ipp_dct3_plan`, `src/neo/fft/backend/ipp.hpp:582-583`. -/
noncomputable def ippDct3 (v : DctVendor) (order : Nat) : Res IppDctPlan := IppDctPlan.make v .backward order

end Neo
