import Verif.Model.Fft2
import Verif.Model.IntT
import Mathlib.Analysis.SpecialFunctions.Pow.Real

/-!
# Model: the Python bindings of `fft`/`ifft` (`extra/python/src/main.cpp`)

A one-dimensional NumPy array is the list of its elements (the three layouts of `as_mdspan_impl`
only change how the elements are addressed).  Arrays of another rank raise an exception before any
of this runs (`main.cpp:126`).  The plan is the fallback plan (no IPP / Accelerate).
-/

namespace Neo

/-- `neo::fft::norm`, `src/neo/fft/norm.hpp:8-14`. -/
inductive Norm where
  | none
  | backward
  | forward
  | ortho
  deriving DecidableEq, Repr

/-- `std::has_single_bit` (C++20 [bit.pow.two]) by the usual implementation.
`extra/python/src/main.cpp:137`. -/
def hasSingleBit (x : Nat) : Bool := x ≠ 0 ∧ x &&& (x - 1) = 0

/-- `fft<Complex, Dir>(array, n, norm)`, `extra/python/src/main.cpp:129-167`.  The content of a fresh
`py::array_t` is unspecified; zeros here (`copy` overwrites all of it).  `size` is a `std::size_t`:
`next_order` is the machine version. -/
noncomputable def pyFft (dir : Direction) (input : List ℂ) (n : Option Nat) (norm : Norm) :
    Res (List ℂ) := do
  let size := n.getD input.length
  let order ← nextOrderT false ⟨false, 64⟩ size
  if hasSingleBit size = false then .error .exception else do
  let out : List ℂ := List.replicate size 0
  let plan ← Dit2Plan.make order.toNat
  let out ← match dir with
    | .forward => do
      let out ← fftOut plan input out
      if norm = .forward then scaleVec (((1 / (size : ℝ) : ℝ)) : ℂ) out else pure out
    | .backward => do
      let out ← ifftOut plan input out
      if norm = .backward then scaleVec (((1 / (size : ℝ) : ℝ)) : ℂ) out else pure out
  if norm = .ortho then scaleVec (((1 / Real.sqrt size : ℝ)) : ℂ) out else pure out

end Neo
