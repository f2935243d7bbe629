import Mathlib.Data.Complex.Basic
import Verif.Model.IntT
import Verif.Model.Algo
import Verif.Model.MultiplyAdd

/-!
# Model: scalar helpers of `src/neo/math/` and the vendor versions of `scale` and `multiply_add`
-/

namespace Neo

/-! ## Scalar helpers -/

/-- `math::real(x)` of a floating-point number, `src/neo/math/real.hpp:25-29`. -/
def mathRealF {R : Type} (x : R) : R := x

/-- `math::real(z)` of a complex number, `src/neo/math/real.hpp:31-35`. -/
def mathRealC (z : ℂ) : ℝ := z.re

/-- `math::imag(x)` of a floating-point number, `src/neo/math/imag.hpp:25-29`. -/
def mathImagF {R : Type} (x : R) : R := x

/-- `math::imag(z)` of a complex number, `src/neo/math/imag.hpp:31-35`. -/
def mathImagC (z : ℂ) : ℝ := z.im

/-- `math::abs(x)` of an integer, `src/neo/math/abs.hpp:24-34`.  `std::abs` is taken on the promoted type;
it is undefined when the result is not representable. -/
def mathAbsT (t : IntT) (x : ℤ) : Res ℤ :=
  if t.signed then
    if x < 0 then t.promote.arith (-x) else .ok x
  else .ok x

/-- `is_even(x)`, `src/neo/math/is_even.hpp:11-14`, on the two's complement representation. -/
def isEvenT (t : IntT) (x : ℤ) : Bool := (BitVec.ofInt t.width x &&& BitVec.ofInt t.width 1) == 0

/-- `is_odd(x)`, `src/neo/math/is_odd.hpp:11-14`. -/
def isOddT (t : IntT) (x : ℤ) : Bool := (BitVec.ofInt t.width x &&& BitVec.ofInt t.width 1) != 0

/-! ## `scale` through CBLAS -/

/-- `cblas_?scal(n, alpha, x, incx)` as documented for BLAS: nothing for `n ≤ 0` or `incx ≤ 0`,
otherwise the elements `0, incx, …, (n-1)·incx` are multiplied by `alpha`.
`src/neo/algorithm/backend/cblas.hpp:31-61`; `src/neo/algorithm/scale.hpp:18-25`. -/
def cblasScal {α : Type} [Mul α] (n : ℤ) (alpha : α) (x : List α) (incx : ℤ) : Res (List α) :=
  if n ≤ 0 ∨ incx ≤ 0 then .ok x
  else forN n.toNat (fun i x => do
    let v ← rd x (i * incx.toNat)
    wr x (i * incx.toNat) (alpha * v)) x

/-- `neo::scale` of a contiguous vector with a CBLAS back end, `src/neo/algorithm/scale.hpp:17-26`,
`src/neo/algorithm/backend/cblas.hpp:31-61`; `size_type` has `w` bits (`long` on macOS, `MKL_INT` with MKL, which is
32 bits wide in its default interface). -/
def scaleCblas {α : Type} [Mul α] (w : ℕ) (alpha : α) (obj : List α) : Res (List α) :=
  cblasScal ((⟨true, w⟩ : IntT).conv obj.length) alpha obj ((⟨true, w⟩ : IntT).conv 1)

/-! ## `multiply_add` through vDSP -/

/-- What `vDSP_zvma`/`vDSP_zvmaD` computes from the first `n` elements of three split-complex
vectors: real and imaginary plane of the result. `src/neo/algorithm/multiply_add.hpp:97-101`. -/
abbrev Zvma (α : Type) := ℕ → SplitV α → SplitV α → SplitV α → List α × List α

/-- The split-complex `multiply_add` with Apple's library, `src/neo/algorithm/multiply_add.hpp:76-102,328-357`:
the sizes are checked, then the library gets the pointers. -/
def splitMultiplyAddVdsp {α : Type} (zvma : Zvma α) (ali : Bool) (x y z : SplitV α) (out : SplitV α) :
    Res (SplitV α) := do
  check (x.re.length = x.im.length ∧ x.re.length = y.re.length ∧ x.re.length = y.im.length ∧
    x.re.length = (zPlane ali z.re out.re).length ∧ x.re.length = (zPlane ali z.im out.im).length ∧
    x.re.length = out.re.length ∧ x.re.length = out.im.length)
  let n := x.re.length
  let r := zvma n x y ⟨zPlane ali z.re out.re, zPlane ali z.im out.im⟩
  let re ← wrSpan out.re 0 r.1
  let im ← wrSpan out.im 0 r.2
  pure ⟨re, im⟩

end Neo
