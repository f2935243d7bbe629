import Verif.Core
import Mathlib.Data.Complex.Basic

/-!
# Model: element-wise algorithms (`neo/algorithm`)

Vectors (rank-1 mdspans) are lists; a call returns the new content of the output vector.  The
vendor paths (`NEO_HAS_CBLAS`, Accelerate) are not modelled.  Where a caller passes the same buffer as
input and output, the aliased variant (`…InPlace`, `…Acc`) is used: it reads the buffer that is being
written.
-/

namespace Neo

/-- `neo::copy(in, out)` on vectors, `src/neo/algorithm/copy.hpp:18-27`
(`in` and `out` are distinct buffers). -/
def copyVec {α : Type} (input output : List α) : Res (List α) := do
  check (input.length = output.length)
  forN input.length (fun i out => do
    let v ← rd input i
    wr out i v) output

/-- `neo::copy(in, out)` from a real to a complex vector, `src/neo/algorithm/copy.hpp:18-27`
(the assignment converts `Float` to `Complex`). -/
def copyRealToComplex (input : List ℝ) (output : List ℂ) : Res (List ℂ) := do
  check (input.length = output.length)
  forN input.length (fun i out => do
    let v ← rd input i
    wr out i (v : ℂ)) output

/-- `copy(src, submdspan(dst, tuple{lo, lo + n}))`: `dst` is the parent buffer,
`n` the extent of the destination span. `src/neo/algorithm/copy.hpp:18-35`. -/
def copyInto {α : Type} (src dst : List α) (lo n : Nat) : Res (List α) := do
  let span ← rdSpan dst lo (lo + n)
  let r ← copyVec src span
  wrSpan dst lo r

/-- `detail::linalg_unary_op` on vectors, `src/neo/algorithm/backend/linalg_unary_op.hpp:10-18`. -/
def unaryOp {α : Type} (op : α → α) (obj : List α) : Res (List α) :=
  forN obj.length (fun i obj => do
    let v ← rd obj i
    wr obj i (op v)) obj

/-- `neo::fill`, `src/neo/algorithm/fill.hpp:10-14`. -/
def fillVec {α : Type} (obj : List α) (val : α) : Res (List α) := unaryOp (fun _ => val) obj

/-- `neo::scale` (portable path), `src/neo/algorithm/scale.hpp:14-28`. -/
def scaleVec {α : Type} [Mul α] (alpha : α) (obj : List α) : Res (List α) :=
  unaryOp (fun v => v * alpha) obj

/-- `detail::linalg_binary_op` on vectors,
`src/neo/algorithm/backend/linalg_binary_op.hpp:13-22`; `out` distinct from `x` and `y`. -/
def binaryOp {α : Type} (op : α → α → α) (x y out : List α) : Res (List α) := do
  check (x.length = y.length ∧ x.length = out.length)
  forN x.length (fun i out => do
    let a ← rd x i
    let b ← rd y i
    wr out i (op a b)) out

/-- `detail::linalg_binary_op(x, y, x)`: the output is the first input.
`src/neo/algorithm/backend/linalg_binary_op.hpp:13-30`. -/
def binaryOpInPlace {α : Type} (op : α → α → α) (x y : List α) : Res (List α) := do
  check (x.length = y.length)
  forN x.length (fun i out => do
    let a ← rd out i
    let b ← rd y i
    wr out i (op a b)) x

/-- `neo::add`, `src/neo/algorithm/add.hpp:15-20`. -/
def addVec {α : Type} [Add α] (x y out : List α) : Res (List α) := binaryOp (· + ·) x y out

/-- `neo::multiply`, `src/neo/algorithm/multiply.hpp:15-20`. -/
def multiplyVec {α : Type} [Mul α] (x y out : List α) : Res (List α) := binaryOp (· * ·) x y out

/-- `neo::multiply(x, y, x)`. `src/neo/algorithm/multiply.hpp:15-20`. -/
def multiplyInPlace {α : Type} [Mul α] (x y : List α) : Res (List α) :=
  binaryOpInPlace (· * ·) x y

/-- `neo::multiply_add(x, y, z, out)` (scalar loop),
`src/neo/algorithm/multiply_add.hpp:279-301`; `out` distinct from the inputs. -/
def multiplyAdd {α : Type} [Mul α] [Add α] (x y z out : List α) : Res (List α) := do
  check (x.length = y.length ∧ x.length = z.length ∧ x.length = out.length)
  forN x.length (fun i out => do
    let a ← rd x i
    let b ← rd y i
    let c ← rd z i
    wr out i (a * b + c)) out

/-- `neo::multiply_add(x, y, acc, acc)` (scalar loop): the addend is the output.
`src/neo/convolution/dense_filter.hpp:31-35`. -/
def multiplyAddAcc {α : Type} [Mul α] [Add α] (x y acc : List α) : Res (List α) := do
  check (x.length = y.length ∧ x.length = acc.length)
  forN x.length (fun i out => do
    let a ← rd x i
    let b ← rd y i
    let c ← rd out i
    wr out i (a * b + c)) acc

end Neo
