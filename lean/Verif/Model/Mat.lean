import Verif.Model.Algo

/-!
# Model: element-wise algorithms on matrices and split-complex vectors

A rank-2 mdspan is a strided view of a flat buffer: element `(r, c)` is stored at
`off + r * s0 + c * s1` (`layout_right`: `s0 = cols`, `s1 = 1`; `layout_left`: `s0 = 1`,
`s1 = rows`; `layout_stride` from `submdspan`: anything).
-/

namespace Neo

/-- A rank-2 mdspan mapping (extents and strides). `src/neo/container/mdspan.hpp:31-42`. -/
structure MatView where
  rows : Nat
  cols : Nat
  off : Nat
  s0 : Nat
  s1 : Nat
  deriving DecidableEq

/-- Offset of element `(r, c)` (`mapping(r, c)` of the mdspan layouts).
`src/neo/algorithm/copy.hpp:31`. -/
def MatView.idx (v : MatView) (r c : Nat) : Nat := v.off + r * v.s0 + c * v.s1

/-- `layout_right` view of a whole buffer. `extra/python/src/main.cpp:72`. -/
def MatView.right (rows cols : Nat) : MatView := ⟨rows, cols, 0, cols, 1⟩

/-- `layout_left` view of a whole buffer. `extra/cli/src/wav.hpp:47`. -/
def MatView.left (rows cols : Nat) : MatView := ⟨rows, cols, 0, 1, rows⟩

/-- `detail::linalg_unary_op` on matrices, `src/neo/algorithm/backend/linalg_unary_op.hpp:20-33`;
`colMajor` is `has_layout_left<InOutObj>`. -/
def unaryOp2 {α : Type} (colMajor : Bool) (op : α → α) (v : MatView) (data : List α) :
    Res (List α) :=
  let body := fun row col (data : List α) => do
    let x ← rd data (v.idx row col)
    wr data (v.idx row col) (op x)
  if colMajor then
    forN v.cols (fun col d => forN v.rows (fun row d => body row col d) d) data
  else
    forN v.rows (fun row d => forN v.cols (fun col d => body row col d) d) data

/-- `neo::fill` on matrices, `src/neo/algorithm/fill.hpp:10-14`. -/
def fillMat {α : Type} (colMajor : Bool) (v : MatView) (data : List α) (val : α) : Res (List α) :=
  unaryOp2 colMajor (fun _ => val) v data

/-- `neo::scale` on matrices (portable path). `src/neo/algorithm/scale.hpp:27`. -/
def scaleMat {α : Type} [Mul α] (colMajor : Bool) (alpha : α) (v : MatView) (data : List α) :
    Res (List α) :=
  unaryOp2 colMajor (fun x => x * alpha) v data

/-- `neo::copy` on matrices, `src/neo/algorithm/copy.hpp:28-34`; buffers are distinct. -/
def copyMat {α : Type} (vi : MatView) (input : List α) (vo : MatView) (out : List α) :
    Res (List α) := do
  check (vi.rows = vo.rows ∧ vi.cols = vo.cols)
  forN vi.rows (fun i out => forN vi.cols (fun j out => do
    let x ← rd input (vi.idx i j)
    wr out (vo.idx i j) x) out) out

/-- `detail::linalg_binary_op` on matrices,
`src/neo/algorithm/backend/linalg_binary_op.hpp:23-28`; buffers are distinct. -/
def binaryOp2 {α : Type} (op : α → α → α) (vx : MatView) (x : List α) (vy : MatView) (y : List α)
    (vo : MatView) (out : List α) : Res (List α) := do
  check (vx.rows = vy.rows ∧ vx.cols = vy.cols ∧ vx.rows = vo.rows ∧ vx.cols = vo.cols)
  forN vx.rows (fun i out => forN vx.cols (fun j out => do
    let a ← rd x (vx.idx i j)
    let b ← rd y (vy.idx i j)
    wr out (vo.idx i j) (op a b)) out) out

/-- A complex number type with its parts: `real()`, `imag()` and the constructor from two parts,
`src/neo/complex/scalar_complex.hpp:21-29`. -/
class CplxParts (R : outParam Type) (C : Type) where
  re : C → R
  im : C → R
  make : R → R → C

/-- Exact complex numbers. `src/neo/algorithm/copy.hpp:44-45,58`. -/
instance : CplxParts ℝ ℂ := ⟨Complex.re, Complex.im, Complex.mk⟩

/-- `neo::copy(in, split_complex)`, `src/neo/algorithm/copy.hpp:37-47`. -/
def copyToSplit {R C : Type} [CplxParts R C] (input : List C) (re im : List R) : Res (List R × List R) := do
  check (input.length = re.length ∧ input.length = im.length)
  forN input.length (fun i (s : List R × List R) => do
    let v ← rd input i
    let re ← wr s.1 i (CplxParts.re v)
    let im ← wr s.2 i (CplxParts.im v)
    pure (re, im)) (re, im)

/-- `neo::copy(split_complex, out)`, `src/neo/algorithm/copy.hpp:49-60`.  As written this overload cannot be
instantiated: the loop bound is `in.extent(0)` and `split_complex` has no such member.  The model
reads it as `in.real.extent(0)`. -/
def copyFromSplit (re im : List ℝ) (out : List ℂ) : Res (List ℂ) := do
  check (re.length = im.length ∧ re.length = out.length)
  forN re.length (fun i out => do
    let a ← rd re i
    let b ← rd im i
    wr out i (⟨a, b⟩ : ℂ)) out

end Neo
