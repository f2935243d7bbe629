import Verif.Model.Mat
import Verif.Model.Stats
import Verif.Model.MultiplyAdd

/-!
# Model: the element-wise algorithms on views of one memory

Here the operands are views of a single buffer, so that they may overlap in any way; the other models of these loops
(`Model/Algo`, `Model/Mat`, `Model/MultiplyAdd`) take operands that are disjoint or equal.  The element type is arbitrary.
-/

namespace Neo

/-- A vector view: `data_handle()` is element `off` of the memory, `stride(0)` is `stride`.
`src/neo/container/mdspan.hpp:31-42`. -/
structure VecView where
  off : ℕ
  stride : ℕ
  size : ℕ
  deriving DecidableEq

/-- Position of element `i` (`layout_stride`; `layout_right` and `layout_left` have stride 1).
`src/neo/container/mdspan.hpp:31-42`. -/
def VecView.idx (v : VecView) (i : ℕ) : ℕ := v.off + i * v.stride

/-- All elements lie inside a memory of `L` elements. `src/neo/container/mdspan.hpp:31-42`. -/
def VecView.InRange (v : VecView) (L : ℕ) : Prop := ∀ i < v.size, v.idx i < L

/-- All elements lie inside a memory of `L` elements. `src/neo/container/mdspan.hpp:31-42`. -/
def MatView.Within (v : MatView) (L : ℕ) : Prop := ∀ i < v.rows, ∀ j < v.cols, v.idx i j < L

variable {α : Type}

/-- `copy(in, out)` on vectors, `src/neo/algorithm/copy.hpp:18-27`. -/
def copyAt (x out : VecView) (mem : List α) : Res (List α) := do
  check (x.size = out.size)
  forN x.size (fun i mem => do
    let v ← rd mem (x.idx i)
    wr mem (out.idx i) v) mem

/-- `copy(in, out)` on matrices, `src/neo/algorithm/copy.hpp:28-34`. -/
def copyMatAt (x out : MatView) (mem : List α) : Res (List α) := do
  check (x.rows = out.rows ∧ x.cols = out.cols)
  forN x.rows (fun i mem => forN x.cols (fun j mem => do
    let v ← rd mem (x.idx i j)
    wr mem (out.idx i j) v) mem) mem

/-- `linalg_binary_op(x, y, out, op)` on vectors, `src/neo/algorithm/backend/linalg_binary_op.hpp:13-22`: `add` and
`multiply`. -/
def binaryAt (op : α → α → α) (x y out : VecView) (mem : List α) : Res (List α) := do
  check (x.size = y.size ∧ x.size = out.size)
  forInt x.size (fun i mem => do
    let a ← rd mem (x.idx i)
    let b ← rd mem (y.idx i)
    wr mem (out.idx i) (op a b)) mem

/-- `slide_window_left(window)`, `src/neo/convolution/overlap_save.hpp:37-49`: `copy` between blocks of the window (`int`
arithmetic without overflow). -/
def slideAt (blockSize : ℕ) (window : List α) : Res (List α) :=
  if blockSize = 0 then .error .divZero
  else forN (window.length / blockSize - 1) (fun i window => do
    let dest := i * blockSize
    let src := dest + blockSize
    -- `submdspan` of source and destination
    let _ ← rdSpan window src (src + blockSize)
    let _ ← rdSpan window dest src
    copyAt ⟨src, 1, blockSize⟩ ⟨dest, 1, src - dest⟩ window) window

section
variable [Add α] [Sub α] [Mul α]

/-- `multiply_add(x, y, z, out)` without SIMD, `src/neo/algorithm/multiply_add.hpp:279-301`. -/
def multiplyAddAt (x y z out : VecView) (mem : List α) : Res (List α) := do
  check (x.size = y.size ∧ x.size = z.size ∧ x.size = out.size)
  forN x.size (fun i mem => do
    let a ← rd mem (x.idx i)
    let b ← rd mem (y.idx i)
    let c ← rd mem (z.idx i)
    wr mem (out.idx i) (a * b + c)) mem

/-- The xsimd version for batches of `V` elements, `src/neo/algorithm/multiply_add.hpp:197-223`; the arguments are
pointers. -/
def multiplyAddBatchAt (V x y z out size : ℕ) (mem : List α) : Res (List α) :=
  if V = 0 then .error .divZero
  else do
    let vecSize := size - size % V
    let mem ← forBatch V vecSize (fun i mem => do
      let a ← rdSpan mem (x + i) (x + i + V)
      let b ← rdSpan mem (y + i) (y + i + V)
      let c ← rdSpan mem (z + i) (z + i + V)
      wrSpan mem (out + i) (List.zipWith (fun p q => p + q) (List.zipWith (fun p q => p * q) a b) c)) size 0 mem
    forR vecSize size (fun i mem => do
      let a ← rd mem (x + i)
      let b ← rd mem (y + i)
      let c ← rd mem (z + i)
      wr mem (out + i) (a * b + c)) mem

/-- `split_complex` of two vector views. `src/neo/complex/split_complex.hpp:9-14`. -/
structure SplitView where
  re : VecView
  im : VecView

/-- Body of the scalar split-complex loops, `src/neo/algorithm/multiply_add.hpp:359-367`: the real part is stored before
the imaginary part of `z` is read. -/
def splitStepAt (x y z out : SplitView) (i : ℕ) (mem : List α) : Res (List α) := do
  let xre ← rd mem (x.re.idx i)
  let xim ← rd mem (x.im.idx i)
  let yre ← rd mem (y.re.idx i)
  let yim ← rd mem (y.im.idx i)
  let zre ← rd mem (z.re.idx i)
  let mem ← wr mem (out.re.idx i) ((xre * yre - xim * yim) + zre)
  let zim ← rd mem (z.im.idx i)
  wr mem (out.im.idx i) ((xre * yim + xim * yre) + zim)

/-- The split-complex overload without SIMD, `src/neo/algorithm/multiply_add.hpp:328-368`. -/
def splitMultiplyAddAt (x y z out : SplitView) (mem : List α) : Res (List α) := do
  check (x.re.size = x.im.size ∧ x.re.size = y.re.size ∧ x.re.size = y.im.size ∧ x.re.size = z.re.size ∧
    x.re.size = z.im.size ∧ x.re.size = out.re.size ∧ x.re.size = out.im.size)
  forN ((⟨true, 32⟩ : IntT).conv x.re.size).toNat (splitStepAt x y z out) mem

/-- The split-complex planes of a call with pointers.
`src/neo/algorithm/multiply_add.hpp:28-38`. -/
def splitPtr (re im size : ℕ) : SplitView := ⟨⟨re, 1, size⟩, ⟨im, 1, size⟩⟩

/-- `simd::detail::multiply_add<Batch>`, `src/neo/algorithm/multiply_add.hpp:27-69`, and the xsimd version `:226-269`, with
batches of `V` elements; the arguments are the pointers to the planes. -/
def splitMultiplyAddBatchAt (V xr xi yr yi zr zi or oi size : ℕ) (mem : List α) : Res (List α) :=
  if V = 0 then .error .divZero
  else do
    let vecSize := size - size % V
    let mem ← forBatch V vecSize (fun i mem => do
      let xre ← rdSpan mem (xr + i) (xr + i + V)
      let xim ← rdSpan mem (xi + i) (xi + i + V)
      let yre ← rdSpan mem (yr + i) (yr + i + V)
      let yim ← rdSpan mem (yi + i) (yi + i + V)
      let zre ← rdSpan mem (zr + i) (zr + i + V)
      let zim ← rdSpan mem (zi + i) (zi + i + V)
      let mul := List.zipWith (fun a b : α => a * b)
      let add := List.zipWith (fun a b : α => a + b)
      let sub := List.zipWith (fun a b : α => a - b)
      let outRe := add (sub (mul xre yre) (mul xim yim)) zre
      let outIm := add (add (mul xre yim) (mul xim yre)) zim
      let mem ← wrSpan mem (or + i) outRe
      wrSpan mem (oi + i) outIm) size 0 mem
    forR vecSize size
      (splitStepAt (splitPtr xr xi size) (splitPtr yr yi size) (splitPtr zr zi size) (splitPtr or oi size)) mem

end

end Neo
