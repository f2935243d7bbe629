import Verif.Model.IntT
import Verif.Model.Simd

/-!
# Model: split-complex `multiply_add`, scalar and batched

The element type is arbitrary with `+`, `-`, `*` and no laws, so it may be read as IEEE floats.
`z` is either a separate pair of buffers or the output pair itself (`ali = true`, the way the
convolvers call it).  The state carries, besides the two output planes, the list of the indices
stored to so far.
-/

namespace Neo

variable {α : Type} [Add α] [Sub α] [Mul α]

/-- A split-complex vector: the real and the imaginary plane.
`src/neo/complex/split_complex.hpp:9-14`. -/
structure SplitV (α : Type) where
  re : List α
  im : List α
  deriving DecidableEq

/-- Output planes and the indices written so far.
`src/neo/algorithm/multiply_add.hpp:56-57,66-67`. -/
structure MaState (α : Type) where
  re : List α
  im : List α
  stored : List Nat
  deriving DecidableEq

/-- The plane `z` reads from: its own buffer, or the output when they are the same span.
`src/neo/algorithm/multiply_add.hpp:50-51,66-67`. -/
def zPlane (ali : Bool) (z out : List α) : List α := if ali then out else z

/-- Body of the scalar loops, `src/neo/algorithm/multiply_add.hpp:61-67,261-267,360-366`.  The real
part is stored before the imaginary part of `z` is read. -/
def maStep (ali : Bool) (x y z : SplitV α) (i : Nat) (s : MaState α) : Res (MaState α) := do
  let xre ← rd x.re i
  let xim ← rd x.im i
  let yre ← rd y.re i
  let yim ← rd y.im i
  let zre ← rd (zPlane ali z.re s.re) i
  let re ← wr s.re i ((xre * yre - xim * yim) + zre)
  let zim ← rd (zPlane ali z.im s.im) i
  let im ← wr s.im i ((xre * yim + xim * yre) + zim)
  pure ⟨re, im, s.stored ++ [i]⟩

/-- The split-complex overload without SIMD, `src/neo/algorithm/multiply_add.hpp:328-368`.  The loop
bound is `static_cast<int>` of the extent. -/
def splitMultiplyAdd (ali : Bool) (x y z : SplitV α) (out : MaState α) : Res (MaState α) := do
  check (x.re.length = x.im.length ∧ x.re.length = y.re.length ∧ x.re.length = y.im.length ∧
    x.re.length = (zPlane ali z.re out.re).length ∧ x.re.length = (zPlane ali z.im out.im).length ∧
    x.re.length = out.re.length ∧ x.re.length = out.im.length)
  forN ((⟨true, 32⟩ : IntT).conv x.re.length).toNat (maStep ali x y z) out

/-- Body of the batched loop over registers of `V` lanes,
`src/neo/algorithm/multiply_add.hpp:46-57,246-257`. -/
def maBatch (V : Nat) (ali : Bool) (x y z : SplitV α) (i : Nat) (s : MaState α) : Res (MaState α) := do
  let xre ← rdSpan x.re i (i + V)
  let xim ← rdSpan x.im i (i + V)
  let yre ← rdSpan y.re i (i + V)
  let yim ← rdSpan y.im i (i + V)
  let zre ← rdSpan (zPlane ali z.re s.re) i (i + V)
  let zim ← rdSpan (zPlane ali z.im s.im) i (i + V)
  let mul := List.zipWith (fun a b : α => a * b)
  let add := List.zipWith (fun a b : α => a + b)
  let sub := List.zipWith (fun a b : α => a - b)
  let outRe := add (sub (mul xre yre) (mul xim yim)) zre
  let outIm := add (add (mul xre yim) (mul xim yre)) zim
  let re ← wrSpan s.re i outRe
  let im ← wrSpan s.im i outIm
  pure ⟨re, im, s.stored ++ (List.range V).map (i + ·)⟩

/-- `simd::detail::multiply_add<Batch>`, `src/neo/algorithm/multiply_add.hpp:27-69` (SSE2, AVX), and the
xsimd version `:226-269`, with batches of `V` elements. -/
def simdMultiplyAdd (V : Nat) (ali : Bool) (x y z : SplitV α) (size : Nat) (out : MaState α) :
    Res (MaState α) := do
  if V = 0 then .error .divZero
  else do
    let vecSize := size - size % V
    let out ← forBatch V vecSize (maBatch V ali x y z) size 0 out
    forR vecSize size (maStep ali x y z) out

/-- The split-complex overload with SIMD enabled, `src/neo/algorithm/multiply_add.hpp:328-357`. -/
def splitMultiplyAddSimd (V : Nat) (ali : Bool) (x y z : SplitV α) (out : MaState α) :
    Res (MaState α) := do
  check (x.re.length = x.im.length ∧ x.re.length = y.re.length ∧ x.re.length = y.im.length ∧
    x.re.length = (zPlane ali z.re out.re).length ∧ x.re.length = (zPlane ali z.im out.im).length ∧
    x.re.length = out.re.length ∧ x.re.length = out.im.length)
  simdMultiplyAdd V ali x y z x.re.length out

/-- Body of the scalar loops of the interleaved overload, `src/neo/algorithm/multiply_add.hpp:221,299`. -/
def maPlainStep (ali : Bool) (x y z : List α) (i : Nat) (s : List α × List Nat) :
    Res (List α × List Nat) := do
  let a ← rd x i
  let b ← rd y i
  let c ← rd (zPlane ali z s.1) i
  let o ← wr s.1 i (a * b + c)
  pure (o, s.2 ++ [i])

/-- The interleaved overload `multiply_add(x, y, z, out)` without SIMD,
`src/neo/algorithm/multiply_add.hpp:279-301`. -/
def multiplyAddPlain (ali : Bool) (x y z : List α) (out : List α × List Nat) :
    Res (List α × List Nat) := do
  check (x.length = y.length ∧ x.length = (zPlane ali z out.1).length ∧ x.length = out.1.length)
  forN x.length (maPlainStep ali x y z) out

/-- xsimd version for interleaved complex vectors, `src/neo/algorithm/multiply_add.hpp:197-223`. -/
def simdMultiplyAddPlain (V : Nat) (ali : Bool) (x y z : List α) (out : List α × List Nat) :
    Res (List α × List Nat) :=
  if V = 0 then .error .divZero
  else do
    let vecSize := x.length - x.length % V
    let out ← forBatch V vecSize (fun i (s : List α × List Nat) => do
      let a ← rdSpan x i (i + V)
      let b ← rdSpan y i (i + V)
      let c ← rdSpan (zPlane ali z s.1) i (i + V)
      let o ← wrSpan s.1 i (List.zipWith (fun p q => p + q) (List.zipWith (fun p q => p * q) a b) c)
      pure (o, s.2 ++ (List.range V).map (i + ·))) x.length 0 out
    forR vecSize x.length (maPlainStep ali x y z) out

end Neo
