import Verif.Core

/-!
# Model: strided loops over SIMD batches
-/

namespace Neo

/-- `for (i = i₀; i < n; i += step) s = body(i, s)`.  The first argument bounds the number of
iterations (`n` suffices for `step ≥ 1`); running out of it stands for non-termination.
`src/neo/algorithm/multiply_add.hpp:45`. -/
def forBatch {σ : Type} (step n : Nat) (body : Nat → σ → Res σ) : Nat → Nat → σ → Res σ
  | 0, i, s => if i < n then .error .diverge else .ok s
  | fuel + 1, i, s =>
    if i < n then do
      let s ← body i s
      forBatch step n body fuel (i + step) s
    else .ok s

/-- `for (auto i{0U}; i < n; ++i)` with a 32-bit counter and a 64-bit bound: the counter wraps and
the loop never ends when the bound is not below `2 ^ 32`.
`src/neo/fixed_point/algorithm.hpp:42,101`; `src/neo/convolution/compressed_fdl.hpp:45`. -/
def forU32 {σ : Type} (n : Nat) (body : Nat → σ → Res σ) (s : σ) : Res σ :=
  if n < 2 ^ 32 then forN n body s else .error .diverge

/-- `simd::apply_kernel`, `src/neo/simd/sse2.hpp:104-119` and `src/neo/simd/neon.hpp:13-47`: first the
`size % V` leading elements one by one, then whole registers of `V` lanes.  `out` does not alias
the inputs. -/
def applyKernel {α : Type} (V : Nat) (lhs rhs out : List α) (scalar : α → α → Res α)
    (vector : List α → List α → List α) : Res (List α) := do
  let out ← forN (lhs.length % V) (fun i out => do
    let a ← rd lhs i
    let b ← rd rhs i
    let v ← scalar a b
    wr out i v) out
  forBatch V lhs.length (fun i out => do
    let l ← rdSpan lhs i (i + V)
    let r ← rdSpan rhs i (i + V)
    wrSpan out i (vector l r)) lhs.length (lhs.length % V) out

end Neo
