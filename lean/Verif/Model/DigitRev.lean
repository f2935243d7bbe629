import Verif.Model.Fft2

/-! # Model: `neo/fft/reference/digitrevorder.hpp` and the interleaved in-place bit reversal -/

namespace Neo

/-- `digitrevorder_plan<Radix>::make`, `src/neo/fft/reference/digitrevorder.hpp:29-46`.
`std::vector<uint32_t>(size)` is zero-initialised.  For `size = 0` the bound `size - 1` wraps and
`lut[0]` is out of bounds.  The fuel of the inner loop is `size + 1`: every pass divides `k` by the
radix, and once `k = 0` the loop never ends. -/
def digitrevMake (radix size : Nat) : Res (List Nat) :=
  if size = 0 then .error .oob else do
  let r ← forN (size - 1) (fun i (s : List Nat × Nat) => do
    let lut ← wr s.1 i s.2
    let jk ← revCarry radix (size + 1) s.2 ((radix - 1) * size / radix)
    pure (lut, jk.1 + jk.2 / (radix - 1))) (List.replicate size 0, 0)
  pure r.1

/-- `digitrevorder_plan<Radix>::operator()`, `src/neo/fft/reference/digitrevorder.hpp:17-26`. -/
def digitrevApply {α : Type} (lut : List Nat) (x : List α) : Res (List α) :=
  forN lut.length (fun i x => do
    let t ← rd lut i
    if i < t then do
      let t ← rd lut i
      swap x i t
    else pure x) x

/-- `while (m >= 2 && j > m) { j -= m; m >>= 1; }` with fuel,
`src/neo/fft/reference/bitrevorder.hpp:112-115`; returns `(j, m)`. -/
def revCarryInterleaved : Nat → Nat → Nat → Res (Nat × Nat)
  | 0, _, _ => .error .diverge
  | fuel + 1, j, m => if 2 ≤ m ∧ m < j then revCarryInterleaved fuel (j - m) (m / 2) else .ok (j, m)

/-- `if (j > i) { swap(x[j-1], x[i-1]); swap(x[j], x[i]); }`,
`src/neo/fft/reference/bitrevorder.hpp:107-110`. -/
def swapPairIf {α : Type} (x : List α) (i j : Nat) : Res (List α) :=
  if j > i then do
    let x ← swap x (j - 1) (i - 1)
    swap x j i
  else pure x

/-- In-place `neo::fft::bitrevorder` on interleaved real data,
`src/neo/fft/reference/bitrevorder.hpp:98-118` (`int` indices; the loop state is `(x, j)`;
iteration `t` has `i = 2 t + 1`). -/
def bitrevorderInterleaved {α : Type} (x : List α) : Res (List α) := do
  let nn := x.length
  let n := nn / 2
  let r ← forN (nn / 2) (fun t (s : List α × Nat) => do
    let i := 2 * t + 1
    let j := s.2
    let x ← swapPairIf s.1 i j
    let jm ← revCarryInterleaved (n + 1) j n
    pure (x, jm.1 + jm.2)) (x, 1)
  pure r.1

end Neo
