import Verif.Model.Fft2

/-!
# Model: the recursive split-radix FFT (`extra/snippet/split_radix.cpp`)

`in` and `out` are distinct buffers, as in the program's `main`; a pointer into a buffer is an offset.  The size
`n` of the plan is not negative.
-/

namespace Neo

/-- The look-up tables of `split_radix_fft_plan`, `extra/snippet/split_radix.cpp:17-22,103-107`. -/
structure SplitRadixPlan where
  size : ℕ
  lut1f : List ℂ
  lut3f : List ℂ
  lut1b : List ℂ
  lut3b : List ℂ

/-- The lambda `w` of the constructor, `extra/snippet/split_radix.cpp:24-29`. -/
noncomputable def splitRadixW (n i : ℕ) : ℂ :=
  polar 1 (-1 * (Real.pi * 2) * i / n)

/-- The constructor, `extra/snippet/split_radix.cpp:17-37`. -/
noncomputable def SplitRadixPlan.make (n : ℕ) : Res SplitRadixPlan := do
  let z : List ℂ := List.replicate (n / 4) 0
  forN (n / 4) (fun i (p : SplitRadixPlan) => do
    let lut1f ← wr p.lut1f i (splitRadixW n i)
    let lut3f ← wr p.lut3f i (splitRadixW n (3 * i))
    let a ← rd lut1f i
    let lut1b ← wr p.lut1b i (starRingEnd ℂ a)
    let b ← rd lut3f i
    let lut3b ← wr p.lut3b i (starRingEnd ℂ b)
    pure { p with lut1f := lut1f, lut3f := lut3f, lut1b := lut1b, lut3b := lut3b })
    { size := n, lut1f := z, lut3f := z, lut1b := z, lut3b := z }

/-- `a * b` of two non-negative `int`s. `extra/snippet/split_radix.cpp:33,72,80`. -/
def intProd (a b : ℕ) : Res ℕ := if a * b < 2 ^ 31 then .ok (a * b) else .error .overflow

/-- The butterfly of `extra/snippet/split_radix.cpp:76-86` (`f` and `g` the identity) and of `extra/snippet/split_radix.cpp:88-100` (`f` and `g` the multiplications
with `w1` and `w3`); `n34` is `3 * N / 4`. -/
def splitRadixButterfly (oo n n34 k : ℕ) (f g : ℂ → ℂ) (out : List ℂ) : Res (List ℂ) := do
  let uk ← rd out (oo + k)
  let zk ← rd out (oo + (k + n / 2))
  let uk2 ← rd out (oo + (k + n / 4))
  let zdk ← rd out (oo + (k + n34))
  let out ← wr out (oo + k) (uk + (f zk + g zdk))
  let out ← wr out (oo + (k + n / 2)) (uk - (f zk + g zdk))
  let out ← wr out (oo + (k + n / 4)) (uk2 - Complex.I * (f zk - g zdk))
  wr out (oo + (k + n34)) (uk2 + Complex.I * (f zk - g zdk))

/-- `splitfft(in + io, out + oo, log2stride, stride, N, lut1, lut3)`, `extra/snippet/split_radix.cpp:49-101`.  The first argument bounds the
depth of the recursion; running out of it is a recursion that does not end.  `3 * N` is an `int` product.  The
strides are not bounded here: `stride * N` is the size of the plan as long as the recursion ends. -/
def splitfft (inp lut1 lut3 : List ℂ) : ℕ → (io oo log2stride stride n : ℕ) → List ℂ → Res (List ℂ)
  | 0, _, _, _, _, _, _ => .error .diverge
  | fuel + 1, io, oo, log2stride, stride, n, out =>
    if n = 1 then do
      let a ← rd inp io
      wr out oo a
    else if n = 2 then do
      let a ← rd inp io
      let b ← rd inp (io + stride)
      let out ← wr out oo (a + b)
      let a ← rd inp io
      let b ← rd inp (io + stride)
      wr out (oo + n / 2) (a - b)
    else do
      let out ← splitfft inp lut1 lut3 fuel io oo (log2stride + 1) (stride * 2) (n / 2) out
      let out ← splitfft inp lut1 lut3 fuel (io + stride) (oo + n / 2) (log2stride + 2) (stride * 4) (n / 4) out
      let n3 ← intProd 3 n
      let n34 := n3 / 4
      let out ← splitfft inp lut1 lut3 fuel (io + 3 * stride) (oo + n34) (log2stride + 2) (stride * 4) (n / 4) out
      let out ← splitRadixButterfly oo n n34 0 id id out
      forR 1 (n / 4) (fun k out => do
        let w1 ← rd lut1 (k * 2 ^ log2stride)
        let w3 ← rd lut3 (k * 2 ^ log2stride)
        splitRadixButterfly oo n n34 k (fun z => w1 * z) (fun z => w3 * z) out) out

/-- `operator()(in, out, dir)`, `extra/snippet/split_radix.cpp:39-46`. -/
def SplitRadixPlan.call (fuel : ℕ) (p : SplitRadixPlan) (inp out : List ℂ) (dir : Direction) : Res (List ℂ) :=
  if dir = .forward then splitfft inp p.lut1f p.lut3f fuel 0 0 0 1 p.size out
  else splitfft inp p.lut1b p.lut3b fuel 0 0 0 1 p.size out

end Neo
