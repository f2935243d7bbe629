import Verif.Model.Fft2

/-!
# Model: the type-2 DCT plan (`neo/fft/dct.hpp`) and the Bluestein DFT plan
(`neo/fft/fallback/fallback_dft_plan.hpp`)

The Intel IPP plans are not modelled.  Loop counters `auto i{0U}` are naturals: the size is at most
`2^27` (`check_order`), so they cannot wrap.
-/

namespace Neo

open ComplexConjugate

/-- `fallback_dct2_plan`, `src/neo/fft/dct.hpp:23-68`. -/
structure Dct2Plan where
  fft : Dit2Plan
  buffer : List ℂ

/-- `fallback_dct2_plan::size()`, `src/neo/fft/dct.hpp:33`. -/
def Dct2Plan.size (p : Dct2Plan) : Nat := p.fft.size

/-- Constructor, `src/neo/fft/dct.hpp:29,66-67`: the buffer is value-initialised. -/
noncomputable def Dct2Plan.make (order : Nat) : Res Dct2Plan := do
  let fft ← Dit2Plan.make order
  pure { fft := fft, buffer := vec fft.size (fun _ => 0) }

/-- `Float(2) * std::exp(one * pi * Float(i) / (2 * n))` with `one = (0, -1)`,
`src/neo/fft/dct.hpp:53-58`. -/
noncomputable def dct2Scale (len i : Nat) : ℂ :=
  let one : ℂ := ⟨0, -1⟩
  2 * Complex.exp (one * (Real.pi : ℂ) * (i : ℂ) / (2 * (len : ℂ)))

/-- `fallback_dct2_plan::operator()`, `src/neo/fft/dct.hpp:35-63`; returns the plan (its buffer
changes) and the new content of `x`. -/
noncomputable def Dct2Plan.call (p : Dct2Plan) (x : List ℝ) : Res (Dct2Plan × List ℝ) := do
  let len := x.length
  check (len = p.size)
  let buf ← forN (len / 2) (fun i buf => do
    let src := i * 2
    let top := len - i - 1
    let a ← rd x src
    let buf ← wr buf i (a : ℂ)
    let b ← rd x (src + 1)
    wr buf top (b : ℂ)) p.buffer
  let buf ← p.fft.call buf .forward
  let x ← forN len (fun i x => do
    let scale := dct2Scale len i
    let c ← rd buf i
    let v := c * scale
    wr x i v.re) x
  pure ({ p with buffer := buf }, x)

/-- `fallback_dft_plan`, `src/neo/fft/fallback/fallback_dft_plan.hpp:23-96`. -/
structure BluesteinPlan where
  size : Nat
  plan : Dit2Plan
  wf : List ℂ
  wb : List ℂ
  a : List ℂ
  b : List ℂ

/-- Chirp entry, `src/neo/fft/fallback/fallback_dft_plan.hpp:34-42`:
`polar(1, ((i*i) % (2*size)) * (pi / n * sign))`.  `i * i` does not wrap: `i < 2^26` whenever the
inner plan can be constructed. -/
noncomputable def bluesteinChirp (size i : Nat) (sign : ℝ) : ℂ :=
  let j : ℝ := (((i * i) % (size * 2) : ℕ) : ℝ)
  let coef : ℝ := Real.pi / (size : ℝ) * sign
  polar 1 (j * coef)

/-- Constructor, `src/neo/fft/fallback/fallback_dft_plan.hpp:29-44,83-95`; members are initialised
before the body runs. -/
noncomputable def BluesteinPlan.make (size : Nat) : Res BluesteinPlan := do
  let plan ← Dit2Plan.make (nextOrder (size * 2 + 1))
  let w ← forN size (fun i (w : List ℂ × List ℂ) => do
    let wf ← wr w.1 i (bluesteinChirp size i (-1))
    let wb ← wr w.2 i (bluesteinChirp size i 1)
    pure (wf, wb)) (vec size (fun _ => 0), vec size (fun _ => 0))
  pure {
    size := size
    plan := plan
    wf := w.1
    wb := w.2
    a := vec plan.size (fun _ => 0)
    b := vec plan.size (fun _ => 0) }

/-- `fallback_dft_plan::operator()`, `src/neo/fft/fallback/fallback_dft_plan.hpp:48-80`; returns the
plan (its work buffers change) and the new content of `x`. -/
noncomputable def BluesteinPlan.call (p : BluesteinPlan) (x : List ℂ) (dir : Direction) :
    Res (BluesteinPlan × List ℂ) := do
  check (x.length = p.size)
  let w := if dir = .forward then p.wf else p.wb
  -- pre-processing
  let a ← fillVec p.a 0
  let b ← fillVec p.b 0
  let sub ← rdSpan a 0 p.size
  let sub ← multiplyVec x w sub
  let a ← wrSpan a 0 sub
  let w0 ← rd w 0
  let b ← wr b 0 w0
  let b ← forR 1 p.size (fun i b => do
    let m := b.length
    let wi ← rd w i
    let c := conj wi
    let b ← wr b i c
    wr b (m - i) c) b
  -- convolution
  let a ← fft p.plan a
  let b ← fft p.plan b
  let a ← multiplyInPlace a b
  let a ← ifft p.plan a
  let a ← scaleVec (((1 / (p.plan.size : ℝ) : ℝ)) : ℂ) a
  -- post-processing
  let sub ← rdSpan a 0 p.size
  let x ← multiplyVec sub w x
  pure ({ p with a := a, b := b }, x)

/-- In-place `neo::fft::dft(plan, inout)` and `idft(plan, inout)`, `src/neo/fft/dft.hpp:60-64,79-83`. -/
noncomputable def dftInPlace (p : BluesteinPlan) (x : List ℂ) (dir : Direction) :
    Res (BluesteinPlan × List ℂ) := p.call x dir

/-- Out-of-place `neo::fft::dft(plan, input, output)` and `idft`, `src/neo/fft/dft.hpp:67-76,86-95`;
`fallback_dft_plan` has no three-argument call operator, so the `else` branch is taken. -/
noncomputable def dftOutOfPlace (p : BluesteinPlan) (input output : List ℂ) (dir : Direction) :
    Res (BluesteinPlan × List ℂ) := do
  let output ← copyVec input output
  dftInPlace p output dir

end Neo
