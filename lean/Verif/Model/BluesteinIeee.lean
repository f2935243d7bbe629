import Verif.Model.TwiddleIeee
import Verif.Model.StdComplex

/-!
# Model: the Bluestein plan in IEEE 754 arithmetic

`fallback_dft_plan<std::complex<Float>>` on the values of a binary format: every operation is the exact one followed by
rounding to nearest, nothing is fused, and the products of complex numbers are those of Annex G.  `std::cos` and `std::sin`
are arguments.  The values have no negative zero.
-/

namespace Neo

open Spec

noncomputable section

/-- `static_cast<Float>(std::numbers::pi)`, `src/neo/fft/fallback/fallback_dft_plan.hpp:35-36`. -/
def piI (f : Fmt) : FVal := f.round (binary64.round (.fin Real.pi))

/-- `j * coef`, `src/neo/fft/fallback/fallback_dft_plan.hpp:34-42`. -/
def chirpAngleI (f : Fmt) (size i : ℕ) (dir : Direction) : FVal :=
  let n := ofNat f size
  let coef := f.round ((f.round ((piI f).div n)).mul (if dir = .forward then .fin (-1) else .fin 1))
  let j := ofNat f ((i * i) % (size * 2))
  f.round (j.mul coef)

/-- Chirp entry `math::polar(Float(1), j * coef)`, `src/neo/fft/fallback/fallback_dft_plan.hpp:34-42`.  `i * i` does not wrap:
`i < 2^26` whenever the inner plan can be constructed. -/
def chirpI (f : Fmt) (cos sin : FVal → FVal) (size i : ℕ) (dir : Direction) : SC f :=
  (polarI f cos sin (.fin 1) (chirpAngleI f size i dir)).std

/-- `fallback_dft_plan`, `src/neo/fft/fallback/fallback_dft_plan.hpp:23-96`. -/
structure BluesteinPlanI (f : Fmt) where
  size : ℕ
  plan : Dit2Plan (SC f)
  wf : List (SC f)
  wb : List (SC f)
  a : List (SC f)
  b : List (SC f)

/-- Constructor, `src/neo/fft/fallback/fallback_dft_plan.hpp:29-44,83-95`. -/
def BluesteinPlanI.make (f : Fmt) (cos sin : FVal → FVal) (size : ℕ) : Res (BluesteinPlanI f) := do
  let plan ← Dit2Plan.makeG (stdArith f (twiddleI f cos sin)) (nextOrder (size * 2 + 1))
  let w ← forN size (fun i (w : List (SC f) × List (SC f)) => do
    let wf ← wr w.1 i (chirpI f cos sin size i .forward)
    let wb ← wr w.2 i (chirpI f cos sin size i .backward)
    pure (wf, wb)) (vec size (fun _ => 0), vec size (fun _ => 0))
  pure {
    size := size
    plan := plan
    wf := w.1
    wb := w.2
    a := vec plan.size (fun _ => 0)
    b := vec plan.size (fun _ => 0) }

/-- `math::conj`, `src/neo/math/conj.hpp:23-41`. -/
def SC.conj {f : Fmt} (z : SC f) : SC f := ⟨z.re, z.im.neg⟩

/-- `std::complex<Float> * Float` in `scale`, `src/neo/algorithm/scale.hpp:14-28`. -/
def SC.smul {f : Fmt} (z : SC f) (a : FVal) : SC f := ⟨f.round (z.re.mul a), f.round (z.im.mul a)⟩

/-- `fallback_dft_plan::operator()`, `src/neo/fft/fallback/fallback_dft_plan.hpp:48-80`. -/
def BluesteinPlanI.call {f : Fmt} (p : BluesteinPlanI f) (x : List (SC f)) (dir : Direction) :
    Res (BluesteinPlanI f × List (SC f)) := do
  check (x.length = p.size)
  let w := if dir = .forward then p.wf else p.wb
  -- pre-processing
  let a ← fillVec p.a 0
  let b ← fillVec p.b 0
  let sub ← rdSpan a 0 p.size
  let sub ← multiplyVec x w sub
  let a ← wrSpan a 0 sub
  let w0 ← rd w 0
  let b ← wr b 0 w0
  let b ← forR 1 p.size (fun i b => do
    let m := b.length
    let wi ← rd w i
    let c := SC.conj wi
    let b ← wr b i c
    wr b (m - i) c) b
  -- convolution
  let a ← fft p.plan a
  let b ← fft p.plan b
  let a ← multiplyInPlace a b
  let a ← ifft p.plan a
  let a ← unaryOp (fun v => SC.smul v (f.round ((FVal.fin 1).div (ofNat f p.plan.size)))) a
  -- post-processing
  let sub ← rdSpan a 0 p.size
  let x ← multiplyVec sub w x
  pure ({ p with a := a, b := b }, x)

end

end Neo
