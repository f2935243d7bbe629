import Verif.Model.ConvRounding
import Verif.Model.Dct

/-!
# Model: naive `dft`, Bluestein plan and DCT plan in rounded arithmetic

The same code as in `Verif.Model.NaiveDft` and `Verif.Model.Dct`, for `std::complex<Float>` with rounded operations.
`static_cast<Float>(std::numbers::pi)` is half of `static_cast<Float>(std::numbers::pi * 2.0)`, as in every binary
format.
-/

namespace Neo

namespace FC
variable {F : Rounding}

/-- `std::complex<Float> * Float` and `Float * std::complex<Float>`: both parts are multiplied.
`src/neo/fft/dct.hpp:57-62`. -/
noncomputable def smul (z : FC F) (a : FR F) : FC F := ⟨F.rnd (z.re * a.val), F.rnd (z.im * a.val)⟩

/-- `std::polar(Float(1), angle)`. `src/neo/fft/twiddle.hpp:27`. -/
noncomputable def polar1 (angle : ℝ) : FC F := ⟨F.rnd (1 * F.cos angle), F.rnd (1 * F.sin angle)⟩

end FC

/-- `neo::fft::dft(in, out, dir)`, `src/neo/fft/dft.hpp:34-57` (`in` and `out` are distinct buffers). -/
noncomputable def naiveDftF {F : Rounding} (input output : List (FC F)) (dir : Direction) : Res (List (FC F)) := do
  check (input.length = output.length)
  let sign : ℝ := if dir = .forward then -1 else 1
  let size := input.length
  forN size (fun k out => do
    let tmp ← forN size (fun n tmp => do
      let v ← rd input n
      let angle := F.rnd (F.rnd (F.rnd (F.rnd (sign * F.twoPi) * F.rnd n) * F.rnd k) / F.rnd size)
      let w : FC F := FC.polar1 angle
      pure (tmp + v * w)) (0 : FC F)
    wr out k tmp) output

/-- Chirp entry, `src/neo/fft/fallback/fallback_dft_plan.hpp:34-42`. -/
noncomputable def bluesteinChirpF (F : Rounding) (size i : ℕ) (sign : ℝ) : FC F :=
  let n := F.rnd size
  let coef := F.rnd (F.rnd (F.twoPi / 2 / n) * sign)
  let j := F.rnd (((i * i) % (size * 2) : ℕ) : ℝ)
  FC.polar1 (F.rnd (j * coef))

/-- `fallback_dft_plan`, `src/neo/fft/fallback/fallback_dft_plan.hpp:23-96`, over the format `F`. -/
structure BluesteinPlanF (F : Rounding) where
  size : Nat
  plan : Dit2Plan (FC F)
  wf : List (FC F)
  wb : List (FC F)
  a : List (FC F)
  b : List (FC F)

/-- Constructor, `src/neo/fft/fallback/fallback_dft_plan.hpp:29-44,83-95`. -/
noncomputable def BluesteinPlanF.make (F : Rounding) (size : Nat) : Res (BluesteinPlanF F) := do
  let plan ← Dit2Plan.makeF F (nextOrder (size * 2 + 1))
  let w ← forN size (fun i (w : List (FC F) × List (FC F)) => do
    let wf ← wr w.1 i (bluesteinChirpF F size i (-1))
    let wb ← wr w.2 i (bluesteinChirpF F size i 1)
    pure (wf, wb)) (vec size (fun _ => 0), vec size (fun _ => 0))
  pure {
    size := size
    plan := plan
    wf := w.1
    wb := w.2
    a := vec plan.size (fun _ => 0)
    b := vec plan.size (fun _ => 0) }

/-- `fallback_dft_plan::operator()`, `src/neo/fft/fallback/fallback_dft_plan.hpp:48-80`. -/
noncomputable def BluesteinPlanF.call {F : Rounding} (p : BluesteinPlanF F) (x : List (FC F)) (dir : Direction) :
    Res (BluesteinPlanF F × List (FC F)) := do
  check (x.length = p.size)
  let w := if dir = .forward then p.wf else p.wb
  -- pre-processing
  let a ← fillVec p.a 0
  let b ← fillVec p.b 0
  let sub ← rdSpan a 0 p.size
  let sub ← multiplyVec x w sub
  let a ← wrSpan a 0 sub
  let w0 ← rd w 0
  let b ← wr b 0 w0
  let b ← forR 1 p.size (fun i b => do
    let m := b.length
    let wi ← rd w i
    let c := FC.conj wi
    let b ← wr b i c
    wr b (m - i) c) b
  -- convolution
  let a ← fft p.plan a
  let b ← fft p.plan b
  let a ← multiplyInPlace a b
  let a ← ifft p.plan a
  let a ← unaryOp (fun v => FC.smul v (invSizeF F p.plan.size)) a
  -- post-processing
  let sub ← rdSpan a 0 p.size
  let x ← multiplyVec sub w x
  pure ({ p with a := a, b := b }, x)

/-- `fallback_dct2_plan`, `src/neo/fft/dct.hpp:23-68`, over the format `F`. -/
structure Dct2PlanF (F : Rounding) where
  fft : Dit2Plan (FC F)
  buffer : List (FC F)

/-- `fallback_dct2_plan::size()`, `src/neo/fft/dct.hpp:33`. -/
def Dct2PlanF.size {F : Rounding} (p : Dct2PlanF F) : Nat := p.fft.size

/-- Constructor, `src/neo/fft/dct.hpp:29,66-67`. -/
noncomputable def Dct2PlanF.make (F : Rounding) (order : Nat) : Res (Dct2PlanF F) := do
  let fft ← Dit2Plan.makeF F order
  pure { fft := fft, buffer := vec fft.size (fun _ => 0) }

/-- `Float(2) * std::exp(one * pi * Float(i) / (2 * n))` with `one = (0, -1)`, `src/neo/fft/dct.hpp:53-58`.  The real
part of the exponent is a zero, and `std::exp` of a number with real part zero is `std::polar(1, imaginary part)`. -/
noncomputable def dct2ScaleF (F : Rounding) (len i : ℕ) : FC F :=
  let n := F.rnd len
  let angle := F.rnd (F.rnd (F.rnd (-1 * (F.twoPi / 2)) * F.rnd i) / F.rnd (2 * n))
  FC.smul (FC.polar1 angle) ⟨2⟩

/-- `fallback_dct2_plan::operator()`, `src/neo/fft/dct.hpp:35-63`. -/
noncomputable def Dct2PlanF.call {F : Rounding} (p : Dct2PlanF F) (x : List (FR F)) :
    Res (Dct2PlanF F × List (FR F)) := do
  let len := x.length
  check (len = p.size)
  let buf ← forN (len / 2) (fun i buf => do
    let src := i * 2
    let top := len - i - 1
    let a ← rd x src
    let buf ← wr buf i (FC.ofReal a)
    let b ← rd x (src + 1)
    wr buf top (FC.ofReal b)) p.buffer
  let buf ← p.fft.call buf .forward
  let x ← forN len (fun i x => do
    let scale := dct2ScaleF F len i
    let c ← rd buf i
    let v := c * scale
    wr x i (FC.realPart v)) x
  pure ({ p with buffer := buf }, x)

end Neo
