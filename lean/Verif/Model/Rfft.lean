import Verif.Model.Fft2

/-!
# Model: real transforms (`neo/fft/rfft.hpp`, `neo/fft/fallback/fallback_rfft_plan.hpp`)

The vendor plan (Intel IPP) is in `Model/Backend`.
-/

namespace Neo

open ComplexConjugate

/-- `fallback_rfft_plan`, `src/neo/fft/fallback/fallback_rfft_plan.hpp:14-61`. -/
structure RfftPlan where
  order : Nat
  fft : Dit2Plan
  buffer : List ℂ

/-- `fallback_rfft_plan::size()`, `fallback_rfft_plan.hpp:25`. -/
def RfftPlan.size (p : RfftPlan) : Nat := fftSize p.order

/-- Constructor, `fallback_rfft_plan.hpp:21,57-60`: the buffer is value-initialised. -/
noncomputable def RfftPlan.make (order : Nat) : Res RfftPlan := do
  let fft ← Dit2Plan.make order
  pure { order := order, fft := fft, buffer := vec (fftSize order) (fun _ => 0) }

/-- Forward call operator, `fallback_rfft_plan.hpp:27-36`; returns the plan (its buffer changes)
and the new content of `out`. -/
noncomputable def RfftPlan.rfft (p : RfftPlan) (input : List ℝ) (out : List ℂ) :
    Res (RfftPlan × List ℂ) := do
  let coeffs := p.size / 2 + 1
  let buf ← copyRealToComplex input p.buffer
  let buf ← p.fft.call buf .forward
  let src ← rdSpan buf 0 coeffs
  let out ← copyInto src out 0 coeffs
  pure ({ p with buffer := buf }, out)

/-- Backward call operator, `fallback_rfft_plan.hpp:38-55`. -/
noncomputable def RfftPlan.irfft (p : RfftPlan) (input : List ℂ) (out : List ℝ) :
    Res (RfftPlan × List ℝ) := do
  let coeffs := p.size / 2 + 1
  let buf ← copyInto input p.buffer 0 input.length
  let buf ← forR coeffs p.size (fun i buf => do
    let v ← rd buf (p.size - i)
    wr buf i (conj v)) buf
  let buf ← p.fft.call buf .backward
  let out ← forN p.size (fun i out => do
    let v ← rd buf i
    wr out i v.re) out
  pure ({ p with buffer := buf }, out)

/-- `neo::fft::rfft_deinterleave(dft, x, y)`, `src/neo/fft/rfft.hpp:43-62`
(`static_cast<int>` of the extent is the identity below 2³¹; the three buffers are distinct). -/
noncomputable def rfftDeinterleave (dft x y : List ℂ) : Res (List ℂ × List ℂ) := do
  let n := dft.length
  let i : ℂ := ⟨0, -1⟩
  let d0 ← rd dft 0
  let x ← wr x 0 (d0.re : ℂ)
  let y ← wr y 0 (d0.im : ℂ)
  forR 1 (n / 2 + 1) (fun k (s : List ℂ × List ℂ) => do
    let zk ← rd dft k
    let c ← rd dft (n - k)
    let znk := conj c
    let x ← wr s.1 k ((zk + znk) * (0.5 : ℝ))
    let y ← wr s.2 k (((zk - znk) * i) * (0.5 : ℝ))
    pure (x, y)) (x, y)

end Neo
