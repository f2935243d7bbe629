import Verif.Model.BluesteinIeee

/-!
# Model: the type-2 DCT plan (`neo/fft/dct.hpp`) in IEEE 754 arithmetic

The same code as in `Verif.Model.Dct`, rounding after every operation.  The products of two complex numbers are those of
Annex G (`SC`); products and quotients of a complex number and a real one act on the parts.  `std::exp` of a complex number is
`polar(exp(re), im)`, as in the generic code of the library; `exp`, `cos` and `sin` are arguments.  There is no negative zero.
-/

namespace Neo

open Spec

noncomputable section

/-- `std::complex<Float> / Float`, `src/neo/fft/dct.hpp:57`. -/
def SC.sdiv {f : Fmt} (z : SC f) (a : FVal) : SC f := ⟨f.round (z.re.div a), f.round (z.im.div a)⟩

/-- `std::exp(z)` of a complex number, `src/neo/fft/dct.hpp:57`. -/
def cexpI (f : Fmt) (exp cos sin : FVal → FVal) (z : SC f) : SC f := (polarI f cos sin (exp z.re) z.im).std

/-- `Float(2) * std::exp(one * pi * Float(i) / (2 * n))` with `one = (0, -1)`, `src/neo/fft/dct.hpp:52-57`. -/
def dct2ScaleI (f : Fmt) (exp cos sin : FVal → FVal) (len i : ℕ) : SC f :=
  let pi := piI f
  let n := ofNat f len
  let one : SC f := ⟨.fin 0, .fin (-1)⟩
  SC.smul (cexpI f exp cos sin (SC.sdiv (SC.smul (SC.smul one pi) (ofNat f i)) (f.round ((FVal.fin 2).mul n)))) (.fin 2)

/-- `fallback_dct2_plan`, `src/neo/fft/dct.hpp:23-68`. -/
structure Dct2PlanI (f : Fmt) where
  fft : Dit2Plan (SC f)
  buffer : List (SC f)

/-- `fallback_dct2_plan::size()`, `src/neo/fft/dct.hpp:33`. -/
def Dct2PlanI.size {f : Fmt} (p : Dct2PlanI f) : ℕ := p.fft.size

/-- Constructor, `src/neo/fft/dct.hpp:29,65-67`: the buffer is value-initialised. -/
def Dct2PlanI.make (f : Fmt) (cos sin : FVal → FVal) (order : ℕ) : Res (Dct2PlanI f) := do
  let fft ← Dit2Plan.makeG (stdArith f (twiddleI f cos sin)) order
  pure { fft := fft, buffer := vec fft.size (fun _ => 0) }

/-- `fallback_dct2_plan::operator()`, `src/neo/fft/dct.hpp:35-63`; returns the plan (its buffer changes) and the new content
of `x`. -/
def Dct2PlanI.call {f : Fmt} (exp cos sin : FVal → FVal) (p : Dct2PlanI f) (x : List FVal) :
    Res (Dct2PlanI f × List FVal) := do
  let len := x.length
  check (len = p.size)
  let buf ← forN (len / 2) (fun i buf => do
    let src := i * 2
    let top := len - i - 1
    let a ← rd x src
    let buf ← wr buf i (⟨a, .fin 0⟩ : SC f)
    let b ← rd x (src + 1)
    wr buf top (⟨b, .fin 0⟩ : SC f)) p.buffer
  let buf ← p.fft.call buf .forward
  let x ← forN len (fun i x => do
    let scale := dct2ScaleI f exp cos sin len i
    let c ← rd buf i
    let v := c * scale
    wr x i v.re) x
  pure ({ p with buffer := buf }, x)

end

end Neo
