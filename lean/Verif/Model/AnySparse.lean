import Verif.Model.AnyArith
import Verif.Model.SplitFft

/-!
# Model: sparse and split-complex convolvers over any arithmetic

The delay lines and filters of `Verif.Model.Upc` and the split plan of `Verif.Model.SplitFft`, which do not depend on the
number type, with the overlap schemes of `Verif.Model.AnyArith`.
-/

namespace Neo

section any
variable {R C : Type} [Zero R] [Add R] [Mul R] [Zero C] [Add C] [Sub C] [Mul C]

/-- `sparse_upola_convolver`, `src/neo/convolution/sparse_convolver.hpp:21-22`, over any arithmetic. -/
def sparseUpolaRunG (A : Arith R C) (v : MatView) (data : List C) (sparsity : Nat → Nat → C → Bool)
    (blocks : List (List R)) : Res (List (List R)) :=
  Upc.run (olaOpsG A) denseFdlOps sparseFilterOps (Csr.empty 0 0) v data sparsity blocks

/-- `sparse_upols_convolver`, `sparse_convolver.hpp:16-17`, over any arithmetic. -/
def sparseUpolsRunG (A : Arith R C) (v : MatView) (data : List C) (sparsity : Nat → Nat → C → Bool)
    (blocks : List (List R)) : Res (List (List R)) :=
  Upc.run (olsOpsG A) denseFdlOps sparseFilterOps (Csr.empty 0 0) v data sparsity blocks

variable [Sub R] [CplxParts R C]

/-- `split_upola_convolver`, `src/neo/convolution/dense_convolver.hpp:32-35`, over any arithmetic. -/
def splitUpolaRunG (A : Arith R C) (v : MatView) (data : List C) (blocks : List (List R)) : Res (List (List R)) :=
  Upc.run (olaOpsG A) splitFdlOps splitFilterOps emptySplit v data () blocks

/-- `split_upols_convolver`, `dense_convolver.hpp:39-42`, over any arithmetic. -/
def splitUpolsRunG (A : Arith R C) (v : MatView) (data : List C) (blocks : List (List R)) : Res (List (List R)) :=
  Upc.run (olsOpsG A) splitFdlOps splitFilterOps emptySplit v data () blocks

/-- Constructor and `make_twiddles` of `fallback_split_fft_plan`,
`src/neo/fft/fallback/fallback_split_fft_plan.hpp:21,122-136`, over any arithmetic. -/
def SplitFftPlan.makeG (A : Arith R C) (order : Nat) : Res (SplitFftPlan R) := do
  let reorder ← bitrevMake (1 <<< order)
  let interleaved := makeTwiddleLutRadix2G A (fftSize order) .forward
  let n := interleaved.length
  let w ← copyToSplit interleaved (vec n (fun _ => 0)) (vec n (fun _ => 0))
  pure { order := order, reorder := reorder, twRe := w.1, twIm := w.2 }

end any

open Spec

/-- Rounded difference of two numbers of the format `f`.
`src/neo/algorithm/multiply_add.hpp:66`; `src/neo/fft/fallback/fallback_split_fft_plan.hpp:71-72,110,115-116`. -/
noncomputable instance {f : Fmt} : Sub (IR f) := ⟨fun a b => ⟨f.round (a.val.sub b.val)⟩⟩

/-- `real()`, `imag()` and the constructor of `neo::scalar_complex`, `src/neo/complex/scalar_complex.hpp:21-33`. -/
instance {f : Fmt} : CplxParts (IR f) (IC f) := ⟨fun z => ⟨z.re⟩, fun z => ⟨z.im⟩, fun a b => ⟨a.val, b.val⟩⟩

end Neo
