import Verif.Model.UpcRounding
import Verif.Model.SplitFft

/-!
# Model: split-complex and sparse code in rounded arithmetic

The plan, delay lines and filters of `Verif.Model.SplitFft` and `Verif.Model.Upc`, which do not depend on the number
type, for the number types `FR F` and `FC F`.
-/

namespace Neo

/-- `real()`, `imag()` and the constructor of `std::complex<Float>` / `scalar_complex<Float>`,
`src/neo/complex/scalar_complex.hpp:21-33`; no rounding. -/
instance {F : Rounding} : CplxParts (FR F) (FC F) := ⟨fun z => ⟨z.re⟩, fun z => ⟨z.im⟩, fun a b => ⟨a.val, b.val⟩⟩

/-- Constructor and `make_twiddles` of `fallback_split_fft_plan`,
`src/neo/fft/fallback/fallback_split_fft_plan.hpp:21,122-136`, over the format `F`. -/
noncomputable def SplitFftPlan.makeF (F : Rounding) (order : Nat) : Res (SplitFftPlan (FR F)) := do
  let reorder ← bitrevMake (1 <<< order)
  let interleaved := makeTwiddleLutRadix2F F (fftSize order) .forward
  let n := interleaved.length
  let w ← copyToSplit interleaved (vec n (fun _ => 0)) (vec n (fun _ => 0))
  pure { order := order, reorder := reorder, twRe := w.1, twIm := w.2 }

/-- `split_upola_convolver`, `src/neo/convolution/dense_convolver.hpp:32-35`, over the format `F`. -/
noncomputable def splitUpolaRunF {F : Rounding} (v : MatView) (data : List (FC F)) (blocks : List (List (FR F))) :
    Res (List (List (FR F))) :=
  Upc.run (olaOpsF F) splitFdlOps splitFilterOps emptySplit v data () blocks

/-- `split_upols_convolver`, `dense_convolver.hpp:39-42`, over the format `F`. -/
noncomputable def splitUpolsRunF {F : Rounding} (v : MatView) (data : List (FC F)) (blocks : List (List (FR F))) :
    Res (List (List (FR F))) :=
  Upc.run (olsOpsF F) splitFdlOps splitFilterOps emptySplit v data () blocks

/-- `sparse_upola_convolver`, `src/neo/convolution/sparse_convolver.hpp:21-22`, over the format `F`. -/
noncomputable def sparseUpolaRunF {F : Rounding} (v : MatView) (data : List (FC F))
    (sparsity : Nat → Nat → FC F → Bool) (blocks : List (List (FR F))) : Res (List (List (FR F))) :=
  Upc.run (olaOpsF F) denseFdlOps sparseFilterOps (Csr.empty 0 0) v data sparsity blocks

/-- `sparse_upols_convolver`, `sparse_convolver.hpp:16-17`, over the format `F`. -/
noncomputable def sparseUpolsRunF {F : Rounding} (v : MatView) (data : List (FC F))
    (sparsity : Nat → Nat → FC F → Bool) (blocks : List (List (FR F))) : Res (List (List (FR F))) :=
  Upc.run (olsOpsF F) denseFdlOps sparseFilterOps (Csr.empty 0 0) v data sparsity blocks

end Neo
