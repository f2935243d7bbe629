import Verif.Spec.Stats

/-! # Specification: squared distance of two signals -/

namespace Neo.Spec

/-- Energy of the difference of two signals. -/
def sqDist (x y : List ℝ) : ℝ := energy (List.zipWith (· - ·) x y)

end Neo.Spec
