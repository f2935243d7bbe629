import Verif.Spec.Ieee

/-! # Spec: the order of floating-point values -/

namespace Neo.Spec

/-- `a ≤ b`; false if either is NaN. -/
def FVal.Le : FVal → FVal → Prop
  | .fin x, .fin y => x ≤ y
  | .fin _, .inf s => s = false
  | .inf s, .fin _ => s = true
  | .inf s, .inf t => s = true ∨ t = false
  | _, _ => False

end Neo.Spec
