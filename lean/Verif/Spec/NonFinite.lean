import Verif.Spec.Ieee

/-! # Specification: infinities and NaN -/

namespace Neo.Spec

/-- `v` is an infinity or NaN. -/
def FVal.NonFinite (v : FVal) : Prop := ∀ x, v ≠ .fin x

/-- The same value, or neither is finite. -/
def FVal.Agree (v v' : FVal) : Prop := v = v' ∨ (v.NonFinite ∧ v'.NonFinite)

/-- The complex numbers `a + ib` and `a' + ib'` are the same, or no part of either is finite. -/
def FVal.Agree2 (a b a' b' : FVal) : Prop :=
  (a = a' ∧ b = b') ∨ (a.NonFinite ∧ b.NonFinite ∧ a'.NonFinite ∧ b'.NonFinite)

end Neo.Spec
