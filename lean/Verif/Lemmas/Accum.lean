import Verif.Core

/-! # Left folds without algebraic laws -/

namespace Neo

section
variable {R : Type} [Add R]

/-- `z + g lo + g (lo+1) + … `, `n` terms, summed from the left. -/
def accum (g : ℕ → R) (z : R) (lo : ℕ) : ℕ → R
  | 0 => z
  | n + 1 => accum g z lo n + g (lo + n)

end

end Neo
