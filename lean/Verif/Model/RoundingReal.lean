import Verif.Model.Rounding

/-!
# Model: rounded real numbers

`float`/`double` samples for the generic algorithms: every sum and product is rounded once.
-/

namespace Neo

/-- A `float`/`double` value in the arithmetic `F`. `src/neo/convolution/overlap_add.hpp:26-28`. -/
structure FR (F : Rounding) where
  val : ℝ

namespace FR
variable {F : Rounding}

/-- `operator+` on `float`/`double`: the exact sum, rounded.
`src/neo/convolution/overlap_add.hpp:26-28`. -/
noncomputable instance : Add (FR F) := ⟨fun a b => ⟨F.rnd (a.val + b.val)⟩⟩

/-- `operator-` on `float`/`double`: the exact difference, rounded.
`src/neo/convolution/overlap_add.hpp:26-28`. -/
noncomputable instance : Sub (FR F) := ⟨fun a b => ⟨F.rnd (a.val - b.val)⟩⟩

/-- `operator*` on `float`/`double`: the exact product, rounded.
`src/neo/convolution/overlap_add.hpp:26-28`. -/
noncomputable instance : Mul (FR F) := ⟨fun a b => ⟨F.rnd (a.val * b.val)⟩⟩

/-- `Float(0)`. `src/neo/convolution/overlap_add.hpp:26-28`. -/
noncomputable instance : Zero (FR F) := ⟨⟨0⟩⟩

end FR

/-- `Complex{}`: both parts zero. `src/neo/convolution/uniform_partitioned_convolver.hpp:51`. -/
noncomputable instance {F : Rounding} : Zero (FC F) := ⟨⟨0, 0⟩⟩

end Neo
