import Verif.Model.Stockham
import Verif.Model.StdComplex

/-!
# Model: the Stockham plans of radix 3, 4, 5 and 8 in IEEE arithmetic

The loops and butterflies are those of `Verif.Model.Stockham`; here are the operations of the two complex types.  The real
constants are computed by `std::sin` and `std::sqrt` and are arguments, like the twiddles.
-/

namespace Neo

open Spec

/-- The radices of the four plans, `src/neo/fft/reference/c2c_stockham_dif3_plan.hpp:24`, `c2c_stockham_dif4_plan.hpp:24`,
`c2c_stockham_dif5_plan.hpp:24`, `c2c_stockham_dif8_plan.hpp:24`. -/
inductive StockRadix
  | three | four | five | eight

/-- The radix, `size()` at `src/neo/fft/reference/c2c_stockham_dif3_plan.hpp:37`, `c2c_stockham_dif4_plan.hpp:37`,
`c2c_stockham_dif5_plan.hpp:37`, `c2c_stockham_dif8_plan.hpp:37`. -/
def StockRadix.val : StockRadix → ℕ
  | .three => 3
  | .four => 4
  | .five => 5
  | .eight => 8

section any
variable {R C : Type} [Add C] [Sub C] [Mul C]

/-- The innermost block, `src/neo/fft/reference/c2c_stockham_dif3_plan.hpp:59-73`, `c2c_stockham_dif4_plan.hpp:58-76`,
`c2c_stockham_dif5_plan.hpp:63-91`, `c2c_stockham_dif8_plan.hpp:60-105`. -/
def StockRadix.body (q : StockRadix) (A : StockArith R C) : (l m j k : Nat) → (y x : List C) → Res (List C) :=
  match q with
  | .three => stockham3BodyG A
  | .four => stockham4BodyG A
  | .five => stockham5BodyG A
  | .eight => stockham8BodyG A

/-- The call operator over any arithmetic, `src/neo/fft/reference/c2c_stockham_dif3_plan.hpp:39-80`,
`c2c_stockham_dif4_plan.hpp:39-83`, `c2c_stockham_dif5_plan.hpp:39-98`, `c2c_stockham_dif8_plan.hpp:39-112`. -/
def stockhamDifG (q : StockRadix) (A : StockArith R C) (order : Nat) (x work : List C) : Res (List C × List C) :=
  stockhamLoop q.val order (q.body A) x work

end any

/-- The values of `static_cast<Float>(…)` of the constants, `src/neo/fft/reference/c2c_stockham_dif3_plan.hpp:46`,
`c2c_stockham_dif5_plan.hpp:47-49`, `c2c_stockham_dif8_plan.hpp:44`. -/
structure StockConst where
  sinPiBy3 : FVal
  sqrt5By4 : FVal
  sinPiBy5 : FVal
  sin2PiBy5 : FVal
  sqrt2By2 : FVal

noncomputable section
variable (f : Fmt)

/-- `neo::scalar_complex`.  It has no product with a real number, so `z * r` converts `r` to a complex number with zero
imaginary part (`src/neo/complex/scalar_complex.hpp:21,50-56`).  `sin_ratio` is a rounded quotient
(`src/neo/fft/reference/c2c_stockham_dif5_plan.hpp:50`); `0.5` and `0.25` are exact.
`src/neo/fft/reference/c2c_stockham_dif3_plan.hpp:44-46,59-60,68-69`. -/
def ieeeStock (tw : ℕ → ℕ → Direction → IC f) (k : StockConst) (dir : Direction) : StockArith (IR f) (IC f) where
  tw n i := tw n i dir
  i := ⟨.fin 0, .fin (if dir = .forward then -1 else 1)⟩
  scale z r := z * ⟨r.val, .fin 0⟩
  half := ⟨.fin (1 / 2)⟩
  quarter := ⟨.fin (1 / 4)⟩
  sinPiBy3 := ⟨k.sinPiBy3⟩
  sqrt5By4 := ⟨k.sqrt5By4⟩
  sin2PiBy5 := ⟨k.sin2PiBy5⟩
  sinRatio := ⟨f.round (k.sinPiBy5.div k.sin2PiBy5)⟩
  sqrt2By2 := ⟨k.sqrt2By2⟩

/-- `std::complex`: the product with a real number multiplies both parts, other products are those of Annex G.
`src/neo/fft/reference/c2c_stockham_dif3_plan.hpp:44-46,59-60,68-69`. -/
def stdStock (tw : ℕ → ℕ → Direction → IC f) (k : StockConst) (dir : Direction) : StockArith (IR f) (SC f) where
  tw n i := (tw n i dir).std
  i := (⟨.fin 0, .fin (if dir = .forward then -1 else 1)⟩ : IC f).std
  scale z r := ⟨f.round (z.re.mul r.val), f.round (z.im.mul r.val)⟩
  half := ⟨.fin (1 / 2)⟩
  quarter := ⟨.fin (1 / 4)⟩
  sinPiBy3 := ⟨k.sinPiBy3⟩
  sqrt5By4 := ⟨k.sqrt5By4⟩
  sin2PiBy5 := ⟨k.sin2PiBy5⟩
  sinRatio := ⟨f.round (k.sinPiBy5.div k.sin2PiBy5)⟩
  sqrt2By2 := ⟨k.sqrt2By2⟩

end

end Neo
