import Mathlib.Data.Int.Log
import Mathlib.Analysis.Real.Sqrt
import Mathlib.Algebra.Order.Archimedean.Real.Basic
import Mathlib.Algebra.Order.Round
import Mathlib.Algebra.Ring.Int.Parity

/-!
# Spec: binary floating-point formats

A format is given by its precision `p` (bits of the significand), the exponent `emin` of the unit in the last place of
its subnormal numbers and the exponent `emax` with all finite values below `2 ^ emax` in magnitude.  Signed zeros and
NaN payloads are not distinguished.
-/

namespace Neo.Spec

/-- Nearest integer, ties to even. -/
noncomputable def rne (t : ℝ) : ℤ :=
  if Int.fract t < 1 / 2 then ⌊t⌋
  else if 1 / 2 < Int.fract t then ⌊t⌋ + 1
  else if Even ⌊t⌋ then ⌊t⌋ else ⌊t⌋ + 1

/-- Parameters of an IEEE 754 binary interchange format. -/
structure Fmt where
  p : ℕ
  emin : ℤ
  emax : ℤ

/-- binary16: 11 bits, subnormals are multiples of `2⁻²⁴`, finite values are below `2¹⁶`. -/
def binary16 : Fmt := ⟨11, -24, 16⟩
/-- binary32: 24 bits, subnormals are multiples of `2⁻¹⁴⁹`, finite values are below `2¹²⁸`. -/
def binary32 : Fmt := ⟨24, -149, 128⟩

/-- binary64: 53 bits, subnormals are multiples of `2⁻¹⁰⁷⁴`, finite values are below `2¹⁰²⁴`. -/
def binary64 : Fmt := ⟨53, -1074, 1024⟩

/-- The relation between the parameters of an IEEE 754 interchange format. -/
def Fmt.Ieee (f : Fmt) : Prop := 3 ≤ f.p ∧ 3 ≤ f.emax ∧ f.emin = 3 - f.emax - f.p

/-- Values of a format: finite numbers, the two infinities, and NaN. -/
inductive FVal where
  | fin (x : ℝ)
  | inf (neg : Bool)
  | nan

/-- `x` is a finite number with at most `p` significant bits, on the grid of the subnormals. -/
def Fmt.OnGrid (f : Fmt) (x : ℝ) : Prop :=
  ∃ m k : ℤ, |m| < 2 ^ f.p ∧ f.emin ≤ k ∧ x = m * (2 : ℝ) ^ k

/-- `v` is a value of the format. -/
def Fmt.Mem (f : Fmt) : FVal → Prop
  | .fin x => f.OnGrid x ∧ |x| < (2 : ℝ) ^ f.emax
  | _ => True

/-- `r` has an even significand. -/
def Fmt.EvenSig (f : Fmt) (r : ℝ) : Prop :=
  ∃ n k : ℤ, Even n ∧ |n| ≤ 2 ^ f.p ∧ f.emin ≤ k ∧ (k = f.emin ∨ 2 ^ (f.p - 1) ≤ |n|) ∧ r = n * (2 : ℝ) ^ k

/-- `r` is the correctly rounded value of `x`, as IEEE 754 describes it: no other number with `p` significant bits is
closer to `x`, and if another one is equally close then `r` is the one with the even significand. -/
def Fmt.Nearest (f : Fmt) (x r : ℝ) : Prop :=
  f.OnGrid r ∧ ∀ g, f.OnGrid g → |x - r| ≤ |x - g| ∧ (|x - r| = |x - g| → g = r ∨ f.EvenSig r)

/-- Exponent of the unit in the last place used to round `x`. -/
noncomputable def Fmt.ulpExp (f : Fmt) (x : ℝ) : ℤ := max f.emin (Int.log 2 |x| - (f.p - 1))

/-- Rounding with unlimited exponent range upwards: to the nearest multiple of the unit in the last place. -/
noncomputable def Fmt.rndInf (f : Fmt) (x : ℝ) : ℝ :=
  rne (x * (2 : ℝ) ^ (-f.ulpExp x)) * (2 : ℝ) ^ f.ulpExp x

/-- IEEE 754 rounding to nearest, ties to even, with overflow to infinity. -/
noncomputable def Fmt.round (f : Fmt) : FVal → FVal
  | .fin x => if |f.rndInf x| < (2 : ℝ) ^ f.emax then .fin (f.rndInf x) else .inf (decide (f.rndInf x < 0))
  | v => v

/-- The exact sum. -/
noncomputable def FVal.add : FVal → FVal → FVal
  | .fin x, .fin y => .fin (x + y)
  | .fin _, .inf s => .inf s
  | .inf s, .fin _ => .inf s
  | .inf s, .inf t => if s = t then .inf s else .nan
  | _, _ => .nan

/-- The opposite value. -/
noncomputable def FVal.neg : FVal → FVal
  | .fin x => .fin (-x)
  | .inf s => .inf !s
  | .nan => .nan

/-- The exact difference. -/
noncomputable def FVal.sub (a b : FVal) : FVal := a.add b.neg

/-- The exact product. -/
noncomputable def FVal.mul : FVal → FVal → FVal
  | .fin x, .fin y => .fin (x * y)
  | .fin x, .inf s => if x = 0 then .nan else .inf (xor s (decide (x < 0)))
  | .inf s, .fin x => if x = 0 then .nan else .inf (xor s (decide (x < 0)))
  | .inf s, .inf t => .inf (xor s t)
  | _, _ => .nan

/-- The exact quotient; a zero divisor is taken to be positive. -/
noncomputable def FVal.div : FVal → FVal → FVal
  | .fin x, .fin y => if y = 0 then (if x = 0 then .nan else .inf (decide (x < 0))) else .fin (x / y)
  | .fin _, .inf _ => .fin 0
  | .inf s, .fin y => .inf (xor s (decide (y < 0)))
  | _, _ => .nan

/-- The exact square root. -/
noncomputable def FVal.sqrt : FVal → FVal
  | .fin x => if x < 0 then .nan else .fin (Real.sqrt x)
  | .inf false => .inf false
  | _ => .nan

/-- The magnitude. -/
noncomputable def FVal.abs : FVal → FVal
  | .fin x => .fin |x|
  | .inf _ => .inf false
  | .nan => .nan

/-- `a < b`; false if either is NaN. -/
def FVal.Lt : FVal → FVal → Prop
  | .fin x, .fin y => x < y
  | .fin _, .inf s => s = false
  | .inf s, .fin _ => s = true
  | .inf s, .inf t => s = true ∧ t = false
  | _, _ => False

end Neo.Spec
