import Verif.Model.Fixed
import Verif.Model.MultiplyAdd

/-!
# Model: split-complex products of fixed-point numbers and of their SIMD batches

`multiply_add` on `split_complex` vectors is a template; here its element type is `neo::q7`, `neo::q15` (or another
`fixed_point`), or one of the register classes of `src/neo/fixed_point/simd.hpp`, whose operators can fault in the
model.  A register is the list of its lanes.
-/

namespace Neo

/-- The binary operators of an element type. `src/neo/algorithm/multiply_add.hpp:60-68`. -/
structure FxOps (β : Type) where
  add : β → β → Res β
  sub : β → β → Res β
  mul : β → β → Res β

/-- `fixed_point<IntType, F>`, `src/neo/fixed_point/fixed_point.hpp:73-95`. -/
def fxOps (t : IntT) (F : Nat) : FxOps Int := ⟨fxAdd t, fxSub t, fxMul t F⟩

/-- The register classes that have all three operators. `src/neo/fixed_point/simd.hpp:153-514`. -/
inductive FxBatch where
  /-- `q7x16` with SSE4.1, `src/neo/fixed_point/simd.hpp:208-260` -/
  | q7x16
  /-- `q15x8` with SSE4.1, `src/neo/fixed_point/simd.hpp:262-314` -/
  | q15x8
  /-- `q15x8` with NEON, `src/neo/fixed_point/simd.hpp:153-202` -/
  | q15x8neon
  /-- `q15x16` with AVX2, `src/neo/fixed_point/simd.hpp:364-414` -/
  | q15x16
  /-- `q15x32` with AVX512BW, `src/neo/fixed_point/simd.hpp:464-514` -/
  | q15x32
  deriving DecidableEq

/-- `FixedPointBatch::size`: `sizeof(register_type) / sizeof(value_type)`.
`src/neo/fixed_point/simd.hpp:159,214,268`. -/
def FxBatch.lanes : FxBatch → Nat
  | .q7x16 => 16
  | .q15x8 => 8
  | .q15x8neon => 8
  | .q15x16 => 16
  | .q15x32 => 32

/-- `FixedPointBatch::value_type::storage_type`. `src/neo/fixed_point/simd.hpp:155,210,264`. -/
def FxBatch.storage : FxBatch → IntT
  | .q7x16 => i8
  | _ => i16

/-- `operator*` of the register classes, `src/neo/fixed_point/simd.hpp:195-198,248-256,302-310,404-410,504-510`. -/
def FxBatch.mulReg : FxBatch → List Int → List Int → List Int
  | .q7x16 => mulKernelS8 7
  | .q15x8 => mulKernelS16 15
  | .q15x8neon => vqdmulhLanes
  | .q15x16 => mulhrsLanes
  | .q15x32 => mulhrsLanes

/-- The operators of a register class: `+` and `-` are the saturating instructions.
`src/neo/fixed_point/simd.hpp:185-198,238-256`. -/
def FxBatch.ops (b : FxBatch) : FxOps (List Int) where
  add l r := .ok (addsLanes b.storage l r)
  sub l r := .ok (subsLanes b.storage l r)
  mul l r := .ok (b.mulReg l r)

/-- Body of the loop of the split-complex overload, `src/neo/algorithm/multiply_add.hpp:360-366`. -/
def fxMaStep {β : Type} (ops : FxOps β) (ali : Bool) (x y z : SplitV β) (i : Nat) (s : List β × List β) :
    Res (List β × List β) := do
  let xre ← rd x.re i
  let xim ← rd x.im i
  let yre ← rd y.re i
  let yim ← rd y.im i
  let p ← ops.mul xre yre
  let q ← ops.mul xim yim
  let d ← ops.sub p q
  let zre ← rd (zPlane ali z.re s.1) i
  let v ← ops.add d zre
  let re ← wr s.1 i v
  let p ← ops.mul xre yim
  let q ← ops.mul xim yre
  let d ← ops.add p q
  let zim ← rd (zPlane ali z.im s.2) i
  let v ← ops.add d zim
  let im ← wr s.2 i v
  pure (re, im)

/-- `multiply_add(x, y, z, out)` on split-complex vectors of fixed-point numbers or registers (the SIMD overloads of
`neo::simd::multiply_add` require floating-point elements), `src/neo/algorithm/multiply_add.hpp:328-368`. -/
def fxSplitMultiplyAdd {β : Type} (ops : FxOps β) (ali : Bool) (x y z : SplitV β) (out : List β × List β) :
    Res (List β × List β) := do
  check (x.re.length = x.im.length ∧ x.re.length = y.re.length ∧ x.re.length = y.im.length ∧
    x.re.length = (zPlane ali z.re out.1).length ∧ x.re.length = (zPlane ali z.im out.2).length ∧
    x.re.length = out.1.length ∧ x.re.length = out.2.length)
  forN (i32.conv x.re.length).toNat (fxMaStep ops ali x y z) out

/-- Body of the loops of `cmulp` and `cmulp_batch_fixed_point`, `extra/benchmark/src/fixed_point.cpp:138-141,188-191`. -/
def cmulpStep {β : Type} (ops : FxOps β) (l r : SplitV β) (i : Nat) (s : List β × List β) :
    Res (List β × List β) := do
  let lre ← rd l.re i
  let rre ← rd r.re i
  let lim ← rd l.im i
  let rim ← rd r.im i
  let p ← ops.mul lre rre
  let q ← ops.mul lim rim
  let v ← ops.sub p q
  let re ← wr s.1 i v
  let p ← ops.mul lre rim
  let q ← ops.mul lim rre
  let v ← ops.add p q
  let im ← wr s.2 i v
  pure (re, im)

/-- `cmulp::operator()` and `cmulp_batch_fixed_point::operator()`,
`extra/benchmark/src/fixed_point.cpp:120-145,177-195`: the loop runs over the extent of the output and counts with an
`int`. -/
def cmulp {β : Type} (ops : FxOps β) (l r : SplitV β) (out : List β × List β) : Res (List β × List β) := do
  let s ← forN (min out.1.length (2 ^ 31)) (cmulpStep ops l r) out
  if out.1.length < 2 ^ 31 then .ok s else .error .overflow

end Neo
