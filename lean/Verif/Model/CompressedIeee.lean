import Verif.Model.CompressedFdl
import Verif.Model.AnyArith
import Verif.Model.Algo

/-!
# Model: `compressed_fdl`, `compressed_accessor` and the benchmark of compressed products in IEEE arithmetic

The code of `Verif.Model.CompressedFdl` with every float operation rounded, and with infinities and NaN.  `f` is the
format of the samples, `g` the format to which the largest integer is converted.
-/

namespace Neo

open Spec

noncomputable section

/-- `std::lround`: for NaN, the infinities and values outside the range of `long` the result is unspecified.
`src/neo/convolution/compressed_fdl.hpp:41`; `extra/benchmark/src/fixed_point.cpp:256,269-270`. -/
def lroundI : FVal → Res ℤ
  | .fin x => if i64.Fits (lroundR x) then .ok (lroundR x) else .error .overflow
  | _ => .error .overflow

/-- The lambda `compress`, `src/neo/convolution/compressed_fdl.hpp:38-42` (there `g` is `float`), and
`compress_float`, `extra/benchmark/src/fixed_point.cpp:252-257` (there `g` is the format of the samples). -/
def compressI (f g : Fmt) (t : IntT) (val : FVal) : Res ℤ := do
  let r ← lroundI (f.round (val.mul (g.round (.fin t.max))))
  pure (t.conv r)

/-- `compressed_fdl::insert`, `src/neo/convolution/compressed_fdl.hpp:36-48`. -/
def CFdl.insertI (f : Fmt) (t : IntT) (s : CFdl) (input : List (IC f)) (index : ℕ) : Res CFdl :=
  if index < s.rows then do
    let d ← forU32 input.length (fun i d => do
      let z ← rd input i
      let re ← compressI f binary32 t z.re
      let im ← compressI f binary32 t z.im
      if i < s.cols then wr d (index * s.cols + i) (re, im) else .error .oob) s.data
    pure { s with data := d }
  else .error .oob

/-- `compressed_accessor::access` for real elements, `src/neo/container/compressed_accessor.hpp:29-32`. -/
def decompressI (f : Fmt) (t : IntT) (v : ℤ) : FVal :=
  let invScale := f.round (FVal.div (.fin 1) (f.round (.fin t.max)))
  f.round ((f.round (.fin v)).mul invScale)

/-- `compressed_accessor::access` for complex elements, `src/neo/container/compressed_accessor.hpp:33-45`. -/
def decompressC (f : Fmt) (t : IntT) (v : ℤ × ℤ) : IC f := ⟨decompressI f t v.1, decompressI f t v.2⟩

/-- Element `i` of `fdl[index]`: `compressed_fdl::operator[]`,
`src/neo/convolution/compressed_fdl.hpp:26-34`. -/
def CFdl.getI (f : Fmt) (t : IntT) (s : CFdl) (index i : ℕ) : Res (IC f) :=
  if index < s.rows ∧ i < s.cols then do
    let v ← rd s.data (index * s.cols + i)
    pure (decompressC f t v)
  else .error .oob

/-- The whole row `fdl[index]` as a vector. `src/neo/convolution/compressed_fdl.hpp:26-34`. -/
def CFdl.rowI (f : Fmt) (t : IntT) (s : CFdl) (index : ℕ) : Res (List (IC f)) :=
  if index < s.rows then do
    let r ← rdSpan s.data (index * s.cols) (index * s.cols + s.cols)
    pure (r.map (decompressC f t))
  else .error .oob

/-- `std::transform(noise.data(), noise.data() + noise.size(), dst.data(), compress)`,
`extra/benchmark/src/fixed_point.cpp:287-288`. -/
def transformTo {E S : Type} (comp : E → Res S) (src : List E) (dst : List S) : Res (List S) :=
  forN src.length (fun i d => do
    let v ← rd src i
    let c ← comp v
    wr d i c) dst

/-- `cfloat_mul`: the constructor with the two noise signals `a` and `b` of `size` elements, then the call operator;
returns `_out`.  `extra/benchmark/src/fixed_point.cpp:273-307`; reading through the `compressed_accessor` is `dec`. -/
def cfloatMul {E S : Type} [Zero S] [Zero E] [Mul E] (comp : E → Res S) (dec : S → E) (size : ℕ) (a b : List E) :
    Res (List E) := do
  let lhs ← transformTo comp a (List.replicate size 0)
  let rhs ← transformTo comp b (List.replicate size 0)
  multiplyVec (lhs.map dec) (rhs.map dec) (List.replicate size 0)

/-- `compress_float` on the samples, `extra/benchmark/src/fixed_point.cpp:252-257,283`. -/
def compressR (f : Fmt) (t : IntT) (x : IR f) : Res ℤ := compressI f f t x.val

/-- `compressed_accessor::access` as a value of the format, `src/neo/container/compressed_accessor.hpp:29-32`. -/
def decompressR (f : Fmt) (t : IntT) (v : ℤ) : IR f := ⟨decompressI f t v⟩

/-- `compress_complex`, `extra/benchmark/src/fixed_point.cpp:259-272,281`. -/
def compressC (f : Fmt) (t : IntT) (z : IC f) : Res (ℤ × ℤ) := do
  let re ← compressI f f t z.re
  let im ← compressI f f t z.im
  pure (re, im)

end

end Neo
