import Verif.Model.Python
import Verif.Model.Conv
import Verif.Model.Units

/-!
# Model: NumPy arrays as the Python bindings see them, `convolve` and `rfftfreq`
(`extra/python/src/main.cpp`, `extra/python/src/neo/__init__.py`)

A NumPy array is a block of memory with a data pointer, a shape and *byte* strides.  The behaviour of
pybind11 and NumPy assumed here: `shape(i)`/`strides(i)` throw for an axis that does not exist,
`mutable_data()` throws for an array that is not writeable, `array_t(n)` allocates `n` elements and throws for a
negative `n`; an `array_t<T>` argument is bound without a conversion in a first pass over the
overloads, and with a conversion in a second pass.
-/

namespace Neo

/-- The element types that matter for overload resolution: the one of the `float` overloads, the one
of the `double` overloads, any other (integers, for instance).
`extra/python/src/main.cpp:254-258`. -/
inductive DType where
  | single
  | double
  | other
  deriving DecidableEq, Repr

/-- A NumPy array (`py::array_t<T>`), reduced to what `main.cpp` looks at.  `mem a` is the element one
gets by reading at byte address `a`, `none` outside the storage. -/
structure PyArray (R : Type) where
  mem : ℤ → Option R
  data : ℤ
  shape : List ℕ
  /-- In bytes, possibly negative. -/
  strides : List ℤ
  itemsize : ℤ
  writeable : Bool
  cStyle : Bool
  fStyle : Bool
  dtype : DType

variable {R : Type}

/-- `static_cast<size_t>(buf.strides(0) / buf.itemsize())`: the division truncates, the cast wraps;
`make_strides<1>`, `extra/python/src/main.cpp:58-66`. -/
def PyArray.stride0 (A : PyArray R) : Res ℕ :=
  match A.strides[0]? with
  | none => .error .exception
  | some s => .ok ((s.tdiv A.itemsize) % 2 ^ 64).toNat

/-- `static_cast<size_t>(buf.shape(0))`: `make_extents<1>`, `main.cpp:48-56`. -/
def PyArray.extent0 (A : PyArray R) : Res ℕ :=
  match A.shape[0]? with
  | none => .error .exception
  | some n => .ok n

/-- `buf.mutable_data()`. `extra/python/src/main.cpp:74,86,99,107`. -/
def PyArray.mutableData (A : PyArray R) : Res ℤ :=
  if A.writeable then .ok A.data else .error .exception

/-- `p[off]` for a pointer `p` to elements of `itemsize` bytes.
`extra/python/src/main.cpp:73-76,85-88`. -/
def PyArray.access (A : PyArray R) (p : ℤ) (off : ℕ) : Res R :=
  match A.mem (p + off * A.itemsize) with
  | none => .error .oob
  | some v => .ok v

/-- The elements `view[0], …, view[n-1]` of a one-dimensional mdspan with the mapping `i ↦ i * stride`
(in `size_t`).  Simplification: the model reads the whole view at once; for non-empty operands the
library calls behind it read every element too. `extra/python/src/main.cpp:79-89`. -/
def PyArray.readView (A : PyArray R) (p : ℤ) (n stride : ℕ) : Res (List R) :=
  forN n (fun i out => do
    let v ← A.access p (i * stride % 2 ^ 64)
    pure (out ++ [v])) []

/-- `to_mdspan_layout_stride<1>(buf)`, `main.cpp:79-89`. -/
def PyArray.toMdspanStride (A : PyArray R) : Res (List R) := do
  let stride ← A.stride0
  let n ← A.extent0
  let p ← A.mutableData
  A.readView p n stride

/-- `strides_match(buf, map)` for the one-dimensional `layout_right` or `layout_left` mapping, whose
stride is one; `main.cpp:37-46`. -/
def PyArray.stridesMatch (A : PyArray R) : Res Bool := do
  let s ← A.stride0
  pure (decide (1 = s))

/-- `as_mdspan_impl<1>(buf, func)`, `main.cpp:91-113`, up to the call of `func`. -/
def PyArray.asMdspanImpl (A : PyArray R) : Res (List R) := do
  let n ← A.extent0
  let m ← A.stridesMatch
  if A.cStyle && m then do
    let p ← A.mutableData
    A.readView p n 1
  else if A.fStyle && m then do
    let p ← A.mutableData
    A.readView p n 1
  else A.toMdspanStride

/-- `as_mdspan<1>(buf, func)`, `main.cpp:115-127`, up to the call of `func`. -/
def PyArray.asMdspan (A : PyArray R) : Res (List R) :=
  if A.shape.length = 1 then A.asMdspanImpl else .error .exception

/-- The binding of `fft`/`ifft` on an array, `main.cpp:129-167`. -/
noncomputable def pyFftArray (dir : Direction) (A : PyArray ℂ) (n : Option ℕ) (norm : Norm) :
    Res (List ℂ) := do
  let input ← A.asMdspan
  pyFft dir input n norm

/-- `neo::convolution::mode`, `src/neo/convolution/mode.hpp:12-17`. -/
inductive ConvMode where
  | full
  | valid
  | same
  deriving DecidableEq, Repr

/-- The two instantiated methods of the binding, `main.cpp:254-258`. -/
inductive ConvMethod where
  | direct
  | fft
  deriving DecidableEq, Repr

/-- `convolve<Method, Float>(in1, in2, mode)`, `main.cpp:169-198`.  The condition on the rank is written
as in the source: it looks at `in1` twice.  With two empty operands the size wraps to `-1`, which the
allocation rejects.  The content of the fresh output array is unspecified; zeros here. -/
noncomputable def pyConvolveT (method : ConvMethod) (in1 in2 : PyArray ℝ) (mode : ConvMode) :
    Res (List ℝ) := do
  if in1.shape.length ≠ 1 ∨ in1.shape.length ≠ 1 then .error .exception else do
  let signal ← in1.toMdspanStride
  let patch ← in2.toMdspanStride
  if mode = .full then do
    if signal.length + patch.length = 0 then .error .exception else do
    let output := vec (signal.length + patch.length - 1) (fun _ => (0 : ℝ))
    match method with
    | .direct => directConvolveInto signal patch output
    | .fft => do
      let out ← fftConvolve signal patch
      copyVec out output
  else .error .exception

/-- The precision of the overload that pybind11 selects for two array arguments, the `float` overload being
registered first (`main.cpp:254-258`): the overload both arrays match exactly, otherwise the first one
(every array converts). -/
def pyOverload (d1 d2 : DType) : DType :=
  if d1 = .single ∧ d2 = .single then .single
  else if d1 = .double ∧ d2 = .double then .double
  else .single

/-- A fresh contiguous array of the converted elements of a one-dimensional array; `f` is the
conversion of one element. `extra/python/src/main.cpp:171,254-258`. -/
def PyArray.convert (f : ℝ → ℝ) (d : DType) (A : PyArray ℝ) : PyArray ℝ where
  mem a :=
    if 0 ≤ a ∧ a < A.itemsize * A.shape.getD 0 0 then
      (A.mem (A.data + a / A.itemsize * A.strides.getD 0 0)).map f
    else none
  data := 0
  shape := A.shape
  strides := [A.itemsize]
  itemsize := A.itemsize
  writeable := true
  cStyle := true
  fStyle := true
  dtype := d

/-- `array_t<T>::ensure`: an array that has the element type `d` already is passed as it is; any other is
replaced by a fresh contiguous array of converted elements.  Only one-dimensional arrays are converted
in this model, and the item size is kept (sizes matter only through the quotient with the stride).
`rnd d` is the conversion of one element to type `d`. `extra/python/src/main.cpp:171,254-258`. -/
def PyArray.ensure (rnd : DType → ℝ → ℝ) (d : DType) (A : PyArray ℝ) : PyArray ℝ :=
  if A.dtype = d then A else A.convert (rnd d) d

/-- `_neo.direct_convolve` / `_neo.fft_convolve`, `main.cpp:254-258`: overload resolution, conversion,
call. -/
noncomputable def pyConvolveBound (rnd : DType → ℝ → ℝ) (method : ConvMethod) (in1 in2 : PyArray ℝ)
    (mode : ConvMode) : Res (List ℝ) :=
  let d := pyOverload in1.dtype in2.dtype
  pyConvolveT method (in1.ensure rnd d) (in2.ensure rnd d) mode

/-- `CONVOLUTION_MODE[mode]`, `extra/python/src/neo/__init__.py:28-32`: an unknown key raises. -/
def convolutionMode (mode : String) : Res ConvMode :=
  if mode = "full" then .ok .full
  else if mode = "valid" then .ok .valid
  else if mode = "same" then .ok .same
  else .error .exception

/-- `neo.convolve(in1, in2, mode, method)`, `extra/python/src/neo/__init__.py:43-48`. -/
noncomputable def pyConvolve (rnd : DType → ℝ → ℝ) (in1 in2 : PyArray ℝ) (mode method : String) :
    Res (List ℝ) :=
  if method = "fft" then do
    let m ← convolutionMode mode
    pyConvolveBound rnd .fft in1 in2 m
  else do
    let m ← convolutionMode mode
    pyConvolveBound rnd .direct in1 in2 m

/-- `rfftfreq(n, d)`, `main.cpp:212-223`. -/
noncomputable def pyRfftfreq (n : ℕ) (d : ℝ) : Res (List ℝ) :=
  rfftfreqVec (vec n (fun _ => 0)) d

end Neo
