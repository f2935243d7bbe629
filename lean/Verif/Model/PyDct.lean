import Verif.Model.Dct

/-!
# Model: `extra/snippet/dct.py`

Three ways to compute the type-2 DCT with NumPy and `scipy.fft.fft`.  `fft` is a parameter: a function
from arrays to arrays that may raise.  Real arrays are lists of reals; the conversion to complex
that `fft` does is explicit.  `np.empty` has unspecified content, a parameter `junk`.  The printing at the end
of the file is not modelled.
-/

namespace Neo

/-- First index of a Python slice after `PySlice_AdjustIndices`; `none` is an omitted bound.
`extra/snippet/dct.py:13-16,38-43`. -/
def pySliceStart (len : Nat) (step : Int) : Option Int → Int
  | none => if step < 0 then len - 1 else 0
  | some s =>
    if s < 0 then
      if s + len < 0 then (if step < 0 then -1 else 0) else s + len
    else if (len : Int) ≤ s then (if step < 0 then len - 1 else len) else s

/-- End of a Python slice after `PySlice_AdjustIndices`. `extra/snippet/dct.py:13-16,38-43`. -/
def pySliceStop (len : Nat) (step : Int) : Option Int → Int
  | none => if step < 0 then -1 else len
  | some s =>
    if s < 0 then
      if s + len < 0 then (if step < 0 then -1 else 0) else s + len
    else if (len : Int) ≤ s then (if step < 0 then len - 1 else len) else s

/-- Number of elements of a slice, the return value of `PySlice_AdjustIndices`.
`extra/snippet/dct.py:13-16,38-43`. -/
def pySliceLen (start stop step : Int) : Nat :=
  if step < 0 then
    if stop < start then ((start - stop - 1) / (-step) + 1).toNat else 0
  else
    if start < stop then ((stop - start - 1) / step + 1).toNat else 0

/-- `x[start:stop:step]`. `extra/snippet/dct.py:14,16,28,38-43`. -/
def pySlice {α : Type} (x : List α) (start stop : Option Int) (step : Int) : Res (List α) :=
  if step = 0 then .error .exception else
  let a := pySliceStart x.length step start
  let b := pySliceStop x.length step stop
  (List.range (pySliceLen a b step)).mapM (fun (i : Nat) => rd x (a + i * step).toNat)

/-- NumPy's `y[start:stop] = v`: the lengths have to agree, or `v` has one element, which is repeated.
`extra/snippet/dct.py:13-14,26,38-43`. -/
def npAssign {α : Type} (y : List α) (start stop : Option Int) (v : List α) : Res (List α) :=
  let a := pySliceStart y.length 1 start
  let b := pySliceStop y.length 1 stop
  let n := pySliceLen a b 1
  if v.length = n then wrSpan y a.toNat v
  else match v with
    | [e] => wrSpan y a.toNat (List.replicate n e)
    | _ => .error .exception

/-- NumPy's `y *= v` for arrays of the same length. `extra/snippet/dct.py:18,30,47`. -/
def npMulInPlace {α : Type} [Mul α] (y v : List α) : Res (List α) :=
  if y.length = v.length then .ok (List.zipWith (· * ·) y v) else .error .exception

/-- `np.exp(-1j*np.pi*k/(2*N))` with `k = np.arange(N)`, `dct.py:11,18`. -/
noncomputable def pyDctTwiddle (N : Nat) : List ℂ :=
  (List.range N).map (fun (k : Nat) => Complex.exp (-1 * Complex.I * (Real.pi : ℂ) * (k : ℂ) / (2 * (N : ℂ))))

/-- A function with the interface of `scipy.fft.fft`. `extra/snippet/dct.py:16,28,45`. -/
abbrev PyFftFn := List ℂ → Res (List ℂ)

/-- `dct2_2nfft_1(x)`, `extra/snippet/dct.py:9-19`: the signal followed by its mirror image. -/
noncomputable def pyDct2Mirror (fft : PyFftFn) (junk : Nat → ℝ) (x : List ℝ) : Res (List ℝ) := do
  let N := x.length
  let y := vec (2 * N) junk
  let y ← npAssign y none (some N) x
  let r ← pySlice x none none (-1)
  let y ← npAssign y (some N) none r
  let Y ← fft (y.map (fun (a : ℝ) => (a : ℂ)))
  let Y ← pySlice Y none (some N) 1
  let Y ← npMulInPlace Y (pyDctTwiddle N)
  pure (Y.map Complex.re)

/-- `dct2_2nfft_2(x)`, `extra/snippet/dct.py:22-31`: the signal followed by zeros. -/
noncomputable def pyDct2Padded (fft : PyFftFn) (x : List ℝ) : Res (List ℝ) := do
  let N := x.length
  let y := vec (2 * N) (fun _ => (0 : ℝ))
  let y ← npAssign y none (some N) x
  let Y ← fft (y.map (fun (a : ℝ) => (a : ℂ)))
  let Y ← pySlice Y none (some N) 1
  let Y ← npMulInPlace Y ((pyDctTwiddle N).map (2 * ·))
  pure (Y.map Complex.re)

/-- `dct2_nfft(x)`, `extra/snippet/dct.py:34-48`: even samples forwards, odd samples backwards. -/
noncomputable def pyDct2Makhoul (fft : PyFftFn) (junk : Nat → ℝ) (x : List ℝ) : Res (List ℝ) := do
  let N := x.length
  let v := vec N junk
  let h : Int := ((N : Int) - 1) / 2 + 1
  let e ← pySlice x none none 2
  let v ← npAssign v none (some h) e
  -- the two branches of the `if` differ in the start of the slice only
  let o ← pySlice x (if N % 2 ≠ 0 then some (-2) else none) none (-2)
  let v ← npAssign v (some h) none o
  let V ← fft (v.map (fun (a : ℝ) => (a : ℂ)))
  let V ← npMulInPlace V ((pyDctTwiddle N).map (2 * ·))
  pure (V.map Complex.re)

end Neo
