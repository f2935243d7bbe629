import Verif.Model.ExpRfft
import Verif.Model.DigitRev

/-!
# Model: the real transform snippet (`extra/snippet/rfft.cpp`)

Real and imaginary parts are interleaved in one buffer of reals.  `float` arithmetic is exact,
`std::sin` is the sine and the constants `6.28318530717959F` and `std::numbers::pi` are `2π` and `π`.
`int` variables are naturals; a transform whose `nn` does not fit an `int` is a fault of the model (in C++
the shift wraps around and the call does nothing useful).
-/

namespace Neo

/-- Body of the innermost loop of `fft`, `extra/snippet/rfft.cpp:43-55`. -/
noncomputable def nrButterfly (x : List ℝ) (wr wi : ℝ) (mmax i : Nat) : Res (List ℝ) := do
  let j := i + mmax
  let jn1 := j - 1
  let in1 := i - 1
  let a ← rd x jn1
  let b ← rd x j
  let tempr := wr * a - wi * b
  let tempi := wr * b + wi * a
  let c ← rd x in1
  let x ← Neo.wr x jn1 (c - tempr)
  let d ← rd x i
  let x ← Neo.wr x j (d - tempi)
  let c ← rd x in1
  let x ← Neo.wr x in1 (c + tempr)
  let d ← rd x i
  Neo.wr x i (d + tempi)

/-- One pass of the outer loop of `fft`, `extra/snippet/rfft.cpp:34-60`; the loop over `m` has
`m = 2 t + 1 < mmax`, the loop over `i` has `i = m + q · istep ≤ nn`. -/
noncomputable def nrStage (nn : Nat) (isign : Int) (mmax : Nat) (x : List ℝ) : Res (List ℝ) := do
  let istep := mmax * 2
  let theta : ℝ := isign * (2 * Real.pi / mmax)
  let wtemp := Real.sin (0.5 * theta)
  let wpr := -2 * wtemp * wtemp
  let wpi := Real.sin theta
  let r ← forN (mmax / 2) (fun t (s : ExpState) => do
    let m := 2 * t + 1
    let x ← forN ((nn - m) / istep + 1) (fun q x => nrButterfly x s.wr s.wi mmax (m + q * istep)) s.x
    let tmp := s.wr
    pure { x := x, wr := tmp * wpr - s.wi * wpi + s.wr, wi := s.wi * wpr + tmp * wpi + s.wi })
    { x := x, wr := 1, wi := 0 }
  pure r.x

/-- `while (nn > mmax) { …; mmax = istep; }` with fuel, `extra/snippet/rfft.cpp:33-61`. -/
noncomputable def nrStages (nn : Nat) (isign : Int) : Nat → Nat → List ℝ → Res (List ℝ)
  | 0, _, _ => .error .diverge
  | fuel + 1, mmax, x =>
    if nn > mmax then do
      let x ← nrStage nn isign mmax x
      nrStages nn isign fuel (mmax * 2) x
    else pure x

/-- `fft(std::vector<float>&, int)` with `fft(float*, int, int)`, `extra/snippet/rfft.cpp:9-64`.  The
reordering of lines 16-30 is statement for statement that of `bitrevorderInterleaved`. -/
noncomputable def nrFft (x : List ℝ) (isign : Int) : Res (List ℝ) := do
  let n := x.length / 2
  let nn := n * 2
  if 2 ^ 31 ≤ nn then .error .overflow else do
  let x ← bitrevorderInterleaved x
  nrStages nn isign (nn + 1) 2 x

/-- `rfft`, `extra/snippet/rfft.cpp:66-120`; the two directions are written one after the other, and the
recombination loop of lines 85-111 is statement for statement `expLoop`.  (For `n < 2` the angle is a
division by zero in C++; the call then ends in a fault before the angle is used.) -/
noncomputable def nrRfft (x : List ℝ) (isign : Int) : Res (List ℝ) := do
  let n := x.length
  let c1 : ℝ := 0.5
  let c2 : ℝ := if isign = 1 then -0.5 else 0.5
  let t : ℝ := Real.pi / ((n >>> 1 : ℕ) : ℝ)
  if isign = 1 then do
    let x ← nrFft x 1
    let x ← expLoop n c1 c2 t x
    let h1r ← rd x 0
    let x1 ← rd x 1
    let x ← wr x 0 (h1r + x1)
    wr x 1 (h1r - x1)
  else do
    let x ← expLoop n c1 c2 (-t) x
    let h1r ← rd x 0
    let x1 ← rd x 1
    let x ← wr x 0 (c1 * (h1r + x1))
    let x ← wr x 1 (c1 * (h1r - x1))
    nrFft x (-1)

/-- The benchmark loop of `main`, `extra/snippet/rfft.cpp:134-147`, after `runs` passes: both calls work in
place on the same buffer. -/
noncomputable def nrRuns (runs : Nat) (x : List ℝ) : Res (List ℝ) :=
  forN runs (fun _ x => do
    let x ← nrRfft x 1
    nrRfft x (-1)) x

end Neo
