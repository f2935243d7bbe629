import Verif.Model.Fft2
import Verif.Model.NaiveDft

/-!
# Model: `extra/snippet/radix4.py`

NumPy arrays are lists; an index outside the array raises `IndexError`, which is the fault `oob` here
(no index in the file is negative).  Quantities that Python computes as floats with `/` and converts back with `int`
are natural numbers with floor division: for the array sizes of the file, powers of the radix, the floats are exact
integers.  The random tests, the timing and the plotting are not modelled.
-/

namespace Neo

/-- The innermost loop of the seed table, `extra/snippet/radix4.py:44-46`. -/
def pySeedInner (radix i : Nat) (rev : List Nat) : Res (List Nat) :=
  forR 1 radix (fun j rev => do
    let a ← rd rev (radix * i)
    let b ← rd rev j
    wr rev (radix * i + j) (a + b)) rev

/-- The seed table, `extra/snippet/radix4.py:38-46`.  The two inner loops are nested inside the first one, as in the
source; the inner loop reuses the variable `jvar`, which does not affect the iteration of the outer loop. -/
def pySeedTable (radix length n1 : Nat) : Res (List Nat) := do
  let rev := vec n1 (fun _ => 0)
  let rev ← wr rev 1 (length / radix)
  forR 1 radix (fun j rev => do
    let a ← rd rev (j - 1)
    let b ← rd rev 1
    let rev ← wr rev j (a + b)
    forR 1 (n1 / radix) (fun i rev => do
      let c ← rd rev i
      let rev ← wr rev (radix * i) (c / radix)
      pySeedInner radix i rev) rev) rev

/-- `digitreversal(x, radix, log2length, length)`, `extra/snippet/radix4.py:28-58`, with
`swap` of lines 18-25. -/
def pyDigitReversal {α : Type} (x : List α) (radix log2length length : Nat) : Res (List α) := do
  check (x.length = length)
  let n1 := if log2length % 2 = 0 then Nat.sqrt length else Nat.sqrt (length / radix)
  let rev ← pySeedTable radix length n1
  forN (n1 - 1) (fun i x =>
    forR (i + 1) n1 (fun j x => do
      let rj ← rd rev j
      let ri ← rd rev i
      let u := i + rj
      let v := j + ri
      let x ← swap x u v
      if log2length % 2 = 1 then
        forR 1 radix (fun z x => do
          let rj ← rd rev j
          let ri ← rd rev i
          let uu := i + rj + z * n1
          let vv := j + ri + z * n1
          swap x uu vv) x
      else pure x) x) x

/-- The butterfly of `dif_fft4`, `extra/snippet/radix4.py:74-94`. -/
noncomputable def pyDif4Butterfly (twiddle : List ℂ) (tss length base k : Nat) (x : List ℂ) : Res (List ℂ) := do
  let offset := length / 4
  let a := base + k
  let b := base + k + offset
  let c := base + k + 2 * offset
  let d := base + k + 3 * offset
  let xa ← rd x a
  let xc ← rd x c
  let apc := xa + xc
  let xb ← rd x b
  let xd ← rd x d
  let bpd := xb + xd
  let amc := xa - xc
  let bmd := xb - xd
  let x ← wr x a (apc + bpd)
  if k = 0 then do
    let x ← wr x b (amc - Complex.I * bmd)
    let x ← wr x c (apc - bpd)
    wr x d (amc + Complex.I * bmd)
  else do
    let r1 ← rd twiddle (k * tss)
    let r2 ← rd twiddle (2 * k * tss)
    let r3 ← rd twiddle (3 * k * tss)
    let x ← wr x b ((amc - Complex.I * bmd) * r1)
    let x ← wr x c ((apc - bpd) * r2)
    wr x d ((amc + Complex.I * bmd) * r3)

/-- The local variables of the four transforms: the array, two sizes, the number of blocks, the twiddle step.
`extra/snippet/radix4.py:65-100`. -/
structure PyPass where
  x : List ℂ
  length : Nat
  tss : Nat
  krange : Nat
  block : Nat

/-- One iteration of the outer loop of `dif_fft4`, `extra/snippet/radix4.py:70-100`. -/
noncomputable def pyDif4Pass (twiddle : List ℂ) (s : PyPass) : Res PyPass := do
  let r ← forN s.block (fun _ (xb : List ℂ × Nat) => do
    let x ← forN s.krange (fun k x => pyDif4Butterfly twiddle s.tss s.length xb.2 k x) xb.1
    pure (x, xb.2 + 4 * s.krange)) (s.x, 0)
  pure { x := r.1, length := s.length / 4, tss := s.tss * 4, krange := s.krange / 4, block := s.block * 4 }

/-- `dif_fft4(x, twiddle, log2length)`, `extra/snippet/radix4.py:61-101`. -/
noncomputable def pyDifFft4 (x twiddle : List ℂ) (log2length : Nat) : Res (List ℂ) := do
  let length := 4 ^ log2length
  let s ← forN log2length (fun _ s => pyDif4Pass twiddle s)
    { x := x, length := length, tss := 1, krange := length / 4, block := 1 }
  pure s.x

/-- `xbr1, xcr2, xdr3` of `fft4`, `extra/snippet/radix4.py:122-132`. -/
noncomputable def pyDit4Operands (twiddles : List ℂ) (tss k b c d : Nat) (x : List ℂ) : Res (ℂ × ℂ × ℂ) :=
  if k = 0 then do
    let xb ← rd x b
    let xc ← rd x c
    let xd ← rd x d
    pure (xb, xc, xd)
  else do
    let r1 ← rd twiddles (k * tss)
    let r2 ← rd twiddles (2 * k * tss)
    let r3 ← rd twiddles (3 * k * tss)
    let xb ← rd x b
    let xc ← rd x c
    let xd ← rd x d
    pure (xb * r1, xc * r2, xd * r3)

/-- The butterfly of `fft4`, `extra/snippet/radix4.py:117-141`. -/
noncomputable def pyDit4Butterfly (twiddles : List ℂ) (tss nvar base k : Nat) (x : List ℂ) : Res (List ℂ) := do
  let offset := nvar / 4
  let a := base + k
  let b := base + k + offset
  let c := base + k + 2 * offset
  let d := base + k + 3 * offset
  let m ← pyDit4Operands twiddles tss k b c d x
  let xa ← rd x a
  let evar := xa + m.2.1
  let fvar := xa - m.2.1
  let gvar := m.1 + m.2.2
  let h := m.1 - m.2.2
  let jh := Complex.I * h
  let x ← wr x a (evar + gvar)
  let x ← wr x b (fvar - jh)
  let x ← wr x c (-gvar + evar)
  wr x d (jh + fvar)

/-- One iteration of the outer loop of `fft4`, `extra/snippet/radix4.py:113-147`; `length` is `nvar`. -/
noncomputable def pyDit4Pass (twiddles : List ℂ) (s : PyPass) : Res PyPass := do
  let r ← forN s.block (fun _ (xb : List ℂ × Nat) => do
    let x ← forN s.krange (fun k x => pyDit4Butterfly twiddles s.tss s.length xb.2 k x) xb.1
    pure (x, xb.2 + 4 * s.krange)) (s.x, 0)
  pure { x := r.1, length := 4 * s.length, tss := s.tss / 4, krange := 4 * s.krange, block := s.block / 4 }

/-- `fft4(x, twiddles, log2length)`, `extra/snippet/radix4.py:104-148`. -/
noncomputable def pyFft4 (x twiddles : List ℂ) (log2length : Nat) : Res (List ℂ) := do
  let s ← forN log2length (fun _ s => pyDit4Pass twiddles s)
    { x := x, length := 4, tss := 4 ^ (log2length - 1), krange := 1, block := x.length / 4 }
  pure s.x

/-- The choice made in both radix-2 butterflies: the value itself for `nvar = 0`, otherwise the value times
`twiddle[nvar*twiddle_step_size]`. `extra/snippet/radix4.py:165-170,194-198`. -/
noncomputable def pyTwTimes (twiddle : List ℂ) (tss n : Nat) (v : ℂ) : Res ℂ :=
  if n = 0 then pure v else do
    let t ← rd twiddle (n * tss)
    pure (v * t)

/-- The butterfly of `dif_fft0`, `extra/snippet/radix4.py:164-172`. -/
noncomputable def pyDif2Butterfly (twiddle : List ℂ) (tss baseE baseO n : Nat) (x : List ℂ) : Res (List ℂ) := do
  let e ← rd x (baseE + n)
  let o ← rd x (baseO + n)
  let evar := e + o
  let ovar ← pyTwTimes twiddle tss n (e - o)
  let x ← wr x (baseE + n) evar
  wr x (baseO + n) ovar

/-- One iteration of the outer loop of `dif_fft0`, `extra/snippet/radix4.py:158-176`; `length` is `nvar_p`. -/
noncomputable def pyDif2Pass (twiddle : List ℂ) (s : PyPass) : Res PyPass := do
  let nvarPp := s.length / 2
  let r ← forN s.block (fun _ (xb : List ℂ × Nat) => do
    let baseO := xb.2 + nvarPp
    let x ← forN nvarPp (fun n x => pyDif2Butterfly twiddle s.tss xb.2 baseO n x) xb.1
    pure (x, xb.2 + s.length)) (s.x, 0)
  pure { x := r.1, length := s.length / 2, tss := 2 * s.tss, krange := s.krange, block := s.block * 2 }

/-- `dif_fft0(xarray, twiddle, log2length)`, `extra/snippet/radix4.py:151-177`. -/
noncomputable def pyDifFft2 (x twiddle : List ℂ) (log2length : Nat) : Res (List ℂ) := do
  let s ← forN log2length (fun _ s => pyDif2Pass twiddle s)
    { x := x, length := x.length, tss := 1, krange := 0, block := 1 }
  pure s.x

/-- The butterfly of `fft2`, `extra/snippet/radix4.py:194-202`. -/
noncomputable def pyDit2Butterfly (twiddle : List ℂ) (tss baseT baseB n : Nat) (x : List ℂ) : Res (List ℂ) := do
  let b ← rd x (baseB + n)
  let bot ← pyTwTimes twiddle tss n b
  let top ← rd x (baseT + n)
  let x ← wr x (baseT + n) (top + bot)
  wr x (baseB + n) (top - bot)

/-- One iteration of the outer loop of `fft2`, `extra/snippet/radix4.py:188-205`; `length` is `nvar_p`. -/
noncomputable def pyDit2Pass (twiddle : List ℂ) (s : PyPass) : Res PyPass := do
  let nvarPp := s.length / 2
  let r ← forN s.block (fun _ (xb : List ℂ × Nat) => do
    let baseB := xb.2 + nvarPp
    let x ← forN nvarPp (fun n x => pyDit2Butterfly twiddle s.tss xb.2 baseB n x) xb.1
    pure (x, xb.2 + s.length)) (s.x, 0)
  pure { x := r.1, length := s.length * 2, tss := s.tss / 2, krange := s.krange, block := s.block / 2 }

/-- `fft2(x, twiddle, log2length)`, `extra/snippet/radix4.py:180-206`. -/
noncomputable def pyFft2 (x twiddle : List ℂ) (log2length : Nat) : Res (List ℂ) := do
  let s ← forN log2length (fun _ s => pyDit2Pass twiddle s)
    { x := x, length := 2, tss := x.length / 2, krange := 0, block := x.length / 2 }
  pure s.x

/-- `np.exp(-2j*np.pi*k_wavenumber/length)` with `k_wavenumber = np.linspace(0, kmax, int(kmax+1))`,
`extra/snippet/radix4.py:222-224,252-254,281-283,311-313,389-391`; `linspace` is idealised to `0, 1, …, kmax`. -/
noncomputable def pyTwiddles (kmax length : Nat) : List ℂ :=
  vec (kmax + 1) (fun k => Complex.exp (-2 * Complex.I * (Real.pi : ℂ) * (k : ℂ) / (length : ℂ)))

/-- The table of the radix-4 transforms: `kmax = 3*(length/4 - 1)`.
`extra/snippet/radix4.py:222-223,252-253`. -/
noncomputable def pyTwiddles4 (length : Nat) : List ℂ := pyTwiddles (3 * (length / 4 - 1)) length

/-- The table of the radix-2 transforms: `kmax = length/2 - 1`.
`extra/snippet/radix4.py:281-282,311-312`. -/
noncomputable def pyTwiddles2 (length : Nat) : List ℂ := pyTwiddles (length / 2 - 1) length

/-- `testr4dif` and `foo`, `extra/snippet/radix4.py:218-228,377-394`: radix 4, decimation in frequency. -/
noncomputable def pyRadix4Dif (x : List ℂ) (log2length : Nat) : Res (List ℂ) := do
  let length := 4 ^ log2length
  let x ← pyDifFft4 x (pyTwiddles4 length) log2length
  pyDigitReversal x 4 log2length length

/-- `testr4`, `extra/snippet/radix4.py:248-256`: radix 4, decimation in time. -/
noncomputable def pyRadix4Dit (x : List ℂ) (log2length : Nat) : Res (List ℂ) := do
  let length := 4 ^ log2length
  let x ← pyDigitReversal x 4 log2length length
  pyFft4 x (pyTwiddles4 length) log2length

/-- `testr2dif`, `extra/snippet/radix4.py:277-287`: radix 2, decimation in frequency. -/
noncomputable def pyRadix2Dif (x : List ℂ) (log2length : Nat) : Res (List ℂ) := do
  let length := 2 ^ log2length
  let x ← pyDifFft2 x (pyTwiddles2 length) log2length
  pyDigitReversal x 2 log2length length

/-- `testr2`, `extra/snippet/radix4.py:307-317`: radix 2, decimation in time. -/
noncomputable def pyRadix2Dit (x : List ℂ) (log2length : Nat) : Res (List ℂ) := do
  let length := 2 ^ log2length
  let x ← pyDigitReversal x 2 log2length length
  pyFft2 x (pyTwiddles2 length) log2length

end Neo
