import Verif.Model.Stockham
import Verif.Model.DigitRev

/-!
# Model: the transforms of `extra/snippet/radix4.cpp` and `extra/snippet/stockham.cpp`

Floating-point numbers are exact and the constant `3.14159265359 * 2.0` of `radix4.cpp` is idealised to
`2 π`.  `ipow` and the index products are computed without wrapping.  Spans carry no bounds check in the
source; an access outside is the fault `oob`.
-/

namespace Neo

/-- `digitrevorder<Radix>`, `extra/snippet/radix4.cpp:36-53`; the loop state is `(x, j)`.  For an empty span
`len - 1` wraps and the first pass runs `while (0 <= 0)` forever.  Fuel as in `bitrevorder`. -/
def digitrevorder {α : Type} (radix : Nat) (x : List α) : Res (List α) :=
  if x.length = 0 then .error .diverge else do
  let len := x.length
  let r ← forN (len - 1) (fun i (s : List α × Nat) => do
    let x ← if i < s.2 then swap s.1 i s.2 else pure s.1
    let jk ← revCarry radix (len + 1) s.2 ((radix - 1) * len / radix)
    pure (x, jk.1 + jk.2 / (radix - 1))) (x, 0)
  pure r.1

/-- The butterfly of both versions of `c2c_dit4`, `extra/snippet/radix4.cpp:81-94` and `:127-140`. -/
def snipDit4Butterfly (I w1 w2 w3 : ℂ) (L LR j k : Nat) (x : List ℂ) : Res (List ℂ) := do
  let a ← rd x (k * L + LR * 0 + j)
  let b ← rd x (k * L + LR * 1 + j)
  let b := b * w1
  let c ← rd x (k * L + LR * 2 + j)
  let c := c * w2
  let d ← rd x (k * L + LR * 3 + j)
  let d := d * w3
  let t0 := a + c
  let t1 := a - c
  let t2 := b + d
  let t3 := b - d
  let x ← wr x (k * L + LR * 0 + j) (t0 + t2)
  let x ← wr x (k * L + LR * 1 + j) (t1 - t3 * I)
  let x ← wr x (k * L + LR * 2 + j) (t0 - t2)
  wr x (k * L + LR * 3 + j) (t1 + t3 * I)

/-- `c2c_dit4(x, order, sign)`, `extra/snippet/radix4.cpp:58-98`. -/
noncomputable def snipDit4 (x : List ℂ) (order : Nat) (sign : ℝ) : Res (List ℂ) := do
  let I : ℂ := ⟨0, sign⟩
  let n := x.length
  let x ← digitrevorder 4 x
  forR 1 (order + 1) (fun q x =>
    let L := ipow 4 q
    let LR := L / 4
    let r := n / L
    forN LR (fun j x =>
      let angle : ℝ := sign * (2 * Real.pi) * j / L
      let w1 := polar 1 (angle * 1)
      let w2 := polar 1 (angle * 2)
      let w3 := polar 1 (angle * 3)
      forN r (fun k x => snipDit4Butterfly I w1 w2 w3 L LR j k x) x) x) x

/-- `c2c_dit4(x, w, order, sign)`, `extra/snippet/radix4.cpp:100-144`. -/
noncomputable def snipDit4Table (x w : List ℂ) (order : Nat) (sign : ℝ) : Res (List ℂ) := do
  let I : ℂ := ⟨0, sign⟩
  let n := x.length
  let x ← digitrevorder 4 x
  forR 1 (order + 1) (fun q x =>
    let L := ipow 4 q
    let LR := L / 4
    let r := n / L
    forN LR (fun j x => do
      let w1 ← rd w j
      let w2 := w1 * w1
      let w3 := w2 * w1
      forN r (fun k x => snipDit4Butterfly I w1 w2 w3 L LR j k x) x) x) x

/-- The tables `w_fwd` (`sign = -1`) and `w_bwd` (`sign = 1`) of `main`, `extra/snippet/radix4.cpp:199-205`,
for any size. -/
noncomputable def snipDit4Lut (size : Nat) (sign : ℝ) : List ℂ :=
  (List.range (size / 4)).map (fun (i : Nat) => polar 1 (sign * (2 * Real.pi * i / size)))

/-- One stage of `c2c_stockham`, `extra/snippet/radix4.cpp:162-172`: reads `x`, writes `work`. -/
noncomputable def snipStockhamPass (l m : Nat) (sign : ℝ) (x work : List ℂ) : Res (List ℂ) :=
  forN l (fun j work =>
    let angle : ℝ := sign * (2 * Real.pi) * j / ((2 * l : Nat) : ℝ)
    let w := polar 1 angle
    forN m (fun k work => do
      let c0 ← rd x (k + j * m)
      let c1 ← rd x (k + j * m + l * m)
      let work ← wr work (k + 2 * j * m) (c0 + c1)
      wr work (k + 2 * j * m + m) ((c0 - c1) * w)) work) work

/-- `std::ranges::copy(x, work.begin())`, `extra/snippet/radix4.cpp:180`. -/
def rangesCopy (x work : List ℂ) : Res (List ℂ) :=
  forN x.length (fun i work => do
    let v ← rd x i
    wr work i v) work

/-- `c2c_stockham`, `extra/snippet/radix4.cpp:146-182`.  The parameters `x` and `work` are spans passed by
value, so that `std::swap(x, work)` exchanges what the local names refer to.  The state holds the contents of the
spans named `x` and `work`, and whether the names are exchanged: then the local `work` is the caller's `x`.
The result is `(caller's x, caller's work)`. -/
noncomputable def snipStockham (x work : List ℂ) (order : Nat) (sign : ℝ) : Res (List ℂ × List ℂ) := do
  let n := ipow 2 order
  let s ← forN order (fun _ (s : ((List ℂ × List ℂ) × Bool) × Nat × Nat) => do
    let work ← snipStockhamPass s.2.1 s.2.2 sign s.1.1.1 s.1.1.2
    pure (((work, s.1.1.1), !s.1.2), s.2.1 / 2, s.2.2 * 2)) (((x, work), false), n / 2, 1)
  let work ← if order &&& 1 ≠ 0 then rangesCopy s.1.1.1 s.1.1.2 else pure s.1.1.2
  if s.1.2 then pure (work, s.1.1.1) else pure (s.1.1.1, work)

/-- `c2c_stockham_dif2_plan` of `extra/snippet/stockham.cpp:7-84`: the table and the work buffer. -/
structure StockSnipPlan where
  w : List ℂ
  work : List ℂ

/-- Constructor and `make_twiddle_lut`, `extra/snippet/stockham.cpp:9` and `:71-80`.  (For `n = 0` the
division by zero gives an infinity that is never used.) -/
noncomputable def StockSnipPlan.make (size : Nat) : StockSnipPlan :=
  { w := (List.range (size / 2)).map (fun (i : Nat) => polar 1 (i * (2 * Real.pi / size)))
    work := List.replicate size 0 }

/-- `fft`, `extra/snippet/stockham.cpp:15`.  `fft0` (`:36-69`) is statement for statement the one of the
library (`fft0` of `Model/Stockham`).  The depth of the recursion is at most `size + 1`; for `size = 0` it
never ends.  The result is the transformed `x` and the plan with its work buffer. -/
noncomputable def StockSnipPlan.fft (p : StockSnipPlan) (x : List ℂ) : Res (List ℂ × StockSnipPlan) := do
  let r ← fft0 p.w (p.work.length + 1) p.work.length 1 false x p.work
  pure (r.1, { p with work := r.2 })

/-- `ifft`, `extra/snippet/stockham.cpp:19-28`. -/
noncomputable def StockSnipPlan.ifft (p : StockSnipPlan) (x : List ℂ) : Res (List ℂ × StockSnipPlan) := do
  let x ← conjugateVec p.work.length x
  let r ← fft0 p.w (p.work.length + 1) p.work.length 1 false x p.work
  let x ← conjugateVec p.work.length r.1
  pure (x, { p with work := r.2 })

end Neo
