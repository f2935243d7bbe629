import Verif.Model.Mat

/-!
# Model: `csr_matrix` (`neo/container/csr_matrix.hpp`) and the sparse `multiply_add`

`index_type` is unbounded (`size_t` in every use).  Dense inputs are given by an element function
`Nat → Nat → α` together with their extents; out-of-range element reads of the dense input do not
occur by construction of the loops (row < extent(0), col < extent(1)).
-/

namespace Neo

/-- `csr_matrix`, `src/neo/container/csr_matrix.hpp:21-56`. -/
structure Csr (α : Type) where
  rows : Nat
  cols : Nat
  values : List α
  colIdx : List Nat
  rowIdx : List Nat
  deriving DecidableEq

variable {α : Type}

/-- `csr_matrix(rows, cols)`, `csr_matrix.hpp:58-62`. -/
def Csr.empty (rows cols : Nat) : Csr α :=
  { rows := rows, cols := cols, values := [], colIdx := [], rowIdx := vec (rows + 1) (fun _ => 0) }

/-- First pass of the constructor, `csr_matrix.hpp:70-78`: counts the accepted elements. -/
def csrCount (rows cols : Nat) (m : Nat → Nat → α) (p : Nat → Nat → α → Bool) : Res Nat :=
  forN rows (fun r count => forN cols (fun c count =>
    if p r c (m r c) then .ok (count + 1) else .ok count) count) 0

/-- State of the second pass: `_values`, `_colum_indices`, `_row_indices`, `idx`.
`src/neo/container/csr_matrix.hpp:53-55,83-98`. -/
structure CsrFill (α : Type) where
  values : List α
  colIdx : List Nat
  rowIdx : List Nat
  idx : Nat

/-- Body of the inner loop of the second pass, `csr_matrix.hpp:89-93`. -/
def csrFillElem (m : Nat → Nat → α) (p : Nat → Nat → α → Bool) (r c : Nat) (s : CsrFill α) :
    Res (CsrFill α) :=
  if p r c (m r c) then do
    let values ← wr s.values s.idx (m r c)
    let colIdx ← wr s.colIdx s.idx c
    pure { s with values := values, colIdx := colIdx, idx := s.idx + 1 }
  else .ok s

/-- Body of the outer loop of the second pass, `csr_matrix.hpp:84-95`. -/
def csrFillRow (cols : Nat) (m : Nat → Nat → α) (p : Nat → Nat → α → Bool) (r : Nat)
    (s : CsrFill α) : Res (CsrFill α) := do
  let rowIdx ← wr s.rowIdx r s.idx
  forN cols (fun c s => csrFillElem m p r c s) { s with rowIdx := rowIdx }

/-- `csr_matrix(matrix, filter)`, `csr_matrix.hpp:64-98`.  `resize` value-initialises. -/
def Csr.ofDense [Zero α] (rows cols : Nat) (m : Nat → Nat → α) (p : Nat → Nat → α → Bool) :
    Res (Csr α) := do
  let base : Csr α := Csr.empty rows cols
  let count ← csrCount rows cols m p
  let s ← forN rows (fun r s => csrFillRow cols m p r s)
    { values := vec count (fun _ => 0), colIdx := vec count (fun _ => 0),
      rowIdx := base.rowIdx, idx := 0 }
  -- `_row_indices.back() = idx`
  let rowIdx ← wr s.rowIdx (s.rowIdx.length - 1) s.idx
  pure { base with values := s.values, colIdx := s.colIdx, rowIdx := rowIdx }

/-- Loop of `operator()`: `n` candidates left, starting at `i`.
`src/neo/container/csr_matrix.hpp:134-139`. -/
def Csr.findFrom [Zero α] (m : Csr α) (col : Nat) : Nat → Nat → Res α
  | 0, _ => .ok 0
  | n + 1, i => do
      let c ← rd m.colIdx i
      if c = col then rd m.values i else Csr.findFrom m col n (i + 1)

/-- `operator()(row, col)`, `csr_matrix.hpp:131-140` (`_row_indices[row + 1]` does not change
during the loop and is read once). -/
def Csr.get [Zero α] (m : Csr α) (row col : Nat) : Res α := do
  let lo ← rd m.rowIdx row
  let hi ← rd m.rowIdx (row + 1)
  m.findFrom col (hi - lo) lo

/-- `while` loop of `insert`, `csr_matrix.hpp:146-148`: `n` positions left, currently at `i`. -/
def Csr.insertPos (m : Csr α) (col : Nat) : Nat → Nat → Res Nat
  | 0, i => .ok i
  | n + 1, i => do
      let c ← rd m.colIdx i
      if c < col then Csr.insertPos m col n (i + 1) else .ok i

/-- `std::vector::insert(begin() + i, a)`; undefined for `i > size()`.
`src/neo/container/csr_matrix.hpp:151-152`. -/
def insertAt {β : Type} (xs : List β) (i : Nat) (a : β) : Res (List β) :=
  if i ≤ xs.length then .ok (xs.take i ++ a :: xs.drop i) else .error .oob

/-- `insert(row, col, value)`, `csr_matrix.hpp:142-157`. -/
def Csr.insert (m : Csr α) (row col : Nat) (value : α) : Res (Csr α) := do
  let lo ← rd m.rowIdx row
  let hi ← rd m.rowIdx (row + 1)
  let idx ← m.insertPos col (hi - lo) lo
  let values ← insertAt m.values idx value
  let colIdx ← insertAt m.colIdx idx col
  let rowIdx ← forR (row + 1) (m.rows + 1) (fun i rowIdx => do
    let v ← rd rowIdx i
    wr rowIdx i (v + 1)) m.rowIdx
  pure { m with values := values, colIdx := colIdx, rowIdx := rowIdx }

/-- Body of the sparse `multiply_add` loop for the aliased call `multiply_add(x, y, row, acc, acc)`,
`src/neo/algorithm/multiply_add.hpp:320-323`. -/
def csrMacStep [Mul α] [Add α] (x : List α) (y : Csr α) (i : Nat) (acc : List α) :
    Res (List α) := do
  let col ← rd y.colIdx i
  let a ← rd x col
  let v ← rd y.values i
  let z ← rd acc col
  wr acc col (a * v + z)

/-- `multiply_add(x, y, y_row, acc, acc)`, `multiply_add.hpp:303-324`. -/
def csrMultiplyAddAcc [Mul α] [Add α] (x : List α) (y : Csr α) (row : Nat) (acc : List α) :
    Res (List α) := do
  check (x.length = y.cols)
  let lo ← rd y.rowIdx row
  let hi ← rd y.rowIdx (row + 1)
  forR lo hi (fun i acc => csrMacStep x y i acc) acc

/-- Body of the sparse `multiply_add` loop for distinct buffers.
`src/neo/algorithm/multiply_add.hpp:320-324`. -/
def csrMacStepTo [Mul α] [Add α] (x : List α) (y : Csr α) (z : List α) (i : Nat) (out : List α) :
    Res (List α) := do
  let col ← rd y.colIdx i
  let a ← rd x col
  let v ← rd y.values i
  let zc ← rd z col
  wr out col (a * v + zc)

/-- `multiply_add(x, y, y_row, z, out)` for `out` distinct from the inputs,
`multiply_add.hpp:303-324`. -/
def csrMultiplyAdd [Mul α] [Add α] (x : List α) (y : Csr α) (row : Nat) (z out : List α) :
    Res (List α) := do
  check (x.length = y.cols)
  let lo ← rd y.rowIdx row
  let hi ← rd y.rowIdx (row + 1)
  forR lo hi (fun i out => csrMacStepTo x y z i out) out

end Neo
