import Verif.Model.Overlap
import Verif.Model.Csr

/-!
# Model: uniformly partitioned convolution

`fdl_index.hpp`, `dense_fdl.hpp`, `dense_filter.hpp`, `sparse_filter.hpp`,
`uniform_partitioned_convolver.hpp`, and the split-complex `multiply_add` loop.

Class templates are modelled by records of operations (`FdlOps`, `FilterOps`, `OverlapOps`).
Multidimensional arrays are flat row-major lists.  `R` and `C` are the real and complex number types: `ℝ` and `ℂ`, or
rounded numbers in `Verif.Model.UpcRounding`.
-/

namespace Neo

/-! ## `fdl_index` -/

/-- `fdl_index`, `src/neo/convolution/fdl_index.hpp:13-41` (index arithmetic without overflow). -/
structure FdlIndex where
  numSegments : Nat
  writePos : Nat
  deriving DecidableEq

/-- Constructor, `fdl_index.hpp:19,39-40`. -/
def FdlIndex.make (n : Nat) : FdlIndex := { numSegments := n, writePos := 0 }

/-- `reset()`, `fdl_index.hpp:21`. -/
def FdlIndex.reset (ix : FdlIndex) : FdlIndex := { ix with writePos := 0 }

/-- `if (++_write_pos; _write_pos >= _num_segments) reset();`, `fdl_index.hpp:33-35`. -/
def FdlIndex.advance (ix : FdlIndex) : FdlIndex :=
  let ix := { ix with writePos := ix.writePos + 1 }
  if ix.writePos ≥ ix.numSegments then ix.reset else ix

/-- Call operator, `fdl_index.hpp:23-36`; the callbacks act on a captured state `σ`. -/
def FdlIndex.call {σ : Type} (ix : FdlIndex) (copyCb : Nat → σ → Res σ)
    (mulCb : Nat → Nat → σ → Res σ) (s : σ) : Res (FdlIndex × σ) := do
  let s ← copyCb ix.writePos s
  let s ← forN ix.numSegments (fun segment s =>
    mulCb segment ((ix.writePos + ix.numSegments - segment) % ix.numSegments) s) s
  pure (ix.advance, s)

/-! ## Operations of the template parameters -/

/-- What `uniform_partitioned_convolver` uses of its `Fdl` parameter.
`src/neo/convolution/uniform_partitioned_convolver.hpp:30,42,53-54`. -/
structure FdlOps (Fdl Row : Type) (C : Type := ℂ) where
  /-- `Fdl{extents}` -/
  make : Nat → Nat → Fdl
  /-- `insert(input, index)` -/
  insert : Fdl → List C → Nat → Res Fdl
  /-- `operator[](index)` -/
  row : Fdl → Nat → Res Row

/-- What `uniform_partitioned_convolver` uses of its `Filter` parameter and of the
`accumulator_type`. `src/neo/convolution/uniform_partitioned_convolver.hpp:33-34,43-44,51-63`. -/
structure FilterOps (Filt Row Acc Arg : Type) (C : Type := ℂ) where
  /-- `filter(matrix, args...)`; the matrix is a strided view of a buffer -/
  load : Filt → MatView → List C → Arg → Res Filt
  /-- `operator()(fdl_row, filter_index, accumulator)` -/
  mac : Filt → Row → Nat → Acc → Res Acc
  /-- `accumulator_type{size}` -/
  accMake : Nat → Acc
  /-- `fill(accumulator, 0)` -/
  accZero : Acc → Res Acc
  /-- the final copy of the accumulator to the spectrum -/
  accOut : Acc → List C → Res (List C)

/-- What `uniform_partitioned_convolver` uses of its `Overlap` parameter.
`src/neo/convolution/uniform_partitioned_convolver.hpp:28,40,50`. -/
structure OverlapOps (Ov : Type) (R : Type := ℝ) (C : Type := ℂ) where
  make : Nat → Nat → Res Ov
  call : {σ : Type} → Ov → List R → Callback σ C → σ → Res (Ov × List R × σ)

/-! ## `uniform_partitioned_convolver` -/

/-- `uniform_partitioned_convolver`,
`src/neo/convolution/uniform_partitioned_convolver.hpp:13-35`. -/
structure Upc (Ov Fdl Filt Acc : Type) where
  overlap : Ov
  fdl : Fdl
  indexer : FdlIndex
  filter : Filt
  accumulator : Acc

section
variable {Ov Fdl Row Filt Acc Arg R C : Type}

/-- `filter(filter, args...)`, `uniform_partitioned_convolver.hpp:37-45`
(`extent(1) - 1` wraps for an empty matrix; then the allocation throws). -/
def Upc.load (oo : OverlapOps Ov R C) (fo : FdlOps Fdl Row C) (po : FilterOps Filt Row Acc Arg C)
    (u : Upc Ov Fdl Filt Acc) (v : MatView) (data : List C) (arg : Arg) :
    Res (Upc Ov Fdl Filt Acc) := do
  if v.cols = 0 then .error .exception else .ok ()
  let overlap ← oo.make (v.cols - 1) (v.cols - 1)
  let u := { u with overlap := overlap }
  let u := { u with indexer := FdlIndex.make v.rows }
  let u := { u with fdl := fo.make v.rows v.cols }
  let u := { u with accumulator := po.accMake v.cols }
  let filter ← po.load u.filter v data arg
  pure { u with filter := filter }

/-- The members mutated by the callback of the call operator.
`src/neo/convolution/uniform_partitioned_convolver.hpp:30-34,50-55`. -/
structure UpcInner (Fdl Acc : Type) where
  fdl : Fdl
  indexer : FdlIndex
  accumulator : Acc

/-- The lambda `multiply`, `uniform_partitioned_convolver.hpp:54`. -/
def Upc.multiply (fo : FdlOps Fdl Row C) (po : FilterOps Filt Row Acc Arg C) (filter : Filt)
    (index filterIndex : Nat) (s : Fdl × Acc) : Res (Fdl × Acc) := do
  let row ← fo.row s.1 index
  let acc ← po.mac filter row filterIndex s.2
  pure (s.1, acc)

/-- The lambda `insert`, `uniform_partitioned_convolver.hpp:53`. -/
def Upc.insert (fo : FdlOps Fdl Row C) (inout : List C) (index : Nat) (s : Fdl × Acc) :
    Res (Fdl × Acc) := do
  let fdl ← fo.insert s.1 inout index
  pure (fdl, s.2)

/-- The callback of the call operator, `uniform_partitioned_convolver.hpp:50-64`. -/
def Upc.callback (fo : FdlOps Fdl Row C) (po : FilterOps Filt Row Acc Arg C) (filter : Filt) :
    Callback (UpcInner Fdl Acc) C := fun inout s => do
  let acc ← po.accZero s.accumulator
  let (indexer, fdl, acc) ← s.indexer.call (Upc.insert fo inout) (Upc.multiply fo po filter)
    (s.fdl, acc)
  let inout ← po.accOut acc inout
  pure (inout, { fdl := fdl, indexer := indexer, accumulator := acc })

/-- Call operator, `uniform_partitioned_convolver.hpp:47-65`. -/
def Upc.call (oo : OverlapOps Ov R C) (fo : FdlOps Fdl Row C) (po : FilterOps Filt Row Acc Arg C)
    (u : Upc Ov Fdl Filt Acc) (block : List R) : Res (Upc Ov Fdl Filt Acc × List R) := do
  let (overlap, block, s) ← oo.call u.overlap block (Upc.callback fo po u.filter)
    { fdl := u.fdl, indexer := u.indexer, accumulator := u.accumulator }
  pure ({ overlap := overlap, fdl := s.fdl, indexer := s.indexer, filter := u.filter,
          accumulator := s.accumulator }, block)

/-- Default constructor, `uniform_partitioned_convolver.hpp:22,28-34`; `f0` is the
default-constructed filter. -/
def Upc.make (oo : OverlapOps Ov R C) (fo : FdlOps Fdl Row C) (po : FilterOps Filt Row Acc Arg C) (f0 : Filt) :
    Res (Upc Ov Fdl Filt Acc) := do
  let overlap ← oo.make 1 1
  pure { overlap := overlap, fdl := fo.make 0 0, indexer := FdlIndex.make 0, filter := f0,
         accumulator := po.accMake 0 }

/-- A fresh convolver is loaded with a filter and fed with blocks; the output blocks.
`extra/cli/src/convolver.cpp:38-54`. -/
def Upc.run (oo : OverlapOps Ov R C) (fo : FdlOps Fdl Row C) (po : FilterOps Filt Row Acc Arg C) (f0 : Filt)
    (v : MatView) (data : List C) (arg : Arg) (blocks : List (List R)) : Res (List (List R)) := do
  let u ← Upc.make oo fo po f0
  let u ← u.load oo fo po v data arg
  let (_, outs) ← runBlocks (fun u b => u.call oo fo po b) u blocks
  pure outs

end

/-! ## Instances -/

/-- `overlap_add` as a template argument.
`src/neo/convolution/dense_convolver.hpp:24,33`; `src/neo/convolution/overlap_add.hpp:24-107`. -/
noncomputable def olaOps : OverlapOps OverlapAdd where
  make := OverlapAdd.make
  call := fun o block cb s => o.call block cb s

/-- `overlap_save` as a template argument.
`src/neo/convolution/dense_convolver.hpp:20,40`; `src/neo/convolution/overlap_save.hpp:21-112`. -/
noncomputable def olsOps : OverlapOps OverlapSave where
  make := OverlapSave.make
  call := fun o block cb s => o.call block cb s

/-- Rank-2 `mdarray`: number of columns and flat row-major content.
`src/neo/convolution/dense_fdl.hpp:33`. -/
structure Arr2 (α : Type) where
  rows : Nat
  cols : Nat
  data : List α

/-- `submdspan(array, index, full_extent)`, read. `src/neo/convolution/dense_fdl.hpp:24`. -/
def Arr2.row {α : Type} (a : Arr2 α) (index : Nat) : Res (List α) :=
  rdSpan a.data (index * a.cols) (index * a.cols + a.cols)

/-- `dense_fdl`, `src/neo/convolution/dense_fdl.hpp:12-34`. -/
def denseFdlOps {C : Type} [Zero C] : FdlOps (Arr2 C) (List C) C where
  make := fun r c => { rows := r, cols := c, data := vec (r * c) (fun _ => 0) }
  insert := fun f input index => do
    let dst ← f.row index
    let dst ← copyVec input dst
    let data ← wrSpan f.data (index * f.cols) dst
    pure { f with data := data }
  row := fun f index => f.row index

/-- `dense_filter`, `src/neo/convolution/dense_filter.hpp:15-39`, with its rank-1 accumulator. -/
def denseFilterOps {C : Type} [Zero C] [Add C] [Mul C] : FilterOps (Arr2 C) (List C) (List C) Unit C where
  load := fun _ v data _ => do
    let out ← copyMat v data (MatView.right v.rows v.cols) (vec (v.rows * v.cols) (fun _ => 0))
    pure { rows := v.rows, cols := v.cols, data := out }
  mac := fun f fdl index acc => do
    let sub ← f.row index
    multiplyAddAcc fdl sub acc
  accMake := fun n => vec n (fun _ => 0)
  accZero := fun acc => fillVec acc 0
  accOut := fun acc inout => copyVec acc inout

/-- `sparse_filter`, `src/neo/convolution/sparse_filter.hpp:14-38`.  The dense matrix is read
through `rd`, which the loops of the constructor keep in range; the predicate is called with the
same values in both passes. -/
def sparseFilterOps {C : Type} [Zero C] [Add C] [Mul C] :
    FilterOps (Csr C) (List C) (List C) (Nat → Nat → C → Bool) C where
  load := fun _ v data sparsity => do
    -- every element of the dense matrix is read at least once
    let dense ← copyMat v data (MatView.right v.rows v.cols) (vec (v.rows * v.cols) (fun _ => 0))
    Csr.ofDense v.rows v.cols (fun r c => dense.getD (r * v.cols + c) 0) sparsity
  mac := fun f fdl index acc => csrMultiplyAddAcc fdl f index acc
  accMake := fun n => vec n (fun _ => 0)
  accZero := fun acc => fillVec acc 0
  accOut := fun acc inout => copyVec acc inout

/-- Split storage: the rank-3 `mdarray` with first extent 2, as its two planes.
`src/neo/convolution/dense_fdl.hpp:62`; `src/neo/convolution/dense_filter.hpp:81`. -/
structure Split2 (R : Type := ℝ) where
  re : Arr2 R
  im : Arr2 R

/-- `dense_split_fdl`, `dense_fdl.hpp:36-63`. -/
def splitFdlOps {R C : Type} [Zero R] [CplxParts R C] : FdlOps (Split2 R) (List R × List R) C where
  make := fun r c => { re := { rows := r, cols := c, data := vec (r * c) (fun _ => 0) },
                       im := { rows := r, cols := c, data := vec (r * c) (fun _ => 0) } }
  insert := fun f input index => do
    let re ← f.re.row index
    let im ← f.im.row index
    let (re, im) ← copyToSplit input re im
    let reData ← wrSpan f.re.data (index * f.re.cols) re
    let imData ← wrSpan f.im.data (index * f.im.cols) im
    pure { re := { f.re with data := reData }, im := { f.im with data := imData } }
  row := fun f index => do
    let re ← f.re.row index
    let im ← f.im.row index
    pure (re, im)

/-- Split-complex `multiply_add(x, y, acc, acc)`, scalar loop,
`src/neo/algorithm/multiply_add.hpp:326-368`. -/
def splitMultiplyAddAcc {R : Type} [Add R] [Sub R] [Mul R] (x y acc : List R × List R) :
    Res (List R × List R) := do
  check (x.1.length = x.2.length ∧ x.1.length = y.1.length ∧ x.1.length = y.2.length ∧
    x.1.length = acc.1.length ∧ x.1.length = acc.2.length)
  forN x.1.length (fun i (s : List R × List R) => do
    let xre ← rd x.1 i
    let xim ← rd x.2 i
    let yre ← rd y.1 i
    let yim ← rd y.2 i
    let zre ← rd s.1 i
    let re ← wr s.1 i ((xre * yre - xim * yim) + zre)
    let zim ← rd s.2 i
    let im ← wr s.2 i ((xre * yim + xim * yre) + zim)
    pure (re, im)) acc

/-- Loop of `dense_split_filter::filter`, `dense_filter.hpp:58-63`, for one of the planes. -/
def loadPlane {R C : Type} [Zero R] (part : C → R) (v : MatView) (data : List C) : Res (List R) :=
  forN v.rows (fun i out => forN v.cols (fun j out => do
    let x ← rd data (v.idx i j)
    wr out ((MatView.right v.rows v.cols).idx i j) (part x)) out) (vec (v.rows * v.cols) (fun _ => 0))

/-- `dense_split_filter`, `dense_filter.hpp:41-82`, with its rank-2 accumulator (two planes).
The two planes of the filter are filled by separate loops here (they are disjoint). -/
def splitFilterOps {R C : Type} [Zero R] [Add R] [Sub R] [Mul R] [CplxParts R C] :
    FilterOps (Split2 R) (List R × List R) (List R × List R) Unit C where
  load := fun _ v data _ => do
    let re ← loadPlane (CplxParts.re (C := C)) v data
    let im ← loadPlane (CplxParts.im (C := C)) v data
    pure { re := { rows := v.rows, cols := v.cols, data := re },
           im := { rows := v.rows, cols := v.cols, data := im } }
  mac := fun f fdl index acc => do
    let re ← f.re.row index
    let im ← f.im.row index
    splitMultiplyAddAcc fdl (re, im) acc
  accMake := fun n => (vec n (fun _ => 0), vec n (fun _ => 0))
  accZero := fun acc => do
    let re ← fillVec acc.1 0
    let im ← fillVec acc.2 0
    pure (re, im)
  accOut := fun acc inout =>
    -- `inout[i] = {_accumulator(0, i), _accumulator(1, i)}`
    forN inout.length (fun i inout => do
      let re ← rd acc.1 i
      let im ← rd acc.2 i
      wr inout i (CplxParts.make re im)) inout

/-! ## The convolver aliases -/

/-- `upola_convolver`, `src/neo/convolution/dense_convolver.hpp:24`. -/
noncomputable def upolaRun (v : MatView) (data : List ℂ) (blocks : List (List ℝ)) :
    Res (List (List ℝ)) :=
  Upc.run olaOps denseFdlOps denseFilterOps { rows := 0, cols := 0, data := [] } v data () blocks

/-- `upols_convolver`, `dense_convolver.hpp:20`. -/
noncomputable def upolsRun (v : MatView) (data : List ℂ) (blocks : List (List ℝ)) :
    Res (List (List ℝ)) :=
  Upc.run olsOps denseFdlOps denseFilterOps { rows := 0, cols := 0, data := [] } v data () blocks

/-- The default-constructed `dense_split_filter`. `src/neo/convolution/dense_filter.hpp:48,81`. -/
def emptySplit {R : Type} : Split2 R :=
  { re := { rows := 0, cols := 0, data := [] }, im := { rows := 0, cols := 0, data := [] } }

/-- `split_upola_convolver`, `dense_convolver.hpp:32-35`. -/
noncomputable def splitUpolaRun (v : MatView) (data : List ℂ) (blocks : List (List ℝ)) :
    Res (List (List ℝ)) :=
  Upc.run olaOps splitFdlOps splitFilterOps emptySplit v data () blocks

/-- `split_upols_convolver`, `dense_convolver.hpp:39-42`. -/
noncomputable def splitUpolsRun (v : MatView) (data : List ℂ) (blocks : List (List ℝ)) :
    Res (List (List ℝ)) :=
  Upc.run olsOps splitFdlOps splitFilterOps emptySplit v data () blocks

/-- `sparse_upola_convolver`, `src/neo/convolution/sparse_convolver.hpp:21-22`. -/
noncomputable def sparseUpolaRun (v : MatView) (data : List ℂ) (sparsity : Nat → Nat → ℂ → Bool)
    (blocks : List (List ℝ)) : Res (List (List ℝ)) :=
  Upc.run olaOps denseFdlOps sparseFilterOps (Csr.empty 0 0) v data sparsity blocks

/-- `sparse_upols_convolver`, `sparse_convolver.hpp:16-17`. -/
noncomputable def sparseUpolsRun (v : MatView) (data : List ℂ) (sparsity : Nat → Nat → ℂ → Bool)
    (blocks : List (List ℝ)) : Res (List (List ℝ)) :=
  Upc.run olsOps denseFdlOps sparseFilterOps (Csr.empty 0 0) v data sparsity blocks

end Neo
