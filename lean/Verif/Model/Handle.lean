import Mathlib.Logic.Function.Basic

/-!
# Model: ownership of vendor set-up objects

The plans in `neo/fft/backend/{vdsp,mkl,ipp}.hpp` own an object of the vendor library, created by the
constructor and released by the destructor.  They can be moved and move-assigned.  A program is a
sequence of operations on storage slots; every operation below is one of those member functions.

The two buffers of an IPP plan are created and released together and count as one object.
-/

namespace Neo

/-- What can go wrong.
`src/neo/fft/backend/vdsp.hpp:94-103,215-224`; `src/neo/fft/backend/mkl.hpp:27-32`. -/
inductive HandleFault where
  /-- the program misuses a slot: no plan there, or a plan constructed on top of another -/
  | client
  /-- the library releases an object twice -/
  | doubleFree
  /-- the library is given an object that has been released -/
  | useAfterFree
  /-- the library is given a null pointer -/
  | nullHandle
  deriving DecidableEq, Repr

/-- The members of a plan that matter here: the object it releases in its destructor, and the pointer
its call operator hands to the library.
`src/neo/fft/backend/vdsp.hpp:37-53`; `src/neo/fft/backend/mkl.hpp:27-38`; `src/neo/fft/backend/ipp.hpp:23-28`. -/
structure PlanObj where
  owns : Option Nat
  raw : Option Nat
  deriving DecidableEq, Repr

/-- Which plan type.
`src/neo/fft/backend/vdsp.hpp:24`; `src/neo/fft/backend/mkl.hpp:37-38`; `src/neo/fft/backend/ipp.hpp:134-135`. -/
inductive Backend where
  | vdsp | mkl | ipp
  deriving DecidableEq, Repr

/-- Plans by slot, number of library objects created so far (named `0, 1, …`), and those released.
`src/neo/fft/backend/vdsp.hpp:83-103`. -/
structure HandleState where
  objs : Nat → Option PlanObj
  next : Nat
  freed : List Nat

/-- No plans yet. `src/neo/fft/backend/vdsp.hpp:83-103`. -/
def HandleState.init : HandleState := { objs := fun _ => none, next := 0, freed := [] }

/-- Construction, move construction, move assignment, call and destruction of a plan: src/neo/fft/backend/vdsp.hpp:37-53,94-103; src/neo/fft/backend/mkl.hpp:27-38. -/
inductive HandleOp where
  | construct (slot : Nat)
  | moveConstruct (dst src : Nat)
  | moveAssign (dst src : Nat)
  | destroy (slot : Nat)
  | call (slot : Nat)
  deriving DecidableEq, Repr

/-- The plan in a slot. `src/neo/fft/backend/vdsp.hpp:138`. -/
def HandleState.get (s : HandleState) (i : Nat) : Except HandleFault PlanObj :=
  match s.objs i with
  | some o => .ok o
  | none => .error .client

/-- `vDSP_destroy_fftsetup` / `DftiFreeDescriptor` / `ippsFree`, called only on non-null pointers.
`src/neo/fft/backend/vdsp.hpp:94-103`; `src/neo/fft/backend/mkl.hpp:27-32`; `src/neo/fft/backend/ipp.hpp:23-28`. -/
def HandleState.release (s : HandleState) : Option Nat → Except HandleFault HandleState
  | none => .ok s
  | some h => if h ∈ s.freed then .error .doubleFree else .ok { s with freed := h :: s.freed }

/-- What a move leaves behind.  vDSP: `std::exchange(other._plan, nullptr)`, `vdsp.hpp:37-53,163-179`.
MKL: the defaulted move of a `unique_ptr`, `mkl.hpp:37-38`.  IPP: the `unique_ptr`s are emptied but the
raw pointer `_handle` is copied, `ipp.hpp:134-135,214-216`. -/
def movedFrom (b : Backend) (o : PlanObj) : PlanObj :=
  match b with
  | .vdsp => { owns := none, raw := none }
  | .mkl => { owns := none, raw := none }
  | .ipp => { owns := none, raw := o.raw }

/-- What happens to the object a plan owned before it is assigned to.  vDSP: overwritten,
`vdsp.hpp:49,175`.  MKL: the `handle_t` is deleted, which does not free the descriptor,
`mkl.hpp:38,72-75,98`.  IPP: `ippsFree`, `ipp.hpp:23-28`. -/
def overwritten (b : Backend) (s : HandleState) (o : PlanObj) : Except HandleFault HandleState :=
  match b with
  | .vdsp => .ok s
  | .mkl => .ok s
  | .ipp => s.release o.owns

/-- One operation.  `destroy`: `vdsp.hpp:94-103,215-224`, `mkl.hpp:27-32`, the defaulted destructors of
`ipp.hpp`.  Assigning a plan to itself keeps its object (`std::exchange` and `unique_ptr` both do). -/
def handleStep (b : Backend) (s : HandleState) : HandleOp → Except HandleFault HandleState
  | .construct i =>
    match s.objs i with
    | some _ => .error .client
    | none => .ok { objs := Function.update s.objs i (some { owns := some s.next, raw := some s.next }),
                    next := s.next + 1, freed := s.freed }
  | .moveConstruct d i => do
    let o ← s.get i
    match s.objs d with
    | some _ => .error .client
    | none =>
      .ok { s with objs := Function.update (Function.update s.objs i (some (movedFrom b o))) d (some o) }
  | .moveAssign d i => do
    let o ← s.get i
    let old ← s.get d
    if d = i then .ok s else do
      let s' ← overwritten b s old
      .ok { s' with
        objs := Function.update (Function.update s.objs i (some (movedFrom b o))) d (some o) }
  | .destroy i => do
    let o ← s.get i
    let s' ← s.release o.owns
    .ok { s' with objs := Function.update s.objs i none }
  | .call i => do
    let o ← s.get i
    match o.raw with
    | none => .error .nullHandle
    | some h => if h ∈ s.freed then .error .useAfterFree else .ok s

/-- A sequence of operations. `src/neo/fft/backend/vdsp.hpp:31-60`. -/
def handleRun (b : Backend) : HandleState → List HandleOp → Except HandleFault HandleState
  | s, [] => .ok s
  | s, op :: ops => do
    let s ← handleStep b s op
    handleRun b s ops

end Neo
