import Verif.Core
import Mathlib.Algebra.BigOperators.Group.Finset.Basic

/-! # Specification: overlapping frames of a stream -/

namespace Neo.Spec
variable {σ M : Type}

/-- State of a frame processor before frame `j` of the stream `x`: frames have `F` samples, start every
`H` samples and are scaled by `w` before they are processed. -/
def frameState (step : σ → List M → σ × List M) (s₀ : σ) (w : M → M) (F H : ℕ) (x : ℕ → M) : ℕ → σ
  | 0 => s₀
  | j + 1 => (step (frameState step s₀ w F H x j) (vec F (fun i => w (x (j * H + i))))).1

/-- Frame `j` after processing. -/
def frameOut (step : σ → List M → σ × List M) (s₀ : σ) (w : M → M) (F H : ℕ) (x : ℕ → M) (j : ℕ) :
    List M :=
  (step (frameState step s₀ w F H x j) (vec F (fun i => w (x (j * H + i))))).2

/-- The sum at time `t` of all processed frames, frame `j` laid down from time `j * H` on. -/
def overlapAdded [AddCommMonoid M] (F H : ℕ) (frames : ℕ → List M) (t : ℕ) : M :=
  ∑ j ∈ Finset.range (t + 1),
    if j * H ≤ t ∧ t < j * H + F then (frames j).getD (t - j * H) 0 else 0

end Neo.Spec
