import Verif.Model.Mat
import Mathlib.Analysis.Real.Sqrt
import Mathlib.Algebra.BigOperators.Group.List.Basic

/-!
# Specification: population statistics

Stated on lists with `List.sum`, independently of the loops of the model.
-/

namespace Neo.Spec

noncomputable section

/-- Arithmetic mean. -/
def mean (x : List ℝ) : ℝ := x.sum / x.length

/-- Population variance: the mean squared deviation from the mean. -/
def variance (x : List ℝ) : ℝ := mean (x.map (fun v => (v - mean x) ^ 2))

/-- Energy: the sum of squares. -/
def energy (x : List ℝ) : ℝ := (x.map (fun v => v ^ 2)).sum

end

/-- The elements of a matrix view in row-major order. -/
def entries {α : Type} (v : MatView) (data : List α) : List α :=
  (List.range v.rows).flatMap (fun r => (List.range v.cols).filterMap (fun c => data[v.idx r c]?))

/-- Row `r` of a matrix view. -/
def row {α : Type} (v : MatView) (data : List α) (r : ℕ) : List α :=
  (List.range v.cols).filterMap (fun c => data[v.idx r c]?)

end Neo.Spec
