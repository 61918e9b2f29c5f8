import Mathlib.Data.Real.Basic
import Mathlib.Analysis.InnerProductSpace.PiL2
import Mathlib.Geometry.Euclidean.Angle.Unoriented.Basic

/-!
# Specification vocabulary for grids on the sphere
-/

namespace Verif
namespace Spec

/-- Entry `[j, i]` of a two-dimensional array. -/
def at2 {α : Type} (x : List (List α)) (j i : ℕ) : Option α := x[j]?.bind (·[i]?)

/-- The array has `n` rows of `k` entries. -/
def HasShape {α : Type} (x : List (List α)) (n k : ℕ) : Prop := x.length = n ∧ ∀ r ∈ x, r.length = k

/-- Strictly increasing. -/
def Increasing (xs : List ℝ) : Prop := xs.Pairwise (· < ·)

/-- The sum of all entries. -/
def total (x : List (List ℝ)) : ℝ := (x.map List.sum).sum

/-- A triple as a point of euclidean space. -/
noncomputable def vec (v : ℝ × ℝ × ℝ) : EuclideanSpace ℝ (Fin 3) := !₂[v.1, v.2.1, v.2.2]

end Spec
end Verif
