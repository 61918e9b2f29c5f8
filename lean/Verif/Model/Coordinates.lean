import Mathlib.Analysis.SpecialFunctions.Complex.Arg
import Mathlib.Analysis.SpecialFunctions.Trigonometric.Inverse
import Mathlib.LinearAlgebra.Matrix.Determinant.Basic
import Mathlib.Data.Matrix.Mul

/-!
# Model of coordinate_transforms.py

Exact real arithmetic at one point; signed zeros (which `arctan2` distinguishes on the negative x axis) and the
NaN asserts (lines 24-25, 42-44) have no counterpart in exact arithmetic.
-/

namespace Verif

/-- `np.arctan2(y, x)` (coordinate_transforms.py:6-27). -/
noncomputable def arctan2 (y x : ℝ) : ℝ := Complex.arg ⟨x, y⟩

/-- `spherical_coordinates_from_rectangular` (coordinate_transforms.py:6-27): radius, polar angle, azimuth.
`np.divide(..., out=zeros, where=pr != 0)` yields 0 at the origin. -/
noncomputable def sphericalFromRect (x y z : ℝ) : ℝ × ℝ × ℝ :=
  let r := Real.sqrt (x ^ 2 + y ^ 2 + z ^ 2)
  (r, Real.arccos (open Classical in if r ≠ 0 then z / r else 0), arctan2 y x)

/-- `rectangular_coordinates_from_spherical` (coordinate_transforms.py:30-46). -/
noncomputable def rectFromSpherical (r θ φ : ℝ) : ℝ × ℝ × ℝ :=
  (r * Real.sin θ * Real.cos φ, r * Real.sin θ * Real.sin φ, r * Real.cos θ)

/-- `spherical_to_rectangular_transformation_matrix` (coordinate_transforms.py:49-83) at one point. -/
noncomputable def sphToRectMatrix (θ φ : ℝ) : Matrix (Fin 3) (Fin 3) ℝ :=
  !![Real.sin θ * Real.cos φ, Real.cos θ * Real.cos φ, -Real.sin φ;
     Real.sin θ * Real.sin φ, Real.cos θ * Real.sin φ, Real.cos φ;
     Real.cos θ, -Real.sin θ, 0]

/-- `rectangular_to_spherical_transformation_matrix` (coordinate_transforms.py:86-116) at one point. -/
noncomputable def rectToSphMatrix (θ φ : ℝ) : Matrix (Fin 3) (Fin 3) ℝ :=
  !![Real.sin θ * Real.cos φ, Real.sin θ * Real.sin φ, Real.cos θ;
     Real.cos θ * Real.cos φ, Real.cos θ * Real.sin φ, -Real.sin θ;
     -Real.sin φ, Real.cos φ, 0]

/-- `transformation_matrix @ field` for one point (zdi_magnetogram.py:596-610, pfss_magnetogram.py:285-300). -/
noncomputable def toCartesian (θ φ fr fp fa : ℝ) : Fin 3 → ℝ :=
  (sphToRectMatrix θ φ).mulVec ![fr, fp, fa]

end Verif
