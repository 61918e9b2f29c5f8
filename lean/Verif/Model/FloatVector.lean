import Mathlib.Data.Fin.VecNotation
import Verif.Model.FloatVisible

/-!
# Vectors in spherical and rectangular components in double precision (coordinate_transforms.py:49-116, zdi_magnetogram.py:546-555, 596-610)

`Model.Coordinates` and `Model.ZdiArrays` are exact. Here the transformation matrices and their products with the field are computed on the binary64
numbers of `Py.Arith`. Arrays are flat lists (`flatten`, zdi_magnetogram.py:602-604), so equality of shapes is equality of lengths. How the matrix
product `@` computes one entry (order of the sum, fused operations or not) is a parameter `E`, given a row of the matrix and the vector.
-/

namespace Verif
namespace FloatVector
open PyFloat FloatVisible

/-- `spherical_to_rectangular_transformation_matrix` at one point (coordinate_transforms.py:49-83): row, column. -/
def toRectMat (T : SineLib) (θ φ : PyFloat) : Fin 3 → Fin 3 → PyFloat :=
  ![![mul (T.sin θ) (T.cos φ), mul (T.cos θ) (T.cos φ), neg (T.sin φ)],
    ![mul (T.sin θ) (T.sin φ), mul (T.cos θ) (T.sin φ), T.cos φ],
    ![T.cos θ, neg (T.sin θ), fin false 0]]

/-- `rectangular_to_spherical_transformation_matrix` at one point (coordinate_transforms.py:86-116): row, column. -/
def toSphMat (T : SineLib) (θ φ : PyFloat) : Fin 3 → Fin 3 → PyFloat :=
  ![![mul (T.sin θ) (T.cos φ), mul (T.sin θ) (T.sin φ), T.cos θ],
    ![mul (T.cos θ) (T.cos φ), mul (T.cos θ) (T.sin φ), neg (T.sin θ)],
    ![neg (T.sin φ), T.cos φ, fin false 0]]

/-- A row of a matrix, as a triple (coordinate_transforms.py:71-81). -/
def row (m : Fin 3 → Fin 3 → PyFloat) (i : Fin 3) : FVec := (m i 0, m i 1, m i 2)

/-- `transformation_matrix @ v` at one point (zdi_magnetogram.py:605). -/
def act (E : FVec → FVec → PyFloat) (m : Fin 3 → Fin 3 → PyFloat) (v : FVec) : FVec := (E (row m 0) v, E (row m 1) v, E (row m 2) v)

/-- The azimuths stretched to the number of polar angles, by numpy's broadcasting of the products and of the assigned columns
(coordinate_transforms.py:71-81): only a single azimuth can be stretched. -/
def stretch (n : ℕ) (pa : List PyFloat) : Res (List PyFloat) :=
  if pa.length = n then pure pa
  else match pa with
    | [φ] => pure (List.replicate n φ)
    | _ => .error .value

/-- `_cartesian_from_spherical_helper` (zdi_magnetogram.py:596-610). -/
def helper (E : FVec → FVec → PyFloat) (T : SineLib) (fr fp fa pp pa : List PyFloat) : Res (List FVec) := do
  resAssert (fr.length = pp.length)
  resAssert (fp.length = pp.length)
  resAssert (fa.length = pp.length)
  let pa ← stretch pp.length pa
  pure (((pp.zip pa).zip (fr.zip (fp.zip fa))).map fun q => act E (toRectMat T q.1.1 q.1.2) q.2)

end FloatVector
end Verif
