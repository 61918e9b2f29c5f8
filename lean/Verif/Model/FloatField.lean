import Verif.Model.FloatAxis

/-!
# The field of a ZDI magnetogram at one point in double precision

The six sums of `ZdiMagnetogram` on binary64 numbers. What scipy and numpy return for the Legendre function, its
derivative and the complex exponential is given with each row; the normalisation and all products, quotients and sums
are computed as the code does. `np.sum` over the rows may add in any order (`RowTree`).
-/

namespace Verif
namespace FloatField
open PyFloat

/-- One row of a magnetogram at a point: degree, order, `alpha`, `beta`, `gamma`, the values of `lpmv`, of the derivative
from `lpmn`, and of `np.exp(1.0j * m * φ)` (zdi_magnetogram.py:52-64, 91-97, 182-185). -/
structure ZFloat where
  l : ℤ
  m : ℤ
  a : PyFloat × PyFloat
  b : PyFloat × PyFloat
  g : PyFloat × PyFloat
  p : PyFloat
  d : PyFloat
  e : PyFloat × PyFloat

/-- `get_radial_poloidal_field` (zdi_magnetogram.py:82-99), on floats. -/
def radialPoloidal (N : NumLib) (rows : List ZFloat) : PyFloat :=
  FloatRange.radial N (rows.map fun r => ⟨r.l, r.m, r.a, r.p, r.e⟩)

/-- `get_radial_field` (zdi_magnetogram.py:101-123), on floats: the toroidal part is a zero. -/
def radial (N : NumLib) (rows : List ZFloat) : PyFloat := add (radialPoloidal N rows) (fin false 0)

/-- `get_azimuthal_poloidal_field` (zdi_magnetogram.py:125-149), on floats. -/
def azimuthalPoloidal (N : NumLib) (sinθ : PyFloat) (rows : List ZFloat) : PyFloat :=
  FloatAxis.azimuthalPoloidal sinθ (rows.map fun r => ⟨r.l, r.m, r.b, FloatRange.cLm N r.l r.m, r.p, r.e⟩)

/-- `get_polar_toroidal_field` (zdi_magnetogram.py:248-267), on floats. -/
def polarToroidal (N : NumLib) (sinθ : PyFloat) (rows : List ZFloat) : PyFloat :=
  FloatAxis.polarToroidal sinθ (rows.map fun r => ⟨r.l, r.m, r.g, FloatRange.cLm N r.l r.m, r.p, r.e⟩)

/-- One term of the sums over the derivatives (zdi_magnetogram.py:184-186, 237-239 and associated_legendre.py:25), for the
coefficient `k`. -/
def slopeTerm (N : NumLib) (sinθ : PyFloat) (k : PyFloat × PyFloat) (r : ZFloat) : PyFloat × PyFloat :=
  cmul (cmul (cdivReal (cmul k (FloatRange.cLm N r.l r.m, fin false 0)) (ofInt (r.l + 1))) r.e)
    (neg (mul r.d (neg sinθ)), fin false 0)

/-- The order in which `np.sum` adds up the rows (zdi_magnetogram.py:188, 241). -/
inductive RowTree
  | leaf (r : ZFloat)
  | node (x y : RowTree)

/-- The rows of a sum (zdi_magnetogram.py:188, 241). -/
def RowTree.rows : RowTree → List ZFloat
  | leaf r => [r]
  | node x y => x.rows ++ y.rows

/-- The sum of the terms in the given order (zdi_magnetogram.py:188, 241). -/
def RowTree.sum (f : ZFloat → PyFloat × PyFloat) : RowTree → PyFloat × PyFloat
  | leaf r => f r
  | node x y => cadd (x.sum f) (y.sum f)

/-- `get_polar_poloidal_field_new` (zdi_magnetogram.py:227-243), on floats. -/
def polarPoloidal (N : NumLib) (sinθ : PyFloat) (t : RowTree) : PyFloat := (t.sum fun r => slopeTerm N sinθ r.b r).1

/-- `get_azimuthal_toroidal_field_new` (zdi_magnetogram.py:175-190), on floats. -/
def azimuthalToroidal (N : NumLib) (sinθ : PyFloat) (t : RowTree) : PyFloat := (t.sum fun r => slopeTerm N sinθ r.g r).1

/-- `get_polar_field` (zdi_magnetogram.py:269-279), on floats. -/
def polar (N : NumLib) (sinθ : PyFloat) (t : RowTree) : PyFloat :=
  add (polarPoloidal N sinθ t) (polarToroidal N sinθ t.rows)

/-- `get_azimuthal_field` (zdi_magnetogram.py:192-202), on floats. -/
def azimuthal (N : NumLib) (sinθ : PyFloat) (t : RowTree) : PyFloat :=
  add (azimuthalPoloidal N sinθ t.rows) (azimuthalToroidal N sinθ t)

/-- The cartesian field (zdi_magnetogram.py:546-555, 597-610 and coordinate_transforms.py:49-83), on floats. -/
def cartesian (N : NumLib) (sinθ cosθ sinφ cosφ : PyFloat) (t : RowTree) : PyFloat × PyFloat × PyFloat :=
  FloatAxis.cartesian sinθ cosθ sinφ cosφ (radial N t.rows, polar N sinθ t, azimuthal N sinθ t)

end FloatField
end Verif
