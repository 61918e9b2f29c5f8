import Verif.Model.FloatAxis

/-!
# Spherical coordinates of points in double precision

`Model.Coordinates` is exact. Here `spherical_coordinates_from_rectangular` is followed on the binary64 numbers of
`Py.Arith`, with numpy's square root, arc cosine and `arctan2` as parameters. The points are the entries of three
arrays of equal shape, written as a list; the asserts look at all of them.
-/

namespace Verif

/-- The numpy functions used, on floats; `x**(1/2)` of an array is `np.sqrt` (coordinate_transforms.py:20-22). -/
structure AngleLib where
  /-- `x**(1/2)` -/
  root : PyFloat → PyFloat
  /-- `np.arccos` -/
  acos : PyFloat → PyFloat
  /-- `np.arctan2` -/
  atan2 : PyFloat → PyFloat → PyFloat

/-- `np.sin` and `np.cos` on floats (coordinate_transforms.py:38-40). -/
structure SineLib where
  /-- `np.sin` -/
  sin : PyFloat → PyFloat
  /-- `np.cos` -/
  cos : PyFloat → PyFloat

namespace FloatCoords
open PyFloat

/-- `np.isnan` (coordinate_transforms.py:24-25). -/
def isNan : PyFloat → Bool
  | nan => true
  | _ => false

/-- `(px**2 + py**2 + pz**2)**(1/2)` (coordinate_transforms.py:20). -/
def radius (A : AngleLib) (x y z : PyFloat) : PyFloat := A.root (add (add (mul x x) (mul y y)) (mul z z))

/-- `np.divide(pz, pr, out=np.zeros_like(pr), where=pr != 0)` (coordinate_transforms.py:21). -/
def cosine (z r : PyFloat) : PyFloat := if neZero r then div z r else fin false 0

/-- Radius, polar angle and azimuth of one point, before the asserts (coordinate_transforms.py:20-22). -/
def raw (A : AngleLib) (p : PyFloat × PyFloat × PyFloat) : PyFloat × PyFloat × PyFloat :=
  (radius A p.1 p.2.1 p.2.2, A.acos (cosine p.2.2 (radius A p.1 p.2.1 p.2.2)), A.atan2 p.2.1 p.1)

/-- `spherical_coordinates_from_rectangular` (coordinate_transforms.py:6-27). -/
def fromRect (A : AngleLib) (ps : List (PyFloat × PyFloat × PyFloat)) : Res (List (PyFloat × PyFloat × PyFloat)) := do
  resAssert (∀ p ∈ ps, isNan (raw A p).2.1 = false)
  resAssert (∀ p ∈ ps, isNan (raw A p).2.2 = false)
  pure (ps.map (raw A))

/-- The three products for one point (coordinate_transforms.py:38-40). -/
def rawRect (T : SineLib) (o : PyFloat × PyFloat × PyFloat) : PyFloat × PyFloat × PyFloat :=
  (mul (mul o.1 (T.sin o.2.1)) (T.cos o.2.2), mul (mul o.1 (T.sin o.2.1)) (T.sin o.2.2), mul o.1 (T.cos o.2.1))

/-- `rectangular_coordinates_from_spherical` (coordinate_transforms.py:30-46). -/
def toRect (T : SineLib) (os : List (PyFloat × PyFloat × PyFloat)) : Res (List (PyFloat × PyFloat × PyFloat)) := do
  resAssert (∀ o ∈ os, isNan (rawRect T o).1 = false)
  resAssert (∀ o ∈ os, isNan (rawRect T o).2.1 = false)
  resAssert (∀ o ∈ os, isNan (rawRect T o).2.2 = false)
  pure (os.map (rawRect T))

end FloatCoords
end Verif
