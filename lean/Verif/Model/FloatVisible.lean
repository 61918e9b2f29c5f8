import Verif.Model.FloatDescribe

/-!
# The longitudinal field in double precision (longitudinal_field.py:11-48, geometry.py:40-52, 58-89, 101-111)

`Model.Longitudinal` is exact. Here the centres and normals of the facets, the visible fractions and the averages are computed on the binary64
numbers of `Py.Arith`. As in `Model.FloatDescribe` the grid is given by its polar and azimuthal corners, arrays are flat lists in C order
(azimuth first), and the order in which `np.sum` adds (`S`) is a parameter, as are `np.sin`, `np.cos` and the power `** .5` of a numpy float64
scalar. The cartesian field at the centres of the facets (`get_cartesian_field`) is an argument.
-/

namespace Verif
namespace FloatVisible
open PyFloat FloatDescribe

/-- A triple along the last axis of an array (geometry.py:56, longitudinal_field.py:39-40). -/
abbrev FVec := PyFloat × PyFloat × PyFloat

/-- The polar angle of the centre between two polar corners; the other two corners of the facet repeat them (geometry.py:45-46, 48). -/
def centrePolar (p : PyFloat × PyFloat) : PyFloat := mul (fin false (1 / 4)) (add (add (add p.1 p.2) p.1) p.2)

/-- The azimuth of the centre between two azimuthal corners (geometry.py:45-46, 49). -/
def centreAzimuth (a : PyFloat × PyFloat) : PyFloat := mul (fin false (1 / 4)) (add (add (add a.1 a.1) a.2) a.2)

/-- The facets: pairs of neighbouring azimuths and of neighbouring polar angles, in the order of the areas (geometry.py:45-46, 63-66). -/
def facets (P A : List PyFloat) : List ((PyFloat × PyFloat) × (PyFloat × PyFloat)) :=
  (pairs A).flatMap fun a => (pairs P).map fun p => (a, p)

/-- The area of a facet (geometry.py:63-66). -/
def area (L : DescLib) (f : (PyFloat × PyFloat) × (PyFloat × PyFloat)) : PyFloat :=
  mul (sub (L.cos f.2.1) (L.cos f.2.2)) (sub f.1.2 f.1.1)

/-- The radius (an entry of `np.ones`), polar angle and azimuth of the centre of a facet (geometry.py:103-108). -/
def centre (f : (PyFloat × PyFloat) × (PyFloat × PyFloat)) : FVec := (fin false 1, centrePolar f.2, centreAzimuth f.1)

/-- `unit_normals` (geometry.py:54-56, 101-111). -/
def normals (T : SineLib) (P A : List PyFloat) : Res (List FVec) := FloatCoords.toRect T ((facets P A).map centre)

/-- `np.sum(v * w, axis=-1)` for one entry (longitudinal_field.py:42, geometry.py:86). -/
def dot (S : List PyFloat → PyFloat) (v w : FVec) : PyFloat := S [mul v.1 w.1, mul v.2.1 w.2.1, mul v.2.2 w.2.2]

/-- `proj_dir_length` (geometry.py:83). -/
def dirLength (L : DescLib) (S : List PyFloat → PyFloat) (d : FVec) : PyFloat := L.root (dot S d d)

/-- `projection_direction / proj_dir_length` (geometry.py:86). -/
def unitDir (L : DescLib) (S : List PyFloat → PyFloat) (d : FVec) : FVec :=
  (div d.1 (dirLength L S d), div d.2.1 (dirLength L S d), div d.2.2 (dirLength L S d))

/-- An entry of `projected_visible_area_fraction` (geometry.py:76-89). -/
def fraction (L : DescLib) (S : List PyFloat → PyFloat) (d n : FVec) : PyFloat :=
  if FloatPfss.lt (fin false 0) (dot S (unitDir L S d) n) then dot S (unitDir L S d) n else fin false 0

/-- An entry of `visible_areas` (longitudinal_field.py:44). -/
def visibleArea (L : DescLib) (S : List PyFloat → PyFloat) (d : FVec) (x : PyFloat × FVec × FVec) : PyFloat :=
  mul x.1 (fraction L S d x.2.1)

/-- An entry of the curve, for the areas, normals and field vectors of the facets (longitudinal_field.py:42-46). -/
def longitudinal (L : DescLib) (S : List PyFloat → PyFloat) (d : FVec) (xs : List (PyFloat × FVec × FVec)) : PyFloat :=
  div (S (xs.map fun x => mul (dot S x.2.2 d) (visibleArea L S d x))) (S (xs.map (visibleArea L S d)))

/-- `get_longitudinal_field_curve` for a polar angle and an array of azimuths of the observer (longitudinal_field.py:11-48). -/
def curve (T : SineLib) (L : DescLib) (S : List PyFloat → PyFloat) (P A : List PyFloat) (field : List FVec) (θ : PyFloat)
    (azimuths : List PyFloat) : Res (List PyFloat) :=
  azimuths.mapM fun φ => do
    let ds ← FloatCoords.toRect T [(ofInt 1, θ, φ)]
    let ns ← normals T P A
    pure (longitudinal L S (ds.headD (nan, nan, nan)) ((areas L P A).zip (ns.zip field)))

end FloatVisible
end Verif
