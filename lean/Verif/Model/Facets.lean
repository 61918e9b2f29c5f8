import Verif.Model.Geometry

/-!
# Model of `corners_cartesian` (geometry.py:91-99)
-/

namespace Verif
namespace Geometry

/-- `corners_cartesian` (geometry.py:91-99): the three arrays it returns as one array of triples. -/
noncomputable def Geom.cornersCartesian (g : Geom) : Arr2 (ℝ × ℝ × ℝ) :=
  map2 (fun θ φ => rectFromSpherical 1 θ φ) g.polar g.azim

end Geometry
end Verif
