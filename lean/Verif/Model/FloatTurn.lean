import Verif.Model.FloatVisible

/-!
# The default azimuths of the longitudinal field curve in double precision (longitudinal_field.py:21-24)
-/

namespace Verif
namespace FloatVisible
open PyFloat FloatDescribe

/-- `np.deg2rad` of a float: the product with the constant π/180 (longitudinal_field.py:22). -/
def deg2rad (x : PyFloat) : PyFloat := mul x (div FloatDescribe.pi (ofInt 180))

/-- `np.deg2rad(np.linspace(0, 360, zdi_geometry.shape[0]))`: the first axis of the grid of corners is the azimuth (longitudinal_field.py:21-22,
geometry.py:28-32). -/
def defaultAzimuths (A : List PyFloat) : Res (List PyFloat) := do
  let xs ← linspace (ofInt 360) A.length
  pure (xs.map deg2rad)

/-- `get_longitudinal_field_curve` without azimuths (longitudinal_field.py:11-48). -/
def defaultCurve (T : SineLib) (L : DescLib) (S : List PyFloat → PyFloat) (P A : List PyFloat) (field : List FVec) (θ : PyFloat) : Res (List PyFloat) := do
  let az ← defaultAzimuths A
  curve T L S P A field θ az

end FloatVisible
end Verif
