import Verif.Model.Elements

/-!
# Model of rotate.py

`spherical_functions.Wigner_D_element(rotation, l, m_in, m_out)` is a parameter `D l m_in m_out` with complex values (the
library's own limit on the degree is not modelled). Its documented formula and `rotate_magnetogram_euler_zyz_deg`
(rotate.py:38-46) are in Verif.Model.Wigner.
-/

namespace Verif
namespace Rotate

/-- The inner loop (rotate.py:27-31): `coeff_out` starts as a copy of the default and is added to in place. All arrays
have the shape of the default. -/
noncomputable def coefOut (D : ℤ → ℤ → ℤ → ℂ) (s : Coefs ℂ) (l mOut : ℤ) : List ℂ :=
  (pyRange (-l) (l + 1)).foldl
    (fun acc mIn => List.zipWith (· + ·) acc ((s.getI (l, mIn)).map (D l mIn mOut * ·))) s.dflt

/-- The pairs visited by the two outer loops (rotate.py:22-25). -/
def loopKeys (L : ℤ) : List Key :=
  (pyRange 0 (L + 1)).flatMap fun l => (pyRange (-l) (l + 1)).map fun m => (l, m)

/-- `rotate_magnetogram` (rotate.py:12-35). Adding a complex array in place to an array of another dtype raises a
TypeError (line 31); the loops run at least once. -/
noncomputable def rotate (D : ℤ → ℤ → ℤ → ℂ) (s : Coefs ℂ) : Res (Coefs ℂ) :=
  if s.dtype = .cplx then
    Coefs.appendAll s.emptyLike ((loopKeys s.degreeMax).map fun k => Coefs.intRow k (coefOut D s k.1 k.2))
  else .error .type

end Rotate
end Verif
