import Verif.Model.Rotate
import Verif.Model.FloatSets
import Verif.Py.Arith

/-!
# rotate_magnetogram in double precision (rotate.py:12-35)

`Model.Rotate` uses exact numbers. Here the coefficients and the values of `spherical_functions.Wigner_D_element` are complex128 numbers, and products
and sums are rounded.
-/

namespace Verif
namespace FloatRotate
open PyFloat

/-- The inner loop (rotate.py:27-31) on complex128 arrays. -/
def coefOut (D : ℤ → ℤ → ℤ → PyComplex) (s : Coefs PyComplex) (l mOut : ℤ) : List PyComplex :=
  (pyRange (-l) (l + 1)).foldl (fun acc mIn => List.zipWith cadd acc ((s.getI (l, mIn)).map (cmul (D l mIn mOut)))) s.dflt

/-- `rotate_magnetogram` (rotate.py:12-35) on complex128 numbers; the dtype check is that of `Rotate.rotate`. -/
def rotate (D : ℤ → ℤ → ℤ → PyComplex) (s : Coefs PyComplex) : Res (Coefs PyComplex) :=
  if s.dtype = .cplx then
    Coefs.appendAll s.emptyLike ((Rotate.loopKeys s.degreeMax).map fun k => Coefs.intRow k (coefOut D s k.1 k.2))
  else .error .type

end FloatRotate
end Verif
