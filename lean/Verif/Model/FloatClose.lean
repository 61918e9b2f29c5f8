import Verif.Model.FloatAxis
import Verif.Model.FloatCoords
import Verif.Model.ReaderWriter

/-!
# Comparing coefficient sets in double precision

`isclose` and `allclose` of coefficients.py with numpy's `isclose` on complex128 numbers written out: the difference, the absolute
values, the tolerance and the comparison are all rounded, and infinities and nans are compared as numpy does. `Model.Coefficients`
has the same functions with the element comparison left open.
-/

namespace Verif

/-- Numpy's absolute value of a complex number, C's `hypot`, from real and imaginary part (coefficients.py:235). -/
structure AbsLib where
  hypot : PyFloat → PyFloat → PyFloat

namespace FloatClose
open PyFloat

/-- The keyword arguments of `np.isclose` that `allclose` and `isclose` hand on (coefficients.py:208-228). -/
structure Tol where
  rtol : PyFloat
  atol : PyFloat
  equalNan : Bool

/-- The defaults: `rtol=1e-05, atol=1e-08, equal_nan=False` (coefficients.py:208-228). -/
def defaults : Tol := ⟨ofMag false (1 / 10 ^ 5), ofMag false (1 / 10 ^ 8), false⟩

/-- `x <= y` (coefficients.py:235). -/
def le : PyFloat → PyFloat → Bool
  | fin s a, fin t b => decide ((fin s a).num ≤ (fin t b).num)
  | fin _ _, inf t => !t
  | inf s, fin _ _ => s
  | inf s, inf t => s || !t
  | _, _ => false

/-- `x == y` (coefficients.py:235). -/
def eq : PyFloat → PyFloat → Bool
  | fin s a, fin t b => decide ((fin s a).num = (fin t b).num)
  | inf s, inf t => s == t
  | _, _ => false

/-- `x - y` of complex numbers (coefficients.py:235). -/
def csub (x y : PyComplex) : PyComplex := (sub x.1 y.1, sub x.2 y.2)

/-- `abs(x)` of a complex number (coefficients.py:235). -/
def cabs (L : AbsLib) (x : PyComplex) : PyFloat := L.hypot x.1 x.2

/-- `np.isnan(x)` of a complex number (coefficients.py:235). -/
def cnan (x : PyComplex) : Bool := FloatCoords.isNan x.1 || FloatCoords.isNan x.2

/-- `np.isclose(x, y, **kwargs)` on one pair of complex numbers (coefficients.py:235), as in numpy 2:
`less_equal(abs(x - y), atol + rtol * abs(y)) & isfinite(y) | (x == y)`, and `| isnan(x) & isnan(y)` with `equal_nan`.
(Numpy 1 gives the same unless a tolerance is negative or infinite or `abs(y)` overflows, when it compares only finite `x`.) -/
def close (L : AbsLib) (T : Tol) (x y : PyComplex) : Bool :=
  (le (cabs L (csub x y)) (add T.atol (mul T.rtol (cabs L y))) && (isFin y.1 && isFin y.2) || eq x.1 y.1 && eq x.2 y.2) ||
    T.equalNan && (cnan x && cnan y)

/-- `allclose(shc0, shc1, **kwargs)` (coefficients.py:208-226). -/
def allclose (L : AbsLib) (T : Tol) (ks : List Key) (junk : List Bool) (a b : Coefs PyComplex) : Res Bool :=
  Coefs.allclose (close L T) ks junk a b

end FloatClose
end Verif
