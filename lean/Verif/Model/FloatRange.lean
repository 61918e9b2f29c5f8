import Verif.Py.Basic
import Verif.Py.Arith

/-!
# The normalisation of the harmonics in double precision

`Model.Zdi` and `Model.Pfss` use exact numbers. This file models the factors in front of the Legendre functions, and the
sums they enter, on the binary64 numbers of `Py.Arith`, because the factorials overflow. What numpy and scipy return
for the square root, the factorial, the exponential and the Legendre functions are parameters. Complex coefficients
are pairs of floats; a real factor of a complex number is first given the imaginary part zero, as numpy does.
-/

namespace Verif
namespace PyFloat

/-- `x / y` of numpy floats (zdi_magnetogram.py:619-624, 631). -/
def div : PyFloat → PyFloat → PyFloat
  | nan, _ => nan
  | _, nan => nan
  | inf _, inf _ => nan
  | inf s, fin t _ => inf (s != t)
  | fin s _, inf t => fin (s != t) 0
  | fin s a, fin t b => if b = 0 then (if a = 0 then nan else inf (s != t)) else ofMag (s != t) (a / b)

/-- The float nearest to an integer (zdi_magnetogram.py:619-624, 631). -/
def ofInt (n : ℤ) : PyFloat := ofMag (decide (n < 0)) |(n : ℚ)|

/-- Sum of complex numbers (zdi_magnetogram.py:93, 259). -/
def cadd (z w : PyFloat × PyFloat) : PyFloat × PyFloat := (add z.1 w.1, add z.2 w.2)

/-- `np.isfinite` (zdi_magnetogram.py:633, pfss_magnetogram.py:92). -/
def isFin : PyFloat → Bool
  | fin _ _ => true
  | _ => false

/-- `np.isclose(x, y)` with the default tolerances, on exact sums; only finite numbers and equal infinities are close
(pfss_magnetogram.py:59-99). -/
def isClose : PyFloat → PyFloat → Bool
  | fin s a, fin t b => decide (|(fin s a).num - (fin t b).num| ≤ 1e-8 + 1e-5 * |(fin t b).num|)
  | inf s, inf t => s == t
  | _, _ => false

end PyFloat

/-- The numpy and scipy functions used, on floats (zdi_magnetogram.py:622-633). -/
structure NumLib where
  /-- `np.sqrt` -/
  sqrt : PyFloat → PyFloat
  /-- `sp.special.factorial` -/
  fact : ℤ → PyFloat
  /-- `np.exp` -/
  exp : PyFloat → PyFloat
  /-- `np.sum(np.log(·))` of a list of integers -/
  sumLog : List ℤ → PyFloat

namespace FloatRange
open PyFloat

/-- `4 * np.pi` (zdi_magnetogram.py:619-624, 631). -/
def fourPi : PyFloat := fin false (884279719003555 / 2 ^ 46)

/-- `get_c_lm` with `method='low_order'` (zdi_magnetogram.py:613-624, 633), on floats. -/
def cLm (N : NumLib) (l m : ℤ) : PyFloat :=
  N.sqrt (div (mul (div (ofInt (2 * l + 1)) fourPi) (N.fact (l - m))) (N.fact (l + m)))

/-- `get_c_lm` with any other method (zdi_magnetogram.py:625-633), on floats. -/
def cLmOther (N : NumLib) (l m : ℤ) : PyFloat :=
  N.sqrt (mul (div (ofInt (2 * l + 1)) fourPi)
    (N.exp (neg (N.sumLog (pyRange (l - m + 1) (l + m + 1))))))

/-- One row of a magnetogram at one point: degree, order, `alpha`, and the values there of `lpmv` and of
`np.exp(1.0j * m * φ)` (zdi_magnetogram.py:91-97). -/
structure FRow where
  l : ℤ
  m : ℤ
  a : PyFloat × PyFloat
  p : PyFloat
  e : PyFloat × PyFloat

/-- The summand of `get_radial_poloidal_field` (zdi_magnetogram.py:93-97), on floats. -/
def term (N : NumLib) (r : FRow) : PyFloat × PyFloat :=
  cmul (cmul (cmul r.a (cLm N r.l r.m, fin false 0)) (r.p, fin false 0)) r.e

/-- `get_radial_poloidal_field` (zdi_magnetogram.py:82-99) at one point, on floats. -/
def radial (N : NumLib) (rows : List FRow) : PyFloat :=
  (rows.foldl (fun acc r => cadd acc (term N r)) (fin false 0, fin false 0)).1

/-- `W` of one coefficient in `get_zdi_coeffs` (converter.py:189-194): `W = ((2 - [m = 0]) c_lm)**-1`. -/
def weightW (N : NumLib) (l m : ℤ) : PyFloat :=
  div (fin false 1) (mul (fin false (if m = 0 then 1 else 2)) (cLm N l m))

/-- The order in which `np.sum` adds up its terms (it is pairwise and depends on the shape) (zdi_magnetogram.py:629). -/
inductive SumTree
  | leaf (t : PyFloat)
  | node (a b : SumTree)

/-- The terms of a sum (zdi_magnetogram.py:629). -/
def SumTree.terms : SumTree → List PyFloat
  | leaf t => [t]
  | node a b => a.terms ++ b.terms

/-- The sum of the terms after `f` in the given order (zdi_magnetogram.py:629). -/
def SumTree.sum (f : PyFloat → PyFloat) : SumTree → PyFloat
  | leaf t => f t
  | node a b => add (a.sum f) (b.sum f)

/-- `alpha_re` or `-alpha_im` of `get_zdi_coeffs` for one coefficient (converter.py:221-222), on floats: the terms of `ts` are
the products of field, cosine or sine, Legendre function and sine of the polar angle. -/
def alphaPart (N : NumLib) (l m : ℤ) (ts : SumTree) : PyFloat := ts.sum fun t => div t (weightW N l m)

/-- The scaling `clm` in `theta_lm` and `calculate_all_theta` (pfss_magnetogram.py:26-28, 68-70), on floats. -/
def thetaScale (N : NumLib) (l m : ℤ) : PyFloat :=
  mul (mul (fin (decide (m % 2 = 1)) 1) (N.sqrt (div (N.fact (l - m)) (N.fact (l + m)))))
    (N.sqrt (fin false (if m = 0 then 1 else 2)))

/-- The values returned by `calculate_all_theta` at one point (pfss_magnetogram.py:59-99), on floats: `rows` holds degree,
order, the value of `lpmn` and that of `lpmv`; the assert is on line 92. -/
def allTheta (N : NumLib) (rows : List (ℤ × ℤ × PyFloat × PyFloat)) : Res (List PyFloat) := do
  resAssert (∀ r ∈ rows, isClose (mul r.2.2.1 (thetaScale N r.1 r.2.1)) (mul (thetaScale N r.1 r.2.1) r.2.2.2) = true)
  pure (rows.map fun r => mul r.2.2.1 (thetaScale N r.1 r.2.1))

end FloatRange
end Verif
