import Verif.Model.FloatClose
import Verif.Model.FloatPfss

/-!
# The Parker solution in double precision

`Model.Parker` is exact. Here `find_parker_analytic` (with `all_sols=False`) and `speed` are followed on the binary64 numbers of
`Py.Arith`, for one radius. `scipy.special.lambertw` returns a complex number, so does `np.sqrt` of it, and `np.real_if_close` decides
whether the result is real. What `np.log`, `np.exp`, `np.sqrt` and `lambertw` return are parameters. The sonic radius and the sonic
speed are floats that the constructor has computed.
-/

namespace Verif

/-- The functions used, on floats and complex numbers (parker_solution.py:15, 24, 49). -/
structure WindLib where
  log : PyFloat → PyFloat
  exp : PyFloat → PyFloat
  /-- `scipy.special.lambertw(z, k)` of a real number -/
  lambertw : PyFloat → ℤ → PyComplex
  /-- `np.sqrt` of a complex number -/
  csqrt : PyComplex → PyComplex

namespace FloatParker
open PyFloat

/-- A result: a float or, if its imaginary part is not negligible, a complex number (parker_solution.py:50). -/
inductive Out
  | real (x : PyFloat)
  | cplx (z : PyComplex)

/-- `parker_rhs` (parker_solution.py:17-24). -/
def rhs (L : WindLib) (r : PyFloat) : PyFloat :=
  add (mul (ofInt 4) (L.log r)) (mul (ofInt 4) (sub (div (ofInt 1) r) (ofInt 1)))

/-- The argument of `lambertw` (parker_solution.py:49). -/
def argument (L : WindLib) (r : PyFloat) : PyFloat := neg (L.exp (sub (neg (rhs L r)) (ofInt 1)))

/-- `_branch` (parker_solution.py:42-46). -/
def branch (r : PyFloat) : ℤ := if FloatPfss.lt r (ofInt 1) then 0 else -1

/-- The negative of a complex number (parker_solution.py:49). -/
def cneg (z : PyComplex) : PyComplex := (neg z.1, neg z.2)

/-- `abs` of a float (parker_solution.py:50). -/
def fabs : PyFloat → PyFloat
  | fin _ a => fin false a
  | inf _ => inf false
  | nan => nan

/-- `np.real_if_close` of a complex number: the real part if the imaginary part is below 100 times the machine precision
(parker_solution.py:50). -/
def realIfClose (z : PyComplex) : Out :=
  if FloatPfss.lt (fabs z.2) (fin false (100 / 2 ^ 52)) then .real z.1 else .cplx z

/-- `find_parker_analytic` of one radius (parker_solution.py:26-50). -/
def find (L : WindLib) (r : PyFloat) : Out := realIfClose (L.csqrt (cneg (L.lambertw (argument L r) (branch r))))

/-- The product of a result and a float (parker_solution.py:106). -/
def Out.times (x : Out) (c : PyFloat) : Out :=
  match x with
  | .real x => .real (mul x c)
  | .cplx z => .cplx (cmul z (c, fin false 0))

/-- `speed` of one radius, with `stellar_radius`, `radius_sonic` and `speed_sonic` of the instance (parker_solution.py:96-107). -/
def speed (L : WindLib) (stellarRadius radiusSonic speedSonic r : PyFloat) : Out :=
  (find L (div (if FloatClose.le r stellarRadius then stellarRadius else r) radiusSonic)).times speedSonic

/-- `density` of one radius not below the surface, from its speed and `speed_surface` when these are real. Numpy's `** -1` is the
reciprocal; `** -2` is a parameter (parker_solution.py:119-123). -/
def density (inverseSquare : PyFloat → PyFloat) (baseDensity stellarRadius speedSurface speed r : PyFloat) : PyFloat :=
  mul (mul baseDensity (inverseSquare (div r stellarRadius))) (div (ofInt 1) (div speed speedSurface))

/-- `density_sonic`, when `speed_surface` is real (parker_solution.py:87-89). -/
def densitySonic (inverseSquare : PyFloat → PyFloat) (baseDensity stellarRadius radiusSonic speedSonic speedSurface : PyFloat) : PyFloat :=
  mul (mul baseDensity (inverseSquare (div radiusSonic stellarRadius))) (div (ofInt 1) (div speedSonic speedSurface))

/-- The constants of scipy.constants used, as floats (parker_solution.py:77-79). -/
structure Consts where
  G : PyFloat
  protonMass : PyFloat
  kB : PyFloat

/-- `radius_sonic` (parker_solution.py:82). -/
def radiusSonic (c : Consts) (temperature mass : PyFloat) : PyFloat :=
  div (mul (mul c.G mass) c.protonMass) (mul (mul (ofInt 4) temperature) c.kB)

/-- `speed_sonic`; `sqrt` is numpy's square root of a float (parker_solution.py:83). -/
def speedSonic (sqrt : PyFloat → PyFloat) (c : Consts) (temperature : PyFloat) : PyFloat :=
  sqrt (div (mul (mul (ofInt 2) c.kB) temperature) c.protonMass)

/-- `total_mass_flux`; `square` is python's `** 2` of a float (parker_solution.py:134). -/
def massFlux (square : PyFloat → PyFloat) (radiusSonic speedSonic densitySonic : PyFloat) : PyFloat :=
  mul (mul (mul (mul (ofInt 4) (fin false (884279719003555 / 2 ^ 48))) (square radiusSonic)) speedSonic) densitySonic

end FloatParker
end Verif
