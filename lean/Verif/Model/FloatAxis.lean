import Verif.Model.FloatRange

/-!
# The field components at one point in double precision, as needed on the axis

Statement by statement like `Model.Zdi` and `Model.Pfss`, but on the binary64 numbers of `Py.Arith`, so that infinities and
nans are seen. The values of the elementary functions, of `r_l`, `phi_lm`, the scaling factors and of scipy's Legendre
functions are given with each row.
-/

namespace Verif
namespace PyFloat

/-- `x - y` (zdi_magnetogram.py:141, pfss_magnetogram.py:219-221). -/
def sub (x y : PyFloat) : PyFloat := add x (neg y)

/-- `z / x` for a complex number and a real one: numpy makes `x` complex, with imaginary part zero, and uses Smith's
method; when both parts of the divisor are zero each part is divided by zero (zdi_magnetogram.py:145-147, 263-265). -/
def cdivReal (z : PyFloat × PyFloat) (x : PyFloat) : PyFloat × PyFloat :=
  match x with
  | fin s a =>
    if a = 0 then (div z.1 (fin false 0), div z.2 (fin false 0))
    else
      let rat := div (fin false 0) (fin s a)
      let scl := div (fin false 1) (add (fin s a) (mul (fin false 0) rat))
      (mul (add z.1 (mul z.2 rat)) scl, mul (sub z.2 (mul z.1 rat)) scl)
  | x =>
    let rat := div (fin false 0) x
    let scl := div (fin false 1) (add x (mul (fin false 0) rat))
    (mul (add z.1 (mul z.2 rat)) scl, mul (sub z.2 (mul z.1 rat)) scl)

/-- `x != 0` (pfss_magnetogram.py:223). -/
def neZero : PyFloat → Bool
  | fin _ a => decide (a ≠ 0)
  | _ => true

end PyFloat

namespace FloatAxis
open PyFloat

/-- One row of a ZDI magnetogram at a point: degree, order, coefficient (`beta` or `gamma`), `c_lm`, the value of `lpmv`,
and `np.exp(1.0j * m * φ)` (zdi_magnetogram.py:137-147, 255-265). -/
structure ZPoint where
  l : ℤ
  m : ℤ
  b : PyFloat × PyFloat
  c : PyFloat
  p : PyFloat
  e : PyFloat × PyFloat

/-- The summand of `get_azimuthal_poloidal_field` (zdi_magnetogram.py:141-147) and of `get_polar_toroidal_field`
(zdi_magnetogram.py:259-265). -/
def overSin (sinθ : PyFloat) (r : ZPoint) : PyFloat × PyFloat :=
  cdivReal (cdivReal (cmul (cmul (cmul (cmul (cmul r.b (r.c, fin false 0)) (r.p, fin false 0)) (fin false 0, fin false 1))
    (ofInt r.m, fin false 0)) r.e) (ofInt (r.l + 1))) sinθ

/-- `get_azimuthal_poloidal_field` (zdi_magnetogram.py:125-149) at one point, on floats. -/
def azimuthalPoloidal (sinθ : PyFloat) (rows : List ZPoint) : PyFloat :=
  (rows.foldl (fun acc r => (sub acc.1 (overSin sinθ r).1, sub acc.2 (overSin sinθ r).2)) (fin false 0, fin false 0)).1

/-- `get_polar_toroidal_field` (zdi_magnetogram.py:248-267) at one point, on floats. -/
def polarToroidal (sinθ : PyFloat) (rows : List ZPoint) : PyFloat :=
  (rows.foldl (fun acc r => cadd acc (overSin sinθ r)) (fin false 0, fin false 0)).1

/-- `get_azimuthal_field` (zdi_magnetogram.py:192-202), on floats, from its toroidal part. -/
def azimuthal (sinθ : PyFloat) (rows : List ZPoint) (toroidal : PyFloat) : PyFloat :=
  add (azimuthalPoloidal sinθ rows) toroidal

/-- `get_polar_field` (zdi_magnetogram.py:269-279), on floats, from its poloidal part. -/
def polar (sinθ : PyFloat) (rows : List ZPoint) (poloidal : PyFloat) : PyFloat := add poloidal (polarToroidal sinθ rows)

/-- One coefficient of a PFSS set at a point: the two values of `r_l`, the value of `lpmn` and its derivative, the scaling
`clm`, and the two values of `phi_lm` (pfss_magnetogram.py:201-208). -/
structure PPoint where
  m : ℤ
  rl : PyFloat
  drl : PyFloat
  p : PyFloat
  d : PyFloat
  clm : PyFloat
  phi : PyFloat
  dphi : PyFloat

/-- `buffered_theta` (pfss_magnetogram.py:72). -/
def PPoint.theta (r : PPoint) : PyFloat := mul r.p r.clm

/-- `buffered_dtheta` (associated_legendre.py:25 and pfss_magnetogram.py:73). -/
def PPoint.dtheta (r : PPoint) (sinθ : PyFloat) : PyFloat := mul (mul r.d (neg sinθ)) r.clm

/-- The loop of `evaluate_spherical` (pfss_magnetogram.py:200-223) at one point with radius `rad`, on floats. -/
def loop (rad sinθ : PyFloat) (rows : List PPoint) : PyFloat × PyFloat × PyFloat :=
  rows.foldl (fun acc r =>
    let ur := mul (mul r.drl r.theta) r.phi
    let up := mul (mul r.rl (r.dtheta sinθ)) r.phi
    let ua := mul (mul r.rl r.theta) r.dphi
    (sub acc.1 ur, sub acc.2.1 (div up rad),
      sub acc.2.2 (if neZero ua then div ua (mul rad sinθ) else fin false 0)))
    (fin false 0, fin false 0, fin false 0)

/-- Scaling beyond the source surface (pfss_magnetogram.py:230-233): `q` is the square of the quotient of the radii. -/
def beyond (q : PyFloat) (f : PyFloat × PyFloat × PyFloat) : PyFloat × PyFloat × PyFloat :=
  (mul f.1 q, mul f.2.1 q, mul f.2.2 q)

/-- One component of `transformation_matrix @ Frpa` (pfss_magnetogram.py:291); in which order the three
products are added does not matter for the claims. -/
def component (a b c : PyFloat) (f : PyFloat × PyFloat × PyFloat) : PyFloat :=
  add (add (mul a f.1) (mul b f.2.1)) (mul c f.2.2)

/-- The cartesian field (pfss_magnetogram.py:285-300 and coordinate_transforms.py:49-83), on floats. -/
def cartesian (sinθ cosθ sinφ cosφ : PyFloat) (f : PyFloat × PyFloat × PyFloat) : PyFloat × PyFloat × PyFloat :=
  (component (mul sinθ cosφ) (mul cosθ cosφ) (neg sinφ) f, component (mul sinθ sinφ) (mul cosθ sinφ) cosφ f,
    component cosθ (neg sinθ) (fin false 0) f)

end FloatAxis
end Verif
