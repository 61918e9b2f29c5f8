import Verif.Model.FloatAxis
import Verif.Model.FloatCoords

/-!
# The PFSS field at one point in double precision

`evaluate_spherical` and the functions it calls, statement by statement, on binary64 numbers. What numpy and scipy return for
powers, Legendre functions, their derivatives, and for sines and cosines are parameters.
-/

namespace Verif
namespace FloatPfss
open PyFloat

/-- `x < y` (pfss_magnetogram.py:170, 184, 186). -/
def lt : PyFloat → PyFloat → Bool
  | fin s a, fin t b => decide ((fin s a).num < (fin t b).num)
  | fin _ _, inf t => !t
  | inf s, fin _ _ => s
  | inf s, inf t => s && !t
  | _, _ => false

/-- `np.minimum(x, y)` (pfss_magnetogram.py:188). -/
def minimum (x y : PyFloat) : PyFloat :=
  if FloatCoords.isNan x || FloatCoords.isNan y then nan else if lt y x then y else x

/-- `r_l` (pfss_magnetogram.py:102-129), on floats: value and derivative. -/
def rL (pow : PyFloat → ℤ → PyFloat) (l : ℤ) (r r0 rss : PyFloat) : PyFloat × PyFloat :=
  let a := mul r (pow (div r0 r) (l + 2))
  let b := sub (fin false 1) (pow (div r rss) (2 * l + 1))
  let e := add (ofInt (l + 1)) (mul (ofInt l) (pow (div r0 rss) (2 * l + 1)))
  let c := pow (div r0 r) (l + 2)
  let d := add (ofInt (l + 1)) (mul (ofInt l) (pow (div r rss) (2 * l + 1)))
  (div (mul a b) e, div (mul (neg c) d) e)

/-- `phi_lm` (pfss_magnetogram.py:132-144), on floats: value and derivative, from the cosine `c` and the sine `s` of `m φ`. -/
def phiLm (m : ℤ) (g h c s : PyFloat) : PyFloat × PyFloat :=
  (add (mul g c) (mul h s), mul (add (mul (neg g) s) (mul h c)) (ofInt m))

/-- One coefficient at a point: degree, order, real and imaginary part, the values of `lpmn`, of its derivative and of `lpmv`,
and the cosine and the sine of `m φ` (pfss_magnetogram.py:30, 66, 141-142, 201-204). -/
structure PFloat where
  l : ℤ
  m : ℤ
  g : PyFloat
  h : PyFloat
  p : PyFloat
  d : PyFloat
  q : PyFloat
  c : PyFloat
  s : PyFloat

/-- What the loop uses of one coefficient (pfss_magnetogram.py:206-208). -/
def PFloat.point (N : NumLib) (pow : PyFloat → ℤ → PyFloat) (r r0 rss : PyFloat) (k : PFloat) : FloatAxis.PPoint :=
  let rl := rL pow k.l r r0 rss
  let ph := phiLm k.m k.g k.h k.c k.s
  ⟨k.m, rl.1, rl.2, k.p, k.d, FloatRange.thetaScale N k.l k.m, ph.1, ph.2⟩

/-- `evaluate_spherical` (pfss_magnetogram.py:147-235) at one point, on floats; `(…)**2` on line 231 is a product. -/
def spherical (N : NumLib) (pow : PyFloat → ℤ → PyFloat) (sinθ : PyFloat) (rows : List PFloat) (r r0 rss : PyFloat) :
    Res (PyFloat × PyFloat × PyFloat) := do
  resAssert (lt r0 rss = true)
  let r' := minimum r rss
  if rows = [] then throw .value
  resAssert (∀ k ∈ rows, 0 ≤ k.m)
  let _ ← FloatRange.allTheta N (rows.map fun k => (k.l, k.m, k.p, k.q))
  let f := FloatAxis.loop r' sinθ (rows.map (PFloat.point N pow r' r0 rss))
  if lt r r0 then pure (fin false 0, fin false 0, fin false 0)
  else if lt rss r then pure (FloatAxis.beyond (mul (div r' r) (div r' r)) f)
  else pure f

/-- `evaluate_cartesian` (pfss_magnetogram.py:238-301) from the spherical coordinates of the point on, on floats. -/
def cartesian (N : NumLib) (pow : PyFloat → ℤ → PyFloat) (sinθ cosθ sinφ cosφ : PyFloat) (rows : List PFloat)
    (r r0 rss : PyFloat) : Res (PyFloat × PyFloat × PyFloat) := do
  let f ← spherical N pow sinθ rows r r0 rss
  pure (FloatAxis.cartesian sinθ cosθ sinφ cosφ f)

end FloatPfss
end Verif
