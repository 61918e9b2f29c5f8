import Verif.Model.Legendre
import Verif.Model.Coordinates
import Verif.Model.Elements
import Mathlib.Analysis.SpecialFunctions.Pow.Real

/-!
# Model of pfss_magnetogram.py

Exact arithmetic, evaluated at one point. The finite-difference derivative of `theta_lm` (lines 34-54) is computed
and discarded by `calculate_all_theta(scipy=True)`; only the value part enters (through the `allclose` assert); see
`Model.Theta` for it.
Coefficient sets with more than one column make numpy broadcast columns against points; see `Model.PfssArrays`
(here they raise ValueError).
-/

namespace Verif
namespace Pfss

/-- `r_l` (pfss_magnetogram.py:102-129): value and derivative. -/
noncomputable def rL (l : ℤ) (r r0 rss : ℝ) : ℝ × ℝ :=
  let a := r * (r0 / r) ^ (l + 2)
  let b := 1 - (r / rss) ^ (2 * l + 1)
  let e := l + 1 + l * (r0 / rss) ^ (2 * l + 1)
  let c := (r0 / r) ^ (l + 2)
  let d := l + 1 + l * (r / rss) ^ (2 * l + 1)
  (a * b / e, -c * d / e)

/-- `phi_lm` (pfss_magnetogram.py:132-144): value and derivative. -/
noncomputable def phiLm (m : ℤ) (g h φ : ℝ) : ℝ × ℝ :=
  (g * Real.cos (m * φ) + h * Real.sin (m * φ), (-g * Real.sin (m * φ) + h * Real.cos (m * φ)) * m)

/-- The scaling of `theta_lm` and `calculate_all_theta` (pfss_magnetogram.py:26-28, 68-70). -/
noncomputable def thetaScale (l m : ℤ) : ℝ :=
  (-1) ^ m * Real.sqrt (spFactorial (l - m) / spFactorial (l + m)) * Real.sqrt (2 - if m = 0 then 1 else 0)

/-- The value part of `theta_lm` (pfss_magnetogram.py:22-32). -/
noncomputable def thetaLm (l m : ℤ) (θ : ℝ) : ℝ := thetaScale l m * lpmv m l (Real.cos θ)

/-- `calculate_all_theta` (pfss_magnetogram.py:59-99) with `scipy=True`: values and derivatives; the assert on
line 92 compares with `theta_lm` up to `np.allclose`'s default tolerances. -/
noncomputable def calcAllTheta (lm : List (ℤ × ℤ)) (θ : ℝ) : Res (List (ℝ × ℝ)) := open Classical in do
  let pd ← calcLpmn lm θ
  let scaled := List.zipWith (fun k (p : ℝ × ℝ) => (p.1 * thetaScale k.1 k.2, p.2 * thetaScale k.1 k.2)) lm pd
  let old := lm.map fun k => thetaLm k.1 k.2 θ
  resAssert (∀ q ∈ scaled.zip old, |q.1.1 - q.2| ≤ 1e-8 + 1e-5 * |q.2|)
  pure scaled

/-- The sum of one component over the coefficient lines: `f` gets degree, order, value, theta and dtheta
(pfss_magnetogram.py:201-223). -/
noncomputable def sumRows (f : ℤ → ℤ → ℂ → ℝ → ℝ → ℝ) : List (ℤ × ℤ × ℂ) → List (ℝ × ℝ) → ℝ
  | (l, m, c) :: rows, (t, d) :: th => f l m c t d + sumRows f rows th
  | _, _ => 0

/-- The single column of every row (see the remark on multi-column sets) (pfss_magnetogram.py:147-235). -/
noncomputable def singleColumn (r : ℤ × ℤ × List ℂ) : Res (ℤ × ℤ × ℂ) :=
  match r.2.2 with
  | [c] => .ok (r.1, r.2.1, c)
  | _ => .error .value

/-- `evaluate_spherical` (pfss_magnetogram.py:147-235) at one point. -/
noncomputable def evalSpherical (s : Coefs ℂ) (r θ φ : ℝ) (rStar : ℝ := 1) (rss : ℝ := 2.5) :
    Res (ℝ × ℝ × ℝ) := open Classical in do
  resAssert (rStar < rss)
  let (ls, ms, vs) ← s.asArrays false
  if ms = [] then throw .value
  resAssert (∀ m ∈ ms, 0 ≤ m)
  let th ← calcAllTheta (ls.zip ms) θ
  let rows ← (ls.zip (ms.zip vs)).mapM singleColumn
  let r' := min r rss
  let fr := sumRows (fun l m c t _ => -((rL l r' rStar rss).2 * t * (phiLm m c.re c.im φ).1)) rows th
  let fp := sumRows (fun l m c _ d => -((rL l r' rStar rss).1 * d * (phiLm m c.re c.im φ).1 / r')) rows th
  let fa := sumRows (fun l m c t _ =>
    -(let u := (rL l r' rStar rss).1 * t * (phiLm m c.re c.im φ).2
      if u ≠ 0 then u / (r' * Real.sin θ) else 0)) rows th
  if r < rStar then pure (0, 0, 0)
  else if rss < r then pure (fr * (r' / r) ^ 2, fp * (r' / r) ^ 2, fa * (r' / r) ^ 2)
  else pure (fr, fp, fa)

/-- `evaluate_cartesian` (pfss_magnetogram.py:238-301) at one point: spherical and cartesian components. -/
noncomputable def evalCartesian (s : Coefs ℂ) (x y z : ℝ) (rStar : ℝ := 1) (rss : ℝ := 2.5) :
    Res ((ℝ × ℝ × ℝ) × (Fin 3 → ℝ)) := open Classical in do
  resAssert (rStar < rss)
  let p := sphericalFromRect x y z
  let f ← evalSpherical s p.1 p.2.1 p.2.2 rStar rss
  pure (f, toCartesian p.2.1 p.2.2 f.1 f.2.1 f.2.2)

end Pfss
end Verif
