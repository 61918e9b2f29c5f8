import Verif.Model.Pfss

/-!
# Model of the old derivative in `theta_lm` (pfss_magnetogram.py:34-54) and of `calculate_all_theta(scipy=False)`

At one point, in exact arithmetic.
-/

namespace Verif
namespace Pfss

/-- The estimated derivative of `theta_lm` (pfss_magnetogram.py:34-54). -/
noncomputable def thetaDeriv (l m : ℤ) (θ : ℝ) : ℝ := open Classical in
  let dp := 1e-2
  let dv := thetaLm l m (θ + dp) - thetaLm l m θ
  let du := 0.5 * (Real.cos (θ + dp) - Real.cos (θ - dp))
  let dvdu := if du ≠ 0 then dv / du else 0
  let deriv := -dvdu * Real.sin θ
  if l = 1 ∧ θ = 0 then 0 else deriv

/-- `calculate_all_theta` (pfss_magnetogram.py:59-99) with `scipy=False`: the same checks, then the old values. -/
noncomputable def calcAllThetaOld (lm : List (ℤ × ℤ)) (θ : ℝ) : Res (List (ℝ × ℝ)) := do
  let _ ← calcAllTheta lm θ
  pure (lm.map fun k => (thetaLm k.1 k.2 θ, thetaDeriv k.1 k.2 θ))

end Pfss
end Verif
