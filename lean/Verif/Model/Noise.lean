import Verif.Model.Elements
import Mathlib.Analysis.SpecialFunctions.Pow.Real

/-!
# Model of `noise` (coefficients.py:194-205)

`noise_fn` is any function: `draw i` is the pair of numbers it returns when called for the `i`-th time. Exact arithmetic.
-/

namespace Verif
namespace Noise

/-- The coefficient (coefficients.py:199-202). For degree 0 and `beta` other than 0 `0**beta` is 0 or raises: python raises
ZeroDivisionError for negative `beta`, numpy stores nan and warns for positive `beta`; the model raises in both cases. -/
noncomputable def coefOf (l : ℤ) (beta : ℝ) (d : ℝ × ℝ) : Res ℂ := open Classical in
  if l = 0 ∧ beta ≠ 0 then .error .zeroDiv
  else .ok ((d.1 + Complex.I * d.2) / (2 * l + 1) / (((l : ℝ) ^ beta : ℝ) : ℂ))

/-- The body of the loops (coefficients.py:199-203): the set and the number of draws so far. -/
noncomputable def step (draw : ℕ → ℝ × ℝ) (beta : ℝ) (st : Coefs ℂ × ℕ) (k : Key) : Res (Coefs ℂ × ℕ) := do
  let c ← coefOf k.1 beta (draw st.2)
  match Coefs.append (.int k.1) (.int k.2) [c] st.1 with
  | .ok () s => .ok (s, st.2 + 1)
  | .error e _ => .error e

/-- The pairs the two loops run through (coefficients.py:197-198). -/
def loopKeys (lo hi : ℤ) : List Key := (pyRange lo (hi + 1)).flatMap fun l => (pyRange 0 (l + 1)).map fun m => (l, m)

/-- `noise` (coefficients.py:194-205). -/
noncomputable def noise (draw : ℕ → ℝ × ℝ) (lo : ℤ := 1) (hi : ℤ := 15) (beta : ℝ := 0) : Res (Coefs ℂ) := do
  let st ← (loopKeys lo hi).foldlM (step draw beta) (Coefs.new [0] .cplx, 0)
  pure st.1

end Noise
end Verif
