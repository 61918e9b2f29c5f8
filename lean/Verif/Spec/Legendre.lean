import Mathlib.Algebra.Polynomial.Derivative
import Mathlib.Analysis.Calculus.Deriv.Polynomial
import Mathlib.Analysis.SpecialFunctions.Sqrt
import Mathlib.Analysis.SpecialFunctions.Trigonometric.Deriv
import Mathlib.Data.Nat.Factorial.Basic

/-!
# Associated Legendre functions

The textbook definition (Rodrigues' formula, Condon–Shortley phase), which is the documented meaning of
`scipy.special.lpmv` and `scipy.special.lpmn`. Nothing here refers to the code.
-/

namespace Verif
namespace Spec

open Polynomial

/-- `(X² - 1)^l`, the polynomial of Rodrigues' formula. -/
noncomputable def rodBase (l : ℕ) : ℝ[X] := (X ^ 2 - 1) ^ l

/-- `d^n/dx^n (x² - 1)^l`. -/
noncomputable def rod (l n : ℕ) : ℝ[X] := derivative^[n] (rodBase l)

/-- The factor `(-1)^m / (2^l l!)`. -/
noncomputable def rodNorm (l m : ℕ) : ℝ := (-1) ^ m / (2 ^ l * (l.factorial : ℝ))

/-- The associated Legendre function of degree `l` and order `m ≥ 0`,
`P_l^m(x) = (-1)^m (1 - x²)^(m/2) d^m/dx^m P_l(x)` with
`P_l(x) = 1/(2^l l!) d^l/dx^l (x² - 1)^l`. -/
noncomputable def legendreP (l m : ℕ) (x : ℝ) : ℝ :=
  rodNorm l m * Real.sqrt (1 - x ^ 2) ^ m * (rod l (l + m)).eval x

/-- Integer orders: `P_l^{-m} = (-1)^m (l - m)!/(l + m)! P_l^m`; zero for `|m| > l` and for negative `l`. -/
noncomputable def legendrePZ (l m : ℤ) (x : ℝ) : ℝ :=
  if l < |m| then 0
  else if 0 ≤ m then legendreP l.toNat m.toNat x
  else (-1) ^ m.natAbs * ((l.toNat - m.natAbs).factorial : ℝ) / ((l.toNat + m.natAbs).factorial : ℝ)
    * legendreP l.toNat m.natAbs x

end Spec
end Verif
