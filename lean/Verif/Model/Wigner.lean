import Verif.Model.Rotate
import Mathlib.Algebra.Quaternion
import Mathlib.Analysis.SpecialFunctions.Trigonometric.Basic
import Mathlib.Data.Nat.Choose.Basic

/-!
# The two library functions that rotate.py calls, at their documented meaning

`quaternion.from_euler_angles` and `spherical_functions.Wigner_D_element`, in exact arithmetic.
-/

namespace Verif
namespace Rotate
open Quaternion

/-- `R.a = w + i z` and `R.b = y + i x`, the two complex numbers that make up a quaternion (rotate.py:30). -/
noncomputable def qa (q : ℍ[ℝ]) : ℂ := ⟨q.re, q.imK⟩
/-- See rotate.py:30. -/
noncomputable def qb (q : ℍ[ℝ]) : ℂ := ⟨q.imJ, q.imI⟩

/-- `spherical_functions.Wigner_D_element(R, l, mp, m)` (called in rotate.py:30), the documented sum over `ρ`. -/
noncomputable def wignerD (q : ℍ[ℝ]) (l mp m : ℤ) : ℂ :=
  if |mp| ≤ l ∧ |m| ≤ l then
    (Real.sqrt (((l + m).toNat.factorial * (l - m).toNat.factorial : ℝ)
        / ((l + mp).toNat.factorial * (l - mp).toNat.factorial)) : ℂ)
      * ∑ ρ ∈ Finset.Icc (max 0 (mp - m)) (min (l + mp) (l - m)),
          ((l + mp).toNat.choose ρ.toNat : ℂ) * ((l - mp).toNat.choose (l - ρ - m).toNat : ℂ) * (-1) ^ ρ.toNat
            * qa q ^ (l + mp - ρ).toNat * (starRingEnd ℂ) (qa q) ^ (l - ρ - m).toNat
            * qb q ^ (ρ - mp + m).toNat * (starRingEnd ℂ) (qb q) ^ ρ.toNat
  else 0

/-- `quaternion.from_euler_angles` (called in rotate.py:45). -/
noncomputable def fromEuler (α β γ : ℝ) : ℍ[ℝ] :=
  ⟨Real.cos (β / 2) * Real.cos ((α + γ) / 2), -(Real.sin (β / 2) * Real.sin ((α - γ) / 2)),
    Real.sin (β / 2) * Real.cos ((α - γ) / 2), Real.cos (β / 2) * Real.sin ((α + γ) / 2)⟩

/-- `np.deg2rad` (rotate.py:38-46). -/
noncomputable def rad (x : ℝ) : ℝ := x * (Real.pi / 180)

/-- `rotate_magnetogram_euler_zyz_deg` (rotate.py:38-46). -/
noncomputable def rotateEuler (s : Coefs ℂ) (α β γ : ℝ) : Res (Coefs ℂ) :=
  rotate (wignerD (fromEuler (rad α) (rad β) (rad γ))) s

end Rotate
end Verif
