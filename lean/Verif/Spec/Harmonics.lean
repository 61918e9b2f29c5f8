import Verif.Spec.Coefficients
import Verif.Spec.Legendre
import Mathlib.Analysis.SpecialFunctions.Complex.Circle

/-!
# Specification vocabulary for fields made of spherical harmonics

Textbook forms, independent of the code: normalised spherical harmonics, the real surface field of a coefficient
set, Schmidt semi-normalised functions and the potential between the star and a source surface.
-/

namespace Verif
namespace Spec

/-- The stored pairs, as listed by `contents`. -/
def pairs {α : Type} (s : Coefs α) : Finset (ℤ × ℤ) := (s.contents.map Prod.fst).toFinset

/-- The first (for radial sets: the only) column at a pair. -/
noncomputable def coef (s : Coefs ℂ) (l m : ℤ) : ℂ := (valueAt s l m).headD 0

/-- Column `i` at a pair. -/
noncomputable def coefCol (i : ℕ) (s : Coefs ℂ) (l m : ℤ) : ℂ := (valueAt s l m).getD i 0

/-- The orthonormal spherical harmonic with Condon-Shortley phase, `|m| ≤ l`. -/
noncomputable def sphY (l m : ℤ) (θ φ : ℝ) : ℂ :=
  ((Real.sqrt ((2 * l + 1) / (4 * Real.pi) * ((l - m).toNat.factorial / (l + m).toNat.factorial))
    * legendrePZ l m (Real.cos θ) : ℝ) : ℂ) * Complex.exp (Complex.I * m * φ)

/-- The real field on the sphere that a coefficient set represents. -/
noncomputable def surfaceField (s : Coefs ℂ) (θ φ : ℝ) : ℝ :=
  (∑ k ∈ pairs s, coef s k.1 k.2 * sphY k.1 k.2 θ φ).re

/-- A usable radial set: well formed, one column, not empty, no negative orders. -/
structure RadialSet (s : Coefs ℂ) : Prop where
  wf : WellFormed s
  single : s.dflt.length = 1
  nonempty : ∃ l m : ℤ, stores s l m
  orders : ∀ l m : ℤ, stores s l m → 0 ≤ m

/-- A set that can be made into a ZDI magnetogram: well formed, one to three columns, not empty. -/
structure ZdiSet (s : Coefs ℂ) : Prop where
  wf : WellFormed s
  cols : s.dflt.length = 1 ∨ s.dflt.length = 2 ∨ s.dflt.length = 3
  nonempty : ∃ l m : ℤ, stores s l m

/-- Schmidt semi-normalised associated Legendre function (without Condon-Shortley phase), `0 ≤ m ≤ l`. -/
noncomputable def schmidt (l m : ℤ) (θ : ℝ) : ℝ :=
  (-1) ^ m.toNat * Real.sqrt ((if m = 0 then 1 else 2) * ((l - m).toNat.factorial / (l + m).toNat.factorial))
    * legendrePZ l m (Real.cos θ)

/-- The radial function of the potential between the star at `r0` and the source surface at `rss`. -/
noncomputable def radialFn (l : ℕ) (r0 rss r : ℝ) : ℝ :=
  r0 * (r0 / r) ^ (l + 1) * (1 - (r / rss) ^ (2 * l + 1)) / (l + 1 + l * (r0 / rss) ^ (2 * l + 1))

/-- The scalar potential of a coefficient set on PFSS form: real parts `g` multiply cosines, imaginary parts `h`
sines. -/
noncomputable def potential (s : Coefs ℂ) (r0 rss r θ φ : ℝ) : ℝ :=
  ∑ k ∈ pairs s, radialFn k.1.toNat r0 rss r * schmidt k.1 k.2 θ
    * ((coef s k.1 k.2).re * Real.cos (k.2 * φ) + (coef s k.1 k.2).im * Real.sin (k.2 * φ))

end Spec
end Verif
