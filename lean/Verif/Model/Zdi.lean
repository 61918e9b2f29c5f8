import Verif.Model.Legendre
import Verif.Model.Coordinates
import Verif.Model.Elements
import Mathlib.Analysis.SpecialFunctions.Log.Basic
import Mathlib.Analysis.SpecialFunctions.Complex.Circle

/-!
# Model of zdi_magnetogram.py

A `ZdiMagnetogram` holds five arrays of equal length; the model keeps them as a list of rows. (The constructor
accepts arrays of different lengths; such objects are not modelled.) Arithmetic is exact. The fields are modelled
at one point (arrays of points: `Model.ZdiArrays`), without the `_dplm` finite differences (lines 516-544), which
are used only by the superseded `get_polar_poloidal_field` (see `Model.Superseded`) and `get_azimuthal_toroidal_field`.
Division by `sin θ = 0` gives inf/nan in numpy and 0 here; no claim uses a value at a pole where it matters.
-/

namespace Verif

/-- One row of a ZDI magnetogram: degree, order, alpha, beta, gamma (zdi_magnetogram.py:52-64). -/
structure ZRow where
  l : ℤ
  m : ℤ
  a : ℂ
  b : ℂ
  g : ℂ

/-- A `ZdiMagnetogram` (zdi_magnetogram.py:37-66); `_dplm_method` is omitted. -/
abbrev Zdi := List ZRow

/-- `get_c_lm` with `method='low_order'` (zdi_magnetogram.py:613-624, 633). -/
noncomputable def cLm (l m : ℤ) : ℝ :=
  Real.sqrt ((2 * l + 1) / (4 * Real.pi) * spFactorial (l - m) / spFactorial (l + m))

/-- `get_c_lm` with any other method (zdi_magnetogram.py:625-633): `exp(-sum(log(arange(l-m+1, l+m+1))))`. -/
noncomputable def cLmAlt (l m : ℤ) : ℝ :=
  Real.sqrt ((2 * l + 1) / (4 * Real.pi)
    * Real.exp (-((pyRange (l - m + 1) (l + m + 1)).map fun k : ℤ => Real.log k).sum))

namespace Zdi

/-- `np.exp(1.0j * m * φ)` (zdi_magnetogram.py:93-97). -/
noncomputable def expi (m : ℤ) (φ : ℝ) : ℂ := Complex.exp (Complex.I * m * φ)

/-- The (degree, order) columns (zdi_magnetogram.py:58-59, 245-246). -/
def lm (z : Zdi) : List (ℤ × ℤ) := z.map fun r => (r.l, r.m)

/-- `degree` (zdi_magnetogram.py:75-80); ValueError when empty. -/
def degree (z : Zdi) : Res ℤ :=
  match listMax (z.map ZRow.l) with
  | some L => .ok L
  | none => .error .value

/-- `get_radial_poloidal_field` (zdi_magnetogram.py:82-99). -/
noncomputable def radialPoloidal (z : Zdi) (θ φ : ℝ) : ℝ :=
  ((z.map fun r => r.a * cLm r.l r.m * lpmv r.m r.l (Real.cos θ) * expi r.m φ).sum).re

/-- `get_radial_toroidal_field` (zdi_magnetogram.py:101-111). -/
noncomputable def radialToroidal (_z : Zdi) (_θ _φ : ℝ) : ℝ := (0 : ℂ).re

/-- `get_radial_field` (zdi_magnetogram.py:113-123). -/
noncomputable def radial (z : Zdi) (θ φ : ℝ) : ℝ := radialPoloidal z θ φ + radialToroidal z θ φ

/-- `get_azimuthal_poloidal_field` (zdi_magnetogram.py:125-149). -/
noncomputable def azimuthalPoloidal (z : Zdi) (θ φ : ℝ) : ℝ :=
  ((z.map fun r => -(r.b * cLm r.l r.m * lpmv r.m r.l (Real.cos θ) * Complex.I * r.m * expi r.m φ
    / (r.l + 1) / (Real.sin θ : ℂ))).sum).re

/-- `get_azimuthal_toroidal_field_new` (zdi_magnetogram.py:175-190). -/
noncomputable def azimuthalToroidal (z : Zdi) (θ φ : ℝ) : Res ℝ := do
  let pd ← calcLpmn z.lm θ
  pure ((List.zipWith (fun r (p : ℝ × ℝ) => r.g * cLm r.l r.m / (r.l + 1) * expi r.m φ * (-p.2 : ℝ)) z pd).sum).re

/-- `get_azimuthal_field` (zdi_magnetogram.py:192-202). -/
noncomputable def azimuthal (z : Zdi) (θ φ : ℝ) : Res ℝ := do
  let t ← azimuthalToroidal z θ φ
  pure (azimuthalPoloidal z θ φ + t)

/-- `get_polar_poloidal_field_new` (zdi_magnetogram.py:227-243). -/
noncomputable def polarPoloidal (z : Zdi) (θ φ : ℝ) : Res ℝ := do
  let pd ← calcLpmn z.lm θ
  pure ((List.zipWith (fun r (p : ℝ × ℝ) => r.b * cLm r.l r.m / (r.l + 1) * expi r.m φ * (-p.2 : ℝ)) z pd).sum).re

/-- `get_polar_toroidal_field` (zdi_magnetogram.py:248-267). -/
noncomputable def polarToroidal (z : Zdi) (θ φ : ℝ) : ℝ :=
  ((z.map fun r => r.g * cLm r.l r.m * lpmv r.m r.l (Real.cos θ) * Complex.I * r.m * expi r.m φ
    / (r.l + 1) / (Real.sin θ : ℂ)).sum).re

/-- `get_polar_field` (zdi_magnetogram.py:269-279). -/
noncomputable def polar (z : Zdi) (θ φ : ℝ) : Res ℝ := do
  let p ← polarPoloidal z θ φ
  pure (p + polarToroidal z θ φ)

/-- `get_field_strength` (zdi_magnetogram.py:281-292). -/
noncomputable def strength (z : Zdi) (θ φ : ℝ) : Res ℝ := do
  let r := radial z θ φ
  let p ← polar z θ φ
  let a ← azimuthal z θ φ
  pure (Real.sqrt (r ^ 2 + p ^ 2 + a ^ 2))

/-- `get_cartesian_field` (zdi_magnetogram.py:546-555). -/
noncomputable def cartesian (z : Zdi) (θ φ : ℝ) : Res (Fin 3 → ℝ) := do
  let r := radial z θ φ
  let p ← polar z θ φ
  let a ← azimuthal z θ φ
  pure (toCartesian θ φ r p a)

/-- `get_cartesian_toroidal_field` (zdi_magnetogram.py:568-577): calls the superseded
`get_azimuthal_toroidal_field` (zdi_magnetogram.py:151-173), which is `assert False` (line 159). -/
noncomputable def cartesianToroidal (_z : Zdi) (_θ _φ : ℝ) : Res (Fin 3 → ℝ) := .error .assertion

/-- A range argument of `as_restricted`: one number or a pair (longer tuples behave as their first two
entries) (zdi_magnetogram.py:312-321). -/
inductive RangeArg
  | one (x : ℤ)
  | two (x y : ℤ)

/-- The pair made of a range argument (zdi_magnetogram.py:314-321). -/
def RangeArg.pair : RangeArg → ℤ × ℤ
  | one x => (x, x)
  | two x y => (x, y)

/-- `as_restricted` (zdi_magnetogram.py:312-336). -/
def restricted (z : Zdi) (dl : RangeArg := .two 0 1000) (om : RangeArg := .two 0 1000) : Zdi :=
  z.filter fun r => decide (dl.pair.1 ≤ r.l) && decide (r.l ≤ dl.pair.2) && decide (om.pair.1 ≤ r.m)
    && decide (r.m ≤ om.pair.2)

/-- `as_dipole` (zdi_magnetogram.py:309-310). -/
def dipole (z : Zdi) : Zdi := restricted z (.one 1)

/-- `copy` (zdi_magnetogram.py:338-345). -/
def copy (z : Zdi) : Zdi := z

/-- `as_poloidal` (zdi_magnetogram.py:347-350). -/
noncomputable def poloidal (z : Zdi) : Zdi := (copy z).map fun r => { r with g := 0 }

/-- `as_toroidal` (zdi_magnetogram.py:352-356). -/
noncomputable def toroidal (z : Zdi) : Zdi := (copy z).map fun r => { r with a := 0, b := 0 }

/-- Build the object from `as_arrays` output (zdi_magnetogram.py:52-62, 580-593): one to three columns. -/
noncomputable def ofRow (l m : ℤ) : List ℂ → Res ZRow
  | [a] => .ok ⟨l, m, a, 0 * a, 0 * a⟩
  | [a, b] => .ok ⟨l, m, a, b, 0 * a⟩
  | [a, b, g] => .ok ⟨l, m, a, b, g⟩
  | [] => .error .type
  | _ => .error .assertion

/-- `from_coefficients` (zdi_magnetogram.py:580-593). `np.min` of an empty array raises ValueError (line 586);
a set without columns lacks the argument `alpha_lm` (TypeError). -/
noncomputable def fromCoefficients (s : Coefs ℂ) : Res Zdi := do
  let (ls, ms, vs) ← s.asArrays false
  if ms = [] then throw .value
  (ls.zip (ms.zip vs)).mapM fun r => ofRow r.1 r.2.1 r.2.2

end Zdi
end Verif
