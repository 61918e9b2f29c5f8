import Verif.Model.Image

/-!
# Model of the analysis of a sampled field (converter.py:152-261)

Exact arithmetic. The coordinate and field arrays are two-dimensional and of equal shape; numpy would also broadcast some
other shapes, the model raises ValueError for them. Grids without points (numpy: nan) raise ValueError in the model, and
the quotient 0/0 of `np.mean` of nothing is 0; no claim uses either. `area` is a number (an array fails the comparison on
line 218). The warnings are not modelled.
-/

namespace Verif
namespace Analysis
open Geometry Image

/-- One grid point: polar angle, azimuth and the three field components (converter.py:173-186). -/
structure Pt where
  θ : ℝ
  φ : ℝ
  r : ℝ
  p : ℝ
  a : ℝ

/-- The points of the grid, in order (converter.py:173-186). -/
def points (pl az fr fp fa : Arr2 ℝ) : List Pt :=
  (map2 (fun x f => (⟨x.1, x.2, f.1, f.2.1, f.2.2⟩ : Pt)) (map2 Prod.mk pl az) (map2 Prod.mk fr (map2 Prod.mk fp fa))).flatten

/-- `np.mean` (converter.py:184-185). -/
noncomputable def mean (xs : List ℝ) : ℝ := xs.sum / xs.length

/-- `np.mean(np.diff(pl, axis=1)) * np.mean(np.diff(az, axis=0))` (converter.py:184-186). -/
noncomputable def pseudoArea (pl az : Arr2 ℝ) : ℝ :=
  mean (map2 (fun x y => y - x) (cInit pl) (cTail pl)).flatten * mean (map2 (fun x y => y - x) (rInit az) (rTail az)).flatten

/-- The three coefficients of one pair (converter.py:188-254); every point comes with the value and the derivative of the
associated Legendre function. `c_lm = 0` makes `W` infinite in numpy and the quotients 0, which is also what they are
here. -/
noncomputable def analyse (l m : ℤ) (area : ℝ) (pts : List (Pt × ℝ × ℝ)) : List ℂ :=
  let W : ℝ := ((2 - if m = 0 then 1 else 0) * cLm l m)⁻¹
  let l0 : ℝ := if l = 0 then 1e12 else l
  let sum (f : Pt → ℝ → ℝ → ℝ) : ℝ := (pts.map fun q => f q.1 q.2.1 q.2.2).sum
  let alphaRe := sum fun q P _ => q.r * Real.cos (m * q.φ) * P * Real.sin q.θ / W
  let alphaIm := -sum fun q P _ => q.r * Real.sin (m * q.φ) * P * Real.sin q.θ / W
  let betaRe := sum fun q P D =>
    (-q.p * Real.cos (m * q.φ) * D * Real.sin q.θ + q.a * Real.sin (m * q.φ) * (m * P)) / W / l0
  let betaIm := -sum fun q P D =>
    (-q.p * Real.sin (m * q.φ) * D * Real.sin q.θ - q.a * Real.cos (m * q.φ) * (m * P)) / W / l0
  let gammaRe := -sum fun q P D =>
    (-q.p * Real.sin (m * q.φ) * (m * P) - q.a * Real.cos (m * q.φ) * D * Real.sin q.θ) / W / l0
  let gammaIm := -sum fun q P D =>
    (-q.p * Real.cos (m * q.φ) * (m * P) + q.a * Real.sin (m * q.φ) * D * Real.sin q.θ) / W / l0
  [(alphaRe + Complex.I * alphaIm) * area, (betaRe + Complex.I * betaIm) * area,
    (gammaRe + Complex.I * gammaIm) * area * -1]

/-- `get_zdi_coeffs` (converter.py:173-261). -/
noncomputable def zdiCoeffs (pl az : Arr2 ℝ) (degrees orders : List ℤ) (fr fp fa : Arr2 ℝ) (area : Option ℝ := none) :
    Res (Coefs ℂ) := do
  if degrees.length ≠ orders.length ∨ ¬ (sameShape pl az ∧ sameShape pl fr ∧ sameShape pl fp ∧ sameShape pl fa) then
    throw .value
  let lm := degrees.zip orders
  let pts := points pl az fr fp fa
  if pts.length = 0 then throw .value
  let tables ← pts.mapM fun q => calcLpmn lm q.θ
  let rows := lm.zipIdx.map fun k => analyse k.1.1 k.1.2 (area.getD (pseudoArea pl az))
    (List.zipWith (fun q (t : List (ℝ × ℝ)) => (q, t.getD k.2 (0, 0))) pts tables)
  Coefs.fromArrays .cplx (degrees.map Idx.npInt) (orders.map Idx.npInt) rows

/-- `convert_latlon_to_zdi_coeffs` (converter.py:161-170); unpacking `zip(*[])` raises ValueError. -/
noncomputable def latlonCoeffs (pl az fr fp fa : Arr2 ℝ) (area : Option ℝ := none) (maxDegree : ℤ := 5) :
    Res (Coefs ℂ) := do
  let lm := positiveLm maxDegree
  if lm.length = 0 then throw .value
  zdiCoeffs pl az (lm.map Prod.fst) (lm.map Prod.snd) fr fp fa area

/-- `convert_latlon_to_zdi` (converter.py:152-158). -/
noncomputable def latlonToZdi (pl az fr fp fa : Arr2 ℝ) (area : Option ℝ := none) (maxDegree : ℤ := 5) : Res Zdi := do
  let s ← latlonCoeffs pl az fr fp fa area maxDegree
  Zdi.fromCoefficients s

end Analysis
end Verif
