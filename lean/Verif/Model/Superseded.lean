import Verif.Model.Geometry

/-!
# Model of the superseded polar field (zdi_magnetogram.py:204-225, 516-544, 557-566)

`get_polar_poloidal_field` differentiates the Legendre functions along the second axis of its arguments with finite
differences. The arguments are arrays of equal shape. Arithmetic is exact; where numpy divides by zero (neighbouring points
of equal cosine) the model has 0.
-/

namespace Verif
namespace Superseded
open Geometry

/-- `_dplm_method` (zdi_magnetogram.py:42, 66): `"roll"` and `"roll2"` differ in rounding only. -/
inductive Method
  | gradient
  | roll

/-- `np.roll(x, 1)`: the last number of each row becomes the first of the next, the last of all the first
(zdi_magnetogram.py:516-544). -/
def roll (x : Arr2 ℝ) : Arr2 ℝ :=
  List.zipWith (fun last row => (last :: row.dropLast).take row.length) ((x.map fun row => row.getLastD 0).rotateRight 1) x

/-- Entry `j` of `np.gradient(f, x)` for one row: one-sided differences at the ends, otherwise the second order formula for
points at different distances, which for equal distances is the one for equal distances (zdi_magnetogram.py:516-544). -/
noncomputable def gradAt (x f : List ℝ) (j : ℕ) : ℝ :=
  let d (i : ℕ) := x.getD (i + 1) 0 - x.getD i 0
  if j = 0 then (f.getD 1 0 - f.getD 0 0) / d 0
  else if j + 1 = f.length then (f.getD j 0 - f.getD (j - 1) 0) / d (j - 1)
  else -d j / (d (j - 1) * (d (j - 1) + d j)) * f.getD (j - 1) 0 + (d j - d (j - 1)) / (d (j - 1) * d j) * f.getD j 0
    + d (j - 1) / (d j * (d (j - 1) + d j)) * f.getD (j + 1) 0

/-- `np.gradient(f, x, axis=1)`: ValueError for fewer than two columns (zdi_magnetogram.py:516-544). -/
noncomputable def gradient (f : Arr2 ℝ) (x : List ℝ) : Res (Arr2 ℝ) :=
  if x.length < 2 then .error .value else .ok (f.map fun row => (List.range row.length).map (gradAt x row))

/-- `_dplm` (zdi_magnetogram.py:516-544). `points_polar[0, :]` raises IndexError if there are no rows. -/
noncomputable def dplm (p θ : Arr2 ℝ) : Method → Res (Arr2 ℝ)
  | .roll =>
    let u := map1 Real.cos θ
    .ok (map2 (· * ·) (map2 (· / ·) (map2 (· - ·) p (roll p)) (map2 (· - ·) u (roll u))) (map1 Real.sin θ))
  | .gradient => do
    let t ← θ.head?.elim (.error .index) .ok
    let d ← gradient p (t.map Real.cos)
    pure (map2 (· * ·) d (map1 Real.sin θ))

/-- The body of the loop (zdi_magnetogram.py:214-223). -/
noncomputable def addRow (method : Method) (θ φ : Arr2 ℝ) (acc : Arr2 ℂ) (r : ZRow) : Res (Arr2 ℂ) := do
  let d ← dplm (map1 (fun t => lpmv r.m r.l (Real.cos t)) θ) θ method
  pure (map2 (· + ·) acc (map2 (fun (x f : ℝ) => r.b * cLm r.l r.m / (r.l + 1) * x * Zdi.expi r.m f) d φ))

/-- `get_polar_poloidal_field` (zdi_magnetogram.py:204-225). -/
noncomputable def polarPoloidal (method : Method) (z : Zdi) (θ φ : Arr2 ℝ) : Res (Arr2 ℝ) := do
  let f ← z.foldlM (addRow method θ φ) (map1 (fun _ => 0) φ)
  pure (map1 Complex.re f)

/-- `get_cartesian_poloidal_field` (zdi_magnetogram.py:557-566). -/
noncomputable def cartesianPoloidal (method : Method) (z : Zdi) (θ φ : Arr2 ℝ) : Res (Arr2 (Fin 3 → ℝ)) := do
  let p ← polarPoloidal method z θ φ
  pure (map2 (fun (c : ℝ × ℝ) v => toCartesian c.1 c.2 (z.radialPoloidal c.1 c.2) v (z.azimuthalPoloidal c.1 c.2))
    (map2 (fun a b => (a, b)) θ φ) p)

end Superseded
end Verif
