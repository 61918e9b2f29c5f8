import Verif.Model.Geometry

/-!
# Model of `plot_longitudinal_field_curve` and `plot_style` (longitudinal_field.py:51-70)

The numbers passed to matplotlib. The azimuths are missing or an array of floats (integers: see C48). Where no facet is
visible the curve is nan (0/0), so is its largest magnitude, and `set_ylim` raises ValueError. Exact arithmetic; the grid lines
and the locator of the ticks (longitudinal_field.py:68-70) are not modelled.
-/

namespace Verif
namespace LfPlot
open Geometry

/-- The figure: the points of the curve (degrees and field), the height of the dashed line, the limits of the vertical axis;
and the array that is returned with it (azimuths and field) (longitudinal_field.py:58-67). -/
structure LfFigure where
  points : List (ℝ × ℝ)
  line : ℝ
  ylim : ℝ × ℝ
  stacked : List ℝ × List ℝ

/-- The azimuths (longitudinal_field.py:53-54). -/
noncomputable def azimuths (g : Geom) : Option (List ℝ) → Res (List ℝ)
  | none => do
    let xs ← linspace 0 360 g.shape.1
    pure (xs.map fun x => x * (Real.pi / 180))
  | some xs => .ok xs

/-- The denominator of the longitudinal field, `np.sum(visible_areas)` (longitudinal_field.py:46). -/
noncomputable def visibleArea (g : Geom) (θ φ : ℝ) : ℝ := sum2 (map2 (· * ·) g.areas (g.projFrac (rectFromSpherical 1 θ φ)))

/-- `plot_style` (longitudinal_field.py:63-70): `np.max` of an empty array raises ValueError. -/
noncomputable def plotStyle (ys φs : List ℝ) : Res LfFigure :=
  match (ys.map fun y => |y|).max? with
  | none => .error .value
  | some m => .ok {
      points := (φs.map fun x => x * (180 / Real.pi)).zip ys
      line := ys.sum / ys.length
      ylim := (-1 * m * 1.1, 1 * m * 1.1)
      stacked := (φs, ys) }

/-- The curve; ValueError where it would be nan (longitudinal_field.py:56). -/
noncomputable def curve (g : Geom) (z : Zdi) (θ : ℝ) (φs : List ℝ) : Res (List ℝ) := open Classical in do
  let ys ← longitudinalCurve g z θ (.floats φs)
  if ∀ φ ∈ φs, visibleArea g θ φ ≠ 0 then .ok ys else .error .value

/-- `plot_longitudinal_field_curve` (longitudinal_field.py:51-60). -/
noncomputable def plotCurve (g : Geom) (z : Zdi) (θ : ℝ) (obs : Option (List ℝ) := none) : Res LfFigure := do
  let φs ← azimuths g obs
  let ys ← curve g z θ φs
  plotStyle ys φs

end LfPlot
end Verif
