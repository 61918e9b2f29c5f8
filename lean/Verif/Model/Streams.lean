import Verif.Model.Maps
import Verif.Model.Slice

/-!
# Model of `plot_streamtraces` (plot_pfss.py:94-147) and `plot_equirectangular` (plots.py:13-36)

A figure is the numbers passed to matplotlib. Of matplotlib: `contour` wants at least two rows and columns, `streamplot`
puts the conditions `Slice.GridOk` on its grid; the ticks `MaxNLocator.tick_values` chooses are a parameter. Labels, the
colour bar and the entries of the legend for the contours are not modelled.
-/

namespace Verif
namespace Streams
open Geometry Maps

/-- `x.T` (plot_pfss.py:94-147) -/
def tr {α : Type} (x : Arr2 α) : Arr2 α := (List.range (x.headD []).length).map fun i => x.filterMap (·[i]?)

/-- Entry `i, j` of an array that is known to have it (plot_pfss.py:94-147, plot_zdi.py:336-397). -/
def ent (x : Arr2 ℝ) (i j : ℕ) : ℝ := (x.getD i []).getD j 0

/-- `x / y` in numpy, `none` if the result is nan or infinite (plot_pfss.py:94-147, plot_zdi.py:336-397). -/
noncomputable def over (x y : ℝ) : Option ℝ := open Classical in if y = 0 then none else some (x / y)

/-- The figure: the image (plots.py:18-23) with its colour range, whether a black zero contour is drawn (plots.py:25-26),
the ticks (plots.py:28-30), the arguments of the stream lines (plot_pfss.py:116-123), the arrays whose zero contours are drawn
(lines 126-128) and the values and line widths of the legend (lines 139-144). -/
structure Figure where
  cornerX : Arr2 ℝ
  cornerY : Arr2 ℝ
  image : Arr2 ℝ
  vmin : ℝ
  vmax : ℝ
  black : Bool
  xticks : List ℝ
  yticks : List ℝ
  x : Arr2 ℝ
  y : Arr2 ℝ
  u : Arr2 ℝ
  v : Arr2 ℝ
  width : Arr2 (Option ℝ)
  contours : List (Arr2 ℝ)
  legend : List (ℝ × Option ℝ)

/-- The check of `contour` (plots.py:25-26, plot_pfss.py:94-147). -/
def contourOk (z : Arr2 ℝ) : Res Unit :=
  if z.length < 2 ∨ (z.headD []).length < 2 then .error .type else .ok ()

/-- The contour of `plot_equirectangular` (plots.py:25-26). -/
def blackOk (black : Bool) (z : Arr2 ℝ) : Res Unit := if black then contourOk z else .ok ()

/-- The checks of `streamplot`. With one row or column it raises IndexError (or ValueError if the coordinates do not
increase; here always IndexError) (plot_pfss.py:94-147, plot_zdi.py:336-397). -/
noncomputable def streamOk (x y : Arr2 ℝ) : Res Unit := open Classical in
  if x.length < 2 ∨ (x.headD []).length < 2 then .error .index
  else if Slice.GridOk x.length (x.headD []).length (ent x) (ent y) then .ok ()
  else .error .value

/-- The ticks of an axis (plots.py:28, 30): from the first corner `[0, 0]` to the last `[-1, -1]`. -/
noncomputable def axisTicks (c : Arr2 ℝ) (n : ℤ) : Res (List ℝ) := do
  let a ← item c (0, 0)
  let b ← item c (c.length - 1, (c.headD []).length - 1)
  let t ← linspace a b n
  pure (t.map (180 / Real.pi * ·))

/-- `plot_streamtraces` (plot_pfss.py:94-147). -/
noncomputable def plotStreams (ticks : ℝ → ℝ → List ℝ) (s : Coefs ℂ) (g : Geom) : Res Figure := open Classical in do
  let f ← (map2 (fun θ φ => (θ, φ)) g.centers.1 g.centers.2).mapM fun row => row.mapM fun c =>
    Pfss.evalSpherical s 1 c.1 c.2
  let br := map1 (fun v => v.1) f
  let bp := map1 (fun v => v.2.1) f
  let ba := map1 (fun v => v.2.2) f
  let bt := map2 (fun p a => Real.sqrt (p ^ 2 + a ^ 2)) bp ba
  let m ← amax (map1 (fun v => |v|) br)
  let lo ← amin br
  let hi ← amax br
  blackOk (decide (lo < 0 ∧ 0 < hi)) (tr br)
  let xt ← axisTicks g.azim 9
  let yt ← axisTicks g.polar 5
  let big ← amax bt
  let x := map1 deg (tr g.centers.2)
  let y := map1 deg (tr g.centers.1)
  streamOk x y
  contourOk (tr br)
  let small ← amin bt
  let top ← (ticks small big).max?.elim (.error .value) .ok
  pure {
    cornerX := map1 deg (tr g.azim)
    cornerY := map1 deg (tr g.polar)
    image := tr br
    vmin := -m
    vmax := m
    black := decide (lo < 0 ∧ 0 < hi)
    xticks := xt
    yticks := yt
    x := x
    y := y
    u := tr ba
    v := tr bp
    width := map1 (fun t => over (3 * t) big) (tr bt)
    contours := [tr br, tr bp, tr ba]
    legend := (ticks small big).map fun t => (t, over (3 * t) top) }

end Streams
end Verif
