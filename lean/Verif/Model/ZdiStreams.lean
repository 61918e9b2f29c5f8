import Verif.Model.Streams
import Verif.Model.Zdi

/-!
# Model of `plot_streamtraces` (plot_zdi.py:336-397)

As in `Model.Streams` a figure is the numbers passed to matplotlib. The block under `if False` (lines 375-381) is left out.
-/

namespace Verif
namespace ZdiStreams
open Geometry Maps Streams

/-- The figure: the image (plot_zdi.py:356-357) with the lower end of its colour range (the upper is left to matplotlib, which
takes the largest value), whether a black zero contour is drawn (plots.py:25-26), the ticks (plots.py:28-30), the arguments of
the stream lines (plot_zdi.py:364-371) and the values and line widths of the legend (lines 387-393). -/
structure Figure where
  cornerX : Arr2 ℝ
  cornerY : Arr2 ℝ
  image : Arr2 ℝ
  vmin : ℝ
  black : Bool
  xticks : List ℝ
  yticks : List ℝ
  x : Arr2 ℝ
  y : Arr2 ℝ
  u : Arr2 ℝ
  v : Arr2 ℝ
  width : Arr2 (Option ℝ)
  legend : List (ℝ × Option ℝ)

/-- The polar and azimuthal component and the strength at a centre (plot_zdi.py:346-349; the radial component on line 346 is
not used). -/
noncomputable def fieldAt (z : Zdi) (c : ℝ × ℝ) : Res (ℝ × ℝ × ℝ) := do
  let p ← z.polar c.1 c.2
  let a ← z.azimuthal c.1 c.2
  let s ← z.strength c.1 c.2
  pure (p, a, s)

/-- `plot_streamtraces` (plot_zdi.py:336-397). -/
noncomputable def plotStreams (ticks : ℝ → ℝ → List ℝ) (z : Zdi) (g : Geom) : Res Figure := open Classical in do
  let f ← (map2 (fun θ φ => (θ, φ)) g.centers.1 g.centers.2).mapM fun row => row.mapM (fieldAt z)
  let bp := map1 (fun v => v.1) f
  let ba := map1 (fun v => v.2.1) f
  let bs := map1 (fun v => v.2.2) f
  let bt := map2 (fun p a => Real.sqrt (p ^ 2 + a ^ 2)) bp ba
  let lo ← amin bs
  let hi ← amax bs
  blackOk (decide (lo < 0 ∧ 0 < hi)) (tr bs)
  let xt ← axisTicks g.azim 9
  let yt ← axisTicks g.polar 5
  let big ← amax bt
  let x := map1 deg (tr g.centers.2)
  let y := map1 deg (tr g.centers.1)
  streamOk x y
  let small ← amin bt
  let top ← (ticks small big).max?.elim (.error .value) .ok
  pure {
    cornerX := map1 deg (tr g.azim)
    cornerY := map1 deg (tr g.polar)
    image := tr bs
    vmin := 0
    black := decide (lo < 0 ∧ 0 < hi)
    xticks := xt
    yticks := yt
    x := x
    y := y
    u := tr ba
    v := tr bp
    width := map1 (fun t => over (3 * t) big) (tr bt)
    legend := (ticks small big).map fun t => (t, over (3 * t) top) }

end ZdiStreams
end Verif
