import Verif.Model.Pfss
import Verif.Py.Text

/-!
# Model of `plot_slice` (plot_pfss.py:42-91)

A figure is the numbers and texts passed to matplotlib. Of matplotlib only the conditions that `streamplot` puts on its
grid are modelled (class `Grid` of `matplotlib.streamplot`). The aspect ratio and the shading are not.
-/

namespace Verif
namespace Slice

/-- `normal_plane` (pfss_magnetogram.py:304-318) at one point: for other normals it returns `None`, which cannot be
unpacked (plot_pfss.py:58). -/
noncomputable def normalPlane (normal : Text) : Res (ℝ → ℝ → ℝ × ℝ × ℝ) := open Classical in
  if normal = ['x'] then .ok fun p1 p2 => (0, p1, p2)
  else if normal = ['y'] then .ok fun p1 p2 => (p1, 0, p2)
  else if normal = ['z'] then .ok fun p1 p2 => (p1, p2, 0)
  else .error .type

/-- `np.linspace(-1, 1, n) * rmax` (plot_pfss.py:54-55), entry `i`. -/
noncomputable def tick (n : ℕ) (rmax : ℝ) (i : ℕ) : ℝ := (-1 + 2 * i / ((n : ℝ) - 1)) * rmax

/-- The indices of `np.meshgrid(p1, p2)` (plot_pfss.py:56): row `i`, column `j`. -/
def grid : List (ℕ × ℕ) := (List.range 304).flatMap fun i => (List.range 302).map fun j => (i, j)

/-- What is drawn at one point of the grid: the place and the colour (lines 75-77), the distance from the centre (line 85),
the place and the vector of the stream lines (line 89), and the strength of the field (line 67) (plot_pfss.py:67-89). -/
structure Point where
  place : ℝ × ℝ
  colour : ℝ
  distance : ℝ
  streamPlace : ℝ × ℝ
  stream : ℝ × ℝ
  strength : ℝ

/-- The figure. `vmax` is the upper and `-vmax` the lower end of the colour scale, `linear` the half width of its linear
part; `levels` are the distances of the contours (plot_pfss.py:67-91). -/
structure Figure where
  points : List Point
  vmin : ℝ
  vmax : ℝ
  linear : ℝ
  xlabel : Text
  ylabel : Text
  levels : List ℝ

/-- `np.allclose` of two numbers (plot_pfss.py:89). -/
def Close (a b : ℝ) : Prop := |a - b| ≤ 1e-8 + 1e-5 * |b|

/-- The conditions `streamplot` puts on the matrices `x` and `y`: rows of `x` equal, columns of `y` equal, increasing and
equally spaced (plot_pfss.py:89). -/
structure GridOk (rows cols : ℕ) (x y : ℕ → ℕ → ℝ) : Prop where
  rowsEqual : ∀ i < rows, ∀ j < cols, Close (x 0 j) (x i j)
  colsEqual : ∀ i < rows, ∀ j < cols, Close (y i 0) (y i j)
  xInc : ∀ j, j + 1 < cols → x 0 j < x 0 (j + 1)
  yInc : ∀ i, i + 1 < rows → y i 0 < y (i + 1) 0
  xEven : ∀ j, j + 1 < cols → Close (x 0 (j + 1) - x 0 j) ((x 0 (cols - 1) - x 0 0) / ((cols : ℝ) - 1))
  yEven : ∀ i, i + 1 < rows → Close (y (i + 1) 0 - y i 0) ((y (rows - 1) 0 - y 0 0) / ((rows : ℝ) - 1))

/-- The evaluation at one point (plot_pfss.py:60-61, 67, 85, 89). -/
noncomputable def point (s : Coefs ℂ) (plane : ℝ → ℝ → ℝ × ℝ × ℝ) (rStar rss p1 p2 : ℝ) : Res Point := do
  let q := plane p1 p2
  let f ← Pfss.evalCartesian s q.1 q.2.1 q.2.2 rStar rss
  pure {
    place := (p1, p2)
    colour := f.1.1
    distance := Real.sqrt (q.1 ^ 2 + q.2.1 ^ 2 + q.2.2 ^ 2)
    streamPlace := (q.2.1, q.2.2)
    stream := (f.2 1, f.2 2)
    strength := Real.sqrt (f.2 0 ^ 2 + f.2 1 ^ 2 + f.2 2 ^ 2) }

/-- `fmin` and `fmax` (plot_pfss.py:68-69); the minimum of no numbers raises ValueError. -/
noncomputable def extremes (xs : List ℝ) : Res (ℝ × ℝ) := open Classical in do
  let lo ← (xs.filter fun x => decide (0 < x)).min?.elim (.error .value) .ok
  let hi ← xs.max?.elim (.error .value) .ok
  pure (lo, hi)

/-- The check of the grid of the stream lines (line 89) (plot_pfss.py:89). -/
noncomputable def checkStream (plane : ℝ → ℝ → ℝ × ℝ × ℝ) (rmax : ℝ) : Res Unit := open Classical in
  if GridOk 304 302 (fun i j => (plane (tick 302 rmax j) (tick 304 rmax i)).2.1)
    (fun i j => (plane (tick 302 rmax j) (tick 304 rmax i)).2.2) then .ok () else .error .value

/-- `plot_slice` (plot_pfss.py:42-91). -/
noncomputable def plotSlice (s : Coefs ℂ) (normal : Text := ['x']) (rmax : ℝ := 5) (rss : ℝ := 2.5) (rStar : ℝ := 1) :
    Res Figure := open Classical in do
  resAssert (rStar < rss)
  let plane ← normalPlane normal
  let points ← grid.mapM fun ij => point s plane rStar rss (tick 302 rmax ij.2) (tick 304 rmax ij.1)
  let e ← extremes (points.map Point.strength)
  checkStream plane rmax
  pure {
    points := points
    vmin := -e.2
    vmax := e.2
    linear := 100 * e.1
    xlabel := "Distance $x/r_{\\star}$".toList
    ylabel := "Distance $z/r_{\\star}$".toList
    levels := [rStar, rss] }

end Slice
end Verif
