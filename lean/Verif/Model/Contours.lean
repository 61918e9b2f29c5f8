import Verif.Model.Maps
import Mathlib.Data.Int.Log

/-!
# Model of the contour lines and the colour bar of `plot_components` (plots.py:38-43, 46-92, 150-159, 172-184)

Drawing is not modelled; the model gives the numbers: the levels of the contour lines, the markers and lines on the colour
bar and its place. Of matplotlib it uses: how `MaxNLocator` chooses ticks (`_raw_ticks`, `scale_range`, `nonsingular`, in
exact arithmetic: the tolerance of `_Edge_integer` is not modelled); `contour(…, n)` with an integer `n` takes the levels
of `MaxNLocator(n + 1, min_n_ticks=1)`, trimmed to one level below and one above the data (`_autolev`);
`Colorbar.add_lines` removes the lines that were there before and adds those in the range of the bar; the bar's ticks are
those of `MaxNLocator('auto', steps=[1, 2, 2.5, 5, 10])`, where the number of bins depends on the size of the figure and is
a parameter here.
-/

namespace Verif
namespace Contours
open Geometry Maps

/-- `MaxNLocator(nbins, steps, min_n_ticks)` (plots.py:46-91, 150-159). -/
structure Locator where
  nbins : ℕ
  steps : List ℝ
  minTicks : ℕ

/-- `MaxNLocator._staircase`: the steps, preceded by a tenth of them and followed by ten times the second
(plots.py:46-91, 150-159). -/
noncomputable def staircase (s : List ℝ) : List ℝ := s.dropLast.map (fun x => x / 10) ++ s ++ [10 * s.getD 1 0]

/-- The scale of `scale_range`: the power of ten at or below `x` (plots.py:46-91, 150-159). -/
noncomputable def scale (x : ℝ) : ℝ := 10 ^ Int.log 10 x

/-- The offset of `scale_range` (plots.py:46-91, 150-159). -/
noncomputable def offset (lo hi : ℝ) : ℝ := open Classical in
  if |(hi + lo) / 2| / (hi - lo) < 100 then 0
  else if 0 ≤ (hi + lo) / 2 then scale |(hi + lo) / 2| else -scale |(hi + lo) / 2|

/-- The ticks for one step: `best_vmin`, `low`, `high` and `np.arange(low, high + 1) * step + best_vmin`
(plots.py:46-91, 150-159). -/
noncomputable def marks (step lo hi : ℝ) : List ℝ :=
  let best := (⌊lo / step⌋ : ℝ) * step
  let low := ⌊(lo - best) / step⌋
  let high := ⌈(hi - best) / step⌉
  (List.range (high + 1 - low).toNat).map fun (i : ℕ) => ((low + i : ℤ) : ℝ) * step + best

/-- The number of ticks in the range (plots.py:46-91, 150-159). -/
noncomputable def inside (lo hi : ℝ) (ticks : List ℝ) : ℕ :=
  open Classical in (ticks.filter fun t => decide (t ≤ hi ∧ lo ≤ t)).length

/-- The loop over the steps: stop at the first one with enough ticks, otherwise keep the last one (plots.py:46-91,
150-159). -/
noncomputable def search (minTicks : ℕ) (lo hi : ℝ) : List ℝ → List ℝ → List ℝ
  | ticks, [] => ticks
  | _, s :: ss => if minTicks ≤ inside lo hi (marks s lo hi) then marks s lo hi
      else search minTicks lo hi (marks s lo hi) ss

/-- The steps that are tried: the first that is not below the width of a bin, then smaller ones (plots.py:46-91,
150-159). -/
noncomputable def candidates (loc : Locator) (lo hi : ℝ) : List ℝ := open Classical in
  let s := (staircase loc.steps).map (· * scale ((hi - lo) / loc.nbins))
  (s.take (s.findIdx (fun x => decide ((hi - lo) / loc.nbins ≤ x)) + 1)).reverse

/-- `MaxNLocator._raw_ticks` (plots.py:46-91, 150-159). -/
noncomputable def rawTicks (loc : Locator) (lo hi : ℝ) : List ℝ :=
  let o := offset lo hi
  (search loc.minTicks (lo - o) (hi - o) [] (candidates loc lo hi)).map (· + o)

/-- `mtransforms.nonsingular(vmin, vmax, expander=1e-13, tiny=1e-14)` for `vmin ≤ vmax` (plots.py:46-91, 150-159). -/
noncomputable def nonsingular (lo hi : ℝ) : ℝ × ℝ := open Classical in
  if max |lo| |hi| < 10 ^ 6 / (1 / 10 ^ 14) * (1 / 2 ^ 1022) then (-(1 / 10 ^ 13), 1 / 10 ^ 13)
  else if hi - lo ≤ max |lo| |hi| * (1 / 10 ^ 14) then (lo - 1 / 10 ^ 13 * |lo|, hi + 1 / 10 ^ 13 * |hi|)
  else (lo, hi)

/-- `MaxNLocator.tick_values` (plots.py:46-91, 150-159). -/
noncomputable def tickValues (loc : Locator) (lo hi : ℝ) : List ℝ :=
  rawTicks loc (nonsingular lo hi).1 (nonsingular lo hi).2

/-- The trimming of `_autolev`: from the last level below the data to the first level above, if that leaves three
(plots.py:150-159). -/
noncomputable def trim (lo hi : ℝ) (lev : List ℝ) : List ℝ := open Classical in
  let under := (List.range lev.length).filter fun i => decide (lev.getD i 0 < lo)
  let over := (List.range lev.length).filter fun i => decide (hi < lev.getD i 0)
  let i0 := under.getLast?.getD 0
  let i1 := over.head?.elim lev.length (· + 1)
  if i1 - i0 < 3 then lev else (lev.drop i0).take (i1 - i0)

/-- The levels of `ax.contour(x, y, z, n)` for data from `lo` to `hi` (plots.py:150-159). -/
noncomputable def autoLevels (n : ℕ) (lo hi : ℝ) : List ℝ :=
  trim lo hi (tickValues ⟨n + 1, [1, 1.5, 2, 2.5, 3, 4, 5, 6, 8, 10], 1⟩ lo hi)

/-- The levels of the `zero_contour` of `plot_magnetic_field` (plots.py:150-159), whose fourth argument is `0`; none if the
map is not symmetric. -/
noncomputable def zeroContour (field : Arr2 ℝ) (symmetric : Option Bool := none) (absMax : Option ℝ := none) :
    Res (Option (List ℝ)) := do
  let p ← magneticField field symmetric none absMax
  let lo ← amin field
  let hi ← amax field
  pure (if p.symmetric then some (autoLevels 0 lo hi) else none)

/-- The locator of the colour bar (plots.py:46-91). -/
noncomputable def barLocator (nbins : ℕ) : Locator := ⟨nbins, [1, 2, 2.5, 5, 10], 2⟩

/-- `ax.get_position()` (p0, p1) and a rectangle of `add_axes` (left, bottom, width, height) (plots.py:38-43, 46-92). -/
structure Box where
  left : ℝ
  bottom : ℝ
  width : ℝ
  height : ℝ

/-- `place_colorbar_axis_right` (plots.py:38-43). -/
noncomputable def placeRight (p0 p1 : ℝ × ℝ) (dx : ℝ := 0.22) : Box := ⟨p0.1 + dx, p0.2, 0.01, p1.2 - p0.2⟩

/-- The lines that a bar from `vmin` to `vmax` has after `add_lines` (plots.py:46-91, 71-72). -/
noncomputable def addLines (vmin vmax : ℝ) (_before levels : List ℝ) : List ℝ :=
  open Classical in levels.filter fun v => decide (vmin ≤ v ∧ v ≤ vmax)

/-- What `plot_components` adds to the maps (plots.py:46-91). -/
structure Bar where
  maps : Components
  zeros : Option (List ℝ) × Option (List ℝ) × Option (List ℝ)
  levels : List ℝ × List ℝ × List ℝ
  lines : List ℝ
  markers : List (ℝ × ℝ)
  box : Box

/-- The lines of the zero contour on the bar (plots.py:68-69). -/
noncomputable def zeroLines (bar : Panel) : Option (List ℝ) → List ℝ
  | none => []
  | some z => addLines bar.vmin bar.vmax [] z

/-- `plot_components` (plots.py:46-91): the zero contours, the bar, its markers (lines 71-75) and the contours of
`add_contours` (lines 77-78, and plots.py:172-184). `p0` and `p1` are the corners of the last panel, `xlim` are the limits
of the bar's axes. -/
noncomputable def plotComponents (nbins : ℕ) (p0 p1 xlim : ℝ × ℝ) (fr fp fa : Arr2 ℝ) (symmetric : Option Bool := none) :
    Res Bar := do
  let c ← components fr fp fa symmetric
  let absMax ← amax (map1 (fun v => |v|) (fr ++ fp ++ fa))
  let zr ← zeroContour fr symmetric (some absMax)
  let zp ← zeroContour fp symmetric (some absMax)
  let za ← zeroContour fa symmetric (some absMax)
  let mid := (xlim.1 + xlim.2) / 2
  let maxR ← amax fr
  let minR ← amin fr
  let maxP ← amax fp
  let minP ← amin fp
  let maxA ← amax fa
  let minA ← amin fa
  let ticks := tickValues (barLocator nbins) c.bar.vmin c.bar.vmax
  let add := fun before => addLines c.bar.vmin c.bar.vmax before ticks
  pure { maps := c
         zeros := (zr, zp, za)
         levels := (ticks, ticks, ticks)
         lines := add (add (add (zeroLines c.bar za)))
         markers := [(mid, maxR), (mid, minR), (mid, maxP), (mid, minP), (mid, maxA), (mid, minA)]
         box := placeRight p0 p1 }

end Contours
end Verif
