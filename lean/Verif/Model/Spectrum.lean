import Verif.Model.Plots
import Verif.Py.Text
import Mathlib.Data.Rat.Floor
import Mathlib.Data.List.Sort

/-!
# Model of `plot_spectrum` (plot_lsd.py:49-94)

The spectrum is a table of finite numbers. A panel is its name, the points drawn with their colours, and the limits of
the ordinate. Sizes, opacity, grid lines, the limits of the abscissa and the logarithmic scale of the last panel are not
modelled; the argument `wl_range` is not used by the code.
-/

namespace Verif
namespace Spectrum
open Plots

/-- `data[:, c]` (plot_lsd.py:61, 73-87) -/
def column (rows : List (List ℚ)) (c : ℕ) : Res (List ℚ) := rows.mapM fun r => r[c]?.elim (.error .index) .ok

/-- `np.linspace(0, 1, m)`; negative `m` raises ValueError (plot_lsd.py:62, 78). -/
def linspace01 (m : ℤ) : Res (List ℚ) :=
  if m < 0 then .error .value else .ok ((List.range m.toNat).map fun (k : ℕ) => (k : ℚ) / (m - 1))

/-- `x[id0:id1]` for indices that are not negative (plot_lsd.py:78-84). -/
def slice (x : List ℚ) (p : ℤ × ℤ) : List ℚ := (x.take p.2.toNat).drop p.1.toNat

/-- `np.percentile(x, q)`: linear interpolation at the index `q / 100 * (n - 1)` of the sorted numbers
(plot_lsd.py:73-87). -/
def percentile (x : List ℚ) (q : ℚ) : ℚ :=
  let s := x.mergeSort (· ≤ ·)
  let v := q / 100 * ((x.length : ℚ) - 1)
  let j := ⌊v⌋.toNat
  s.getD j 0 + (v - j) * (s.getD (min (j + 1) (x.length - 1)) 0 - s.getD j 0)

/-- One call of `scatter`: abscissas, ordinates, colours (plot_lsd.py:78-84). -/
structure Scatter where
  x : List ℚ
  y : List ℚ
  colour : List ℚ
  deriving DecidableEq

/-- See plot_lsd.py:73-87. -/
structure Panel where
  name : Text
  scatters : List Scatter
  lim : ℚ × ℚ
  deriving DecidableEq

/-- The body of the inner loop (plot_lsd.py:78-84). -/
def scatter (x y : List ℚ) (p : ℤ × ℤ) : Res Scatter := do
  let c ← linspace01 (p.2 - p.1)
  pure ⟨slice x p, slice y p, c⟩

/-- The body of the outer loop (plot_lsd.py:73-87). -/
def panel (rows : List (List ℚ)) (k : ℕ) (name : Text) : Res Panel := do
  let x ← column rows 0
  let y ← column rows (k + 1)
  let ss ← (wlIntervals x (1 / 5)).mapM (scatter x y)
  pure ⟨name, ss, percentile y 3, percentile y 97⟩

/-- `names` (plot_lsd.py:67-71). -/
def names : List Text := ["normalised flux I/Ic", "circular V", "1st null ", "2nd null ", "error bar"].map String.toList

/-- `plot_spectrum` (plot_lsd.py:49-94). The first loop (lines 61-62) makes the colours only. -/
def plotSpectrum (rows : List (List ℚ)) : Res (List Panel) := do
  let x ← column rows 0
  let _ ← (wlIntervals x (1 / 5)).mapM fun p => linspace01 (p.2 - p.1)
  names.zipIdx.mapM fun n => panel rows n.2 n.1

end Spectrum
end Verif
