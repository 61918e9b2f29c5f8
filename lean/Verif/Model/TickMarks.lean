import Verif.Model.Ticks
import Mathlib.Analysis.SpecialFunctions.Log.Base

/-!
# Model of `auto_symlog_tickmarks` and `fully_manual_tickmarks` (colorbar_manual_tickmarks.py:5-65)

Of the colour bar the model keeps what the functions read: `linthresh`, `vmax` and the map of the norm, and the limits of the
axes. Of matplotlib: `set_ticklabels` after `set_ticks` wants one label for each tick. Exact arithmetic.
-/

namespace Verif
namespace TickMarks
open Ticks

/-- A colour bar (colorbar_manual_tickmarks.py:5-38). -/
structure Bar where
  linthresh : ℝ
  vmax : ℝ
  norm : ℝ → ℝ
  xlim : ℝ × ℝ
  ylim : ℝ × ℝ

/-- The argument `axis` (colorbar_manual_tickmarks.py:5-38). -/
inductive AxisArg
  | x | y | other
  deriving DecidableEq

/-- The axis that is given ticks, its major ticks with their labels, its minor ticks
(colorbar_manual_tickmarks.py:56-65). -/
structure Marks where
  vertical : Bool
  major : List (ℝ × Text)
  minor : List ℝ

/-- `int(np.floor(np.log10(x)))`: ValueError for negative `x` (nan), OverflowError for 0 (here ValueError as well)
(colorbar_manual_tickmarks.py:5-38). -/
noncomputable def decade (x : ℝ) : Res ℤ := open Classical in if 0 < x then .ok ⌊Real.logb 10 x⌋ else .error .value

/-- `xrange * norm(v) + xmin` (colorbar_manual_tickmarks.py:51-56, 60). -/
noncomputable def position (lim : ℝ × ℝ) (norm : ℝ → ℝ) (v : ℚ) : ℝ := (lim.2 - lim.1) * norm v + lim.1

/-- `fully_manual_tickmarks` (colorbar_manual_tickmarks.py:41-65): whichever axis is passed, the limits are those of `x`. -/
noncomputable def fullyManual (vertical : Bool) (b : Bar) (major : List ℚ) (labels : List Text) (minor : List ℚ) : Res Marks :=
  open Classical in
  if major.length = labels.length then .ok {
    vertical := vertical
    major := (major.map (position b.xlim b.norm)).zip labels
    minor := ((minor.map (position b.xlim b.norm)).filter fun t => decide (b.xlim.1 ≤ t)).filter fun t => decide (t ≤ b.xlim.2) }
  else .error .value

/-- `target_axis` (colorbar_manual_tickmarks.py:29-33): whether it is the vertical axis. With another name it is None, and
line 51 raises AttributeError (here TypeError). -/
def target : AxisArg → Res Bool
  | .x => .ok false
  | .y => .ok true
  | .other => .error .type

/-- `auto_symlog_tickmarks` (colorbar_manual_tickmarks.py:5-38). -/
noncomputable def autoSymlog (b : Bar) (step : ℤ := 1) (axis : AxisArg := .x) : Res Marks := do
  let lo ← decade b.linthresh
  let hi ← decade b.vmax
  let vertical ← target axis
  fullyManual vertical b (generateMajor lo hi step).1 (generateMajor lo hi step).2 (generateMinor lo hi step)

end TickMarks
end Verif
