import Verif.Model.Plots

/-!
# Model of `plot_energy_matrix` and of what `_plot_energy` draws (plot_zdi.py:132-194)

A panel is the numbers passed to matplotlib. Left out: the locators of the minor ticks, the colour bar.
-/

namespace Verif
namespace EnergyFigure
open Plots

/-- The argument `types`: one string, or a sequence of them (plot_zdi.py:132-143, 134-135). -/
inductive TypesArg
  | one (s : String)
  | many (l : List String)

/-- The image (rows, columns and entries, plot_zdi.py:173-175), the colour scale, the word in the title (line 183), and the
number written at a tick (lines 185-187; where they are not reached matplotlib writes the position). -/
structure Panel where
  rows : ℕ
  cols : ℕ
  image : ℕ → ℕ → ℝ
  scale : ℝ × ℝ
  title : String
  label : ℝ → ℝ

/-- Conversion to `int`: towards zero (plot_zdi.py:146-194). -/
noncomputable def toInt (x : ℝ) : ℤ := if 0 ≤ x then ⌊x⌋ else ⌈x⌉

/-- `_energies[name]` (plot_zdi.py:152-155). -/
def nameOf : String → Res Name
  | "total" => .ok .total
  | "radial" => .ok .radial
  | "poloidal" => .ok .poloidal
  | "toroidal" => .ok .toroidal
  | _ => .error .key

/-- The matrix of that name (plot_zdi.py:146-194). -/
def pick (n : Name) (erad epol etor : ℕ → ℕ → ℝ) : ℕ → ℕ → ℝ :=
  match n with
  | .total => fun i j => epol i j + etor i j
  | .radial => erad
  | .poloidal => epol
  | .toroidal => etor

/-- `_plot_energy` (plot_zdi.py:146-194). -/
noncomputable def panel (z : Zdi) (negative : Bool) (name : String) : Res Panel := do
  let (L, erad, epol, etor) ← Zdi.energyMatrix z
  let n ← nameOf name
  let scale ← plotEnergy z n negative
  let energy := pick n erad epol etor
  let cols := if negative then 2 * L + 1 else L + 1
  pure {
    rows := L + 1
    cols := cols
    image := if negative then energy else fun i j => energy i (j + L)
    scale := scale
    title := name
    label := fun t => if L + 1 ≠ cols then (toInt (t - (cols / 2 : ℕ)) : ℝ) else t }

/-- `types` as a sequence (plot_zdi.py:134-135). -/
def TypesArg.list : TypesArg → List String
  | .one s => [s]
  | .many l => l

/-- The number of axes (plot_zdi.py:136-138): `plt.subplots(1, 0)` raises ValueError. -/
def axesCount (names : List String) : Option ℕ → Res ℕ
  | none => if names.length = 0 then .error .value else .ok names.length
  | some n => .ok n

/-- `plot_energy_matrix` (plot_zdi.py:132-143): `zip` ends with the shorter of the two; without any pass through the loop `ax`
is unbound. -/
noncomputable def plotMatrix (z : Zdi) (types : TypesArg := .one "total") (negative : Bool := false) (axs : Option ℕ := none) :
    Res (List Panel) := do
  let n ← axesCount types.list axs
  let ps ← (types.list.take n).mapM (panel z negative)
  if ps.length = 0 then .error .unbound else .ok ps

end EnergyFigure
end Verif
