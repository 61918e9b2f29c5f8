import Verif.Model.FloatDegree
import Verif.Model.FloatDescribe
import Verif.Model.Plots

/-!
# The colour scale of the figure of energies in double precision (plot_zdi.py:146-175)

`Model.Plots` has these numbers exactly; here they are binary64 numbers. The power `x ** -1` of the C library is a parameter.
-/

namespace Verif
namespace FloatColour
open PyFloat FloatEnergy

/-- `np.allclose(xs, 0)` (plot_zdi.py:161, 166). -/
def zeroAll (xs : List PyFloat) : Bool := xs.all fun x => isClose x (fin false 0)

/-- The entries of an array with the given rows and columns (plot_zdi.py:159-171). -/
def block (rows cols : ℕ) (a : ℕ → ℕ → PyFloat) : List PyFloat :=
  (List.range rows).flatMap fun i => (List.range cols).map fun j => a i j

/-- `remove_negative` (plot_zdi.py:158-162) of a matrix with `2 L + 1` columns. -/
def removeNegative (L : ℕ) (a : ℕ → ℕ → PyFloat) : Res (ℕ → ℕ → PyFloat) := do
  resAssert (zeroAll (block (L + 1) L a) = true)
  pure fun i j => a i (j + L)

/-- `vmin` and `vmax` of the colour scale (plot_zdi.py:166-172); the maximum of no numbers raises ValueError. -/
def colourRange (inv : PyFloat → PyFloat) (xs : List PyFloat) : Res (PyFloat × PyFloat) :=
  if zeroAll xs then .ok (fin false (fl0 (1 / 10)), fin false 1)
  else do
    let vmax ← FloatDescribe.maximum xs
    let top ← FloatDescribe.maximum (xs.filter fun x => FloatPfss.lt (fin false 0) x)
    pure (inv top, vmax)

/-- `_energies[name]` (plot_zdi.py:152-155). -/
def named (name : Plots.Name) (erad epol etor : ℕ → ℕ → PyFloat) : ℕ → ℕ → PyFloat := match name with
  | .total => fun i j => add (epol i j) (etor i j)
  | .radial => erad
  | .poloidal => epol
  | .toroidal => etor

/-- The colour scale of `_plot_energy` (plot_zdi.py:146-175). -/
def plotEnergy (inv : PyFloat → PyFloat) (z : List ERow) (name : Plots.Name) (negativeOrders : Bool) : Res (PyFloat × PyFloat) := do
  let (L, erad, epol, etor) ← FloatMatrix.energyMatrix z
  let energy := named name erad epol etor
  if negativeOrders then colourRange inv (block (L + 1) (2 * L + 1) energy)
  else do
    let e ← removeNegative L energy
    colourRange inv (block (L + 1) (L + 1) e)

end FloatColour
end Verif
