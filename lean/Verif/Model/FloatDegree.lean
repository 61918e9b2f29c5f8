import Verif.Model.FloatMatrix

/-!
# `plot_energy_by_degree` in double precision (plot_zdi.py:197-238)

`Model.Plots` has the numbers of this figure exactly; here they are binary64 numbers. The order in which `np.sum` adds up is a
parameter; `np.cumsum` adds from the left.
-/

namespace Verif
namespace FloatDegree
open PyFloat FloatEnergy

/-- The entries of an array of shape `(L+1, 2L+1)` (plot_zdi.py:209-215). -/
def flat (L : ℕ) (a : ℕ → ℕ → PyFloat) : List PyFloat :=
  (List.range (L + 1)).flatMap fun i => (List.range (2 * L + 1)).map fun j => a i j

/-- The entries of one row (plot_zdi.py:227, 234). -/
def row (L : ℕ) (a : ℕ → ℕ → PyFloat) (i : ℕ) : List PyFloat := (List.range (2 * L + 1)).map fun j => a i j

/-- `np.cumsum` after the first number (plot_zdi.py:234). -/
def cumFrom (x : PyFloat) : List PyFloat → List PyFloat
  | [] => []
  | y :: ys => add x y :: cumFrom (add x y) ys

/-- `np.cumsum` (plot_zdi.py:234). -/
def cumsum : List PyFloat → List PyFloat
  | [] => []
  | y :: ys => y :: cumFrom y ys

/-- The points of the two curves of one component (plot_zdi.py:225-238): energy and cumulative energy for the degrees from 1. -/
def curve (S : List PyFloat → PyFloat) (L : ℕ) (a : ℕ → ℕ → PyFloat) : List PyFloat × List PyFloat :=
  let y := (List.range (L + 1)).map fun i => S (row L a i)
  (y.drop 1, (cumsum y).drop 1)

/-- The numbers of `plot_energy_by_degree` (plot_zdi.py:197-238): total, poloidal and toroidal curves. -/
def energyByDegree (S : List PyFloat → PyFloat) (z : List ERow) (scaled : Bool) :
    Res ((List PyFloat × List PyFloat) × (List PyFloat × List PyFloat) × (List PyFloat × List PyFloat)) := do
  let (L, erad, epol, etor) ← FloatMatrix.energyMatrix z
  let rest : ℕ → ℕ → PyFloat := fun i j => sub (epol i j) (erad i j)
  let draw (p t : ℕ → ℕ → PyFloat) := (curve S L (fun i j => add (p i j) (t i j)), curve S L p, curve S L t)
  if scaled then
    let e := add (S (flat L epol)) (S (flat L etor))
    let s (a : ℕ → ℕ → PyFloat) : ℕ → ℕ → PyFloat := fun i j => div (a i j) e
    resAssert (isClose (S (flat L fun i j => add (s epol i j) (s etor i j))) (fin false 1) = true)
    resAssert (((List.range (L + 1)).all fun i => (List.range (2 * L + 1)).all fun j =>
      isClose (add (s erad i j) (s rest i j)) (s epol i j)) = true)
    pure (draw (s epol) (s etor))
  else pure (draw epol etor)

end FloatDegree
end Verif
