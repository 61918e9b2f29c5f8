import Verif.Model.Energy

/-!
# Model of the numbers behind some plots (plot_lsd.py, plot_zdi.py)

Drawing is not modelled; the model gives the numbers that are passed to matplotlib.
-/

namespace Verif
namespace Plots

section
variable {K : Type} [Field K] [LinearOrder K]

/-- `np.where(np.abs(np.diff(w)) > threshold)[0]` (plot_lsd.py:39-40). -/
def skips (w : List K) (threshold : K) : List ℕ :=
  (List.range (w.length - 1)).filter fun i => decide (threshold < |w.getD (i + 1) 0 - w.getD i 0|)

/-- `wl_intervals` (plot_lsd.py:32-46). -/
def wlIntervals (w : List K) (threshold : K) : List (ℤ × ℤ) :=
  let s := (skips w threshold).map fun (i : ℕ) => (i : ℤ)
  (0 :: s).zip (s.map (· + 1) ++ [(w.length : ℤ) - 1])

end

/-- The entries of a matrix, row by row (plot_zdi.py:159-175). -/
def entries (rows cols : ℕ) (a : ℕ → ℕ → ℝ) : List ℝ :=
  (List.range rows).flatMap fun i => (List.range cols).map fun j => a i j

/-- The four matrices by name (plot_zdi.py:152-155). -/
inductive Name
  | total
  | radial
  | poloidal
  | toroidal

/-- `remove_negative` (plot_zdi.py:158-162) of a matrix with `2 L + 1` columns. -/
noncomputable def removeNegative (L : ℕ) (a : ℕ → ℕ → ℝ) : Res (ℕ → ℕ → ℝ) := open Classical in
  if ∀ x ∈ entries (L + 1) L a, |x| ≤ 1e-8 then .ok fun i j => a i (j + L) else .error .assertion

/-- `vmin` and `vmax` of the colour scale (plot_zdi.py:167-173); the maximum of no numbers raises ValueError. -/
noncomputable def colourRange (xs : List ℝ) : Res (ℝ × ℝ) := open Classical in
  if ∀ x ∈ xs, |x| ≤ 1e-8 then .ok (0.1, 1)
  else do
    let vmax ← xs.max?.elim (.error .value) .ok
    let top ← (xs.filter fun x => decide (0 < x)).max?.elim (.error .value) .ok
    pure (top⁻¹, vmax)

/-- The numbers of `_plot_energy` (plot_zdi.py:147-173): the matrix, the number of columns and the colour scale. -/
noncomputable def plotEnergy (z : Zdi) (name : Name) (negativeOrders : Bool) : Res (ℝ × ℝ) := do
  let (L, erad, epol, etor) ← Zdi.energyMatrix z
  let energy : ℕ → ℕ → ℝ := match name with
    | .total => fun i j => epol i j + etor i j
    | .radial => erad
    | .poloidal => epol
    | .toroidal => etor
  if negativeOrders then colourRange (entries (L + 1) (2 * L + 1) energy)
  else do
    let e ← removeNegative L energy
    colourRange (entries (L + 1) (L + 1) e)

/-- `np.sum` of a whole matrix with `2 L + 1` columns (plot_zdi.py:197-238). -/
noncomputable def matSum (L : ℕ) (a : ℕ → ℕ → ℝ) : ℝ :=
  ∑ i ∈ Finset.range (L + 1), ∑ j ∈ Finset.range (2 * L + 1), a i j

/-- `np.sum(data, axis=1)` (plot_zdi.py:227, 234). -/
noncomputable def rowSum (L : ℕ) (a : ℕ → ℕ → ℝ) (l : ℕ) : ℝ := ∑ j ∈ Finset.range (2 * L + 1), a l j

/-- The points of the two curves of one component (plot_zdi.py:225-238): degree, energy, cumulative energy, for the
degrees from 1. -/
noncomputable def curve (L : ℕ) (a : ℕ → ℕ → ℝ) : List (ℕ × ℝ × ℝ) :=
  ((List.range (L + 1)).map fun l => (l, rowSum L a l, ∑ i ∈ Finset.range (l + 1), rowSum L a i)).drop 1

/-- The numbers of `plot_energy_by_degree` (plot_zdi.py:197-238): total, poloidal and toroidal curves. Division by a
zero total gives nan, which fails the first assertion. -/
noncomputable def energyByDegree (z : Zdi) (scaled : Bool) :
    Res (List (ℕ × ℝ × ℝ) × List (ℕ × ℝ × ℝ) × List (ℕ × ℝ × ℝ)) := open Classical in do
  let (L, erad, epol, etor) ← Zdi.energyMatrix z
  let rest : ℕ → ℕ → ℝ := fun i j => epol i j - erad i j
  let draw (p t : ℕ → ℕ → ℝ) := (curve L (fun i j => p i j + t i j), curve L p, curve L t)
  if scaled then
    let e := matSum L epol + matSum L etor
    if e = 0 then throw .assertion
    let s (a : ℕ → ℕ → ℝ) : ℕ → ℕ → ℝ := fun i j => a i j / e
    if ¬ |matSum L (fun i j => s epol i j + s etor i j) - 1| ≤ 1e-8 + 1e-5 * 1 then throw .assertion
    if ¬ ∀ i < L + 1, ∀ j < 2 * L + 1, |s erad i j + s rest i j - s epol i j| ≤ 1e-8 + 1e-5 * |s epol i j| then throw .assertion
    pure (draw (s epol) (s etor))
  else pure (draw epol etor)

end Plots
end Verif
