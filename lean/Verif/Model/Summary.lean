import Verif.Model.Energy

/-!
# Model of plot_energy_summary (plot_zdi.py:13-127)

Drawing is not modelled; the model gives the shares that matplotlib's `pie` writes on the wedges, as numbers before
rounding to whole percent (first and inner pies) or tenths of a percent, in exact arithmetic. Of `pie` it uses: sizes that
are not numbers or negative raise ValueError; with `normalize=True`, the default from matplotlib 3.5 on, the sizes are
divided by their sum, and a sum of zero gives nan, which raises ValueError; with `normalize=False` the sizes are kept and a
sum above 1 raises ValueError.
-/

namespace Verif
namespace Summary
open Zdi

/-- `ax.pie(x)`: the shares shown (plot_zdi.py:13-127). -/
noncomputable def pie (normalize : Bool) (x : List (Option ℝ)) : Res (List ℝ) := open Classical in do
  let xs ← x.mapM fun v => (v.elim (.error .value) .ok : Res ℝ)
  if ∃ v ∈ xs, v < 0 then throw .value
  if normalize then
    if xs.sum = 0 then throw .value
    pure (xs.map fun v => v / xs.sum)
  else
    if 1 < xs.sum then throw .value
    pure xs

/-- `results[key]`; every key is stored once (plot_zdi.py:13-127). -/
def look (es : List (String × Option ℝ)) (key : String) : Res (Option ℝ) :=
  match es.find? fun e => e.1 = key with
  | some e => .ok e.2
  | none => .error .key

/-- The shares shown in the three panels (plot_zdi.py:25-127). -/
structure Shown where
  /-- Poloidal and toroidal (lines 25-32). -/
  total : List ℝ
  /-- Radial (lines 38-45). -/
  radial : List ℝ
  /-- Axisymmetric (lines 51-58). -/
  axisym : List ℝ
  /-- Dipole, quadrupole, octopole (lines 68-75). -/
  poles : List ℝ
  /-- Axisymmetric part of the poloidal energy (lines 81-88). -/
  polAxisym : List ℝ
  /-- The third panel: degrees 1 to 3 and the axisymmetric part of the toroidal energy (lines 95-119). -/
  toroidal : Option (List ℝ × List ℝ)

/-- `plot_energy_summary` (plot_zdi.py:13-127). -/
noncomputable def energySummary (normalize : Bool) (z : Zdi) : Res Shown := open Classical in do
  let es ← match energy z [] with
    | .ok _ es => .ok es
    | .error e _ => (.error e : Res (List (String × Option ℝ)))
  let fp ← look es "magnetogram.poloidal.energy.fraction"
  let ft ← look es "magnetogram.toroidal.energy.fraction"
  let total ← pie normalize [fp, ft]
  let fr ← look es "magnetogram.radial.energy.fraction"
  let radial ← pie normalize [fr]
  let fa ← look es "magnetogram.total.energy.axisymmetric.fraction"
  let axisym ← pie normalize [fa]
  let f1 ← look es "magnetogram.total.energy.dipole.fraction"
  let f2 ← look es "magnetogram.total.energy.quadrupole.fraction"
  let f3 ← look es "magnetogram.total.energy.octopole.fraction"
  let poles ← pie normalize [f1, f2, f3]
  let fpa ← look es "magnetogram.total.energy.poloidal.axisymmetric.fraction"
  let polAxisym ← pie normalize [fpa]
  if ft = some 0 then pure ⟨total, radial, axisym, poles, polAxisym, none⟩
  else
    let t1 ← look es "magnetogram.total.energy.toroidal.l1.fraction"
    let t2 ← look es "magnetogram.total.energy.toroidal.l2.fraction"
    let t3 ← look es "magnetogram.total.energy.toroidal.l3.fraction"
    let tor ← pie normalize [t1, t2, t3]
    let fta ← look es "magnetogram.total.energy.toroidal.axisymmetric.fraction"
    let torAxisym ← pie normalize [fta]
    pure ⟨total, radial, axisym, poles, polAxisym, some (tor, torAxisym)⟩

end Summary
end Verif
