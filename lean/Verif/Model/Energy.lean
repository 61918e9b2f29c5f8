import Verif.Model.Zdi

/-!
# Model of the energy methods of zdi_magnetogram.py (lines 358-514)

This is the behaviour with `dest` given; what is printed without (lines 391-403, 431-437, 460-464) is in `Model.EnergyText`.
-/

namespace Verif
namespace Zdi

/-- Which coefficient of a row enters (zdi_magnetogram.py:500-514). -/
inductive Comp
  | alpha
  | beta
  | gamma
  deriving DecidableEq

/-- The array `self.alpha`, `self.beta` or `self.gamma` (zdi_magnetogram.py:500-514). -/
def Comp.of : Comp → ZRow → ℂ
  | alpha, r => r.a
  | beta, r => r.b
  | gamma, r => r.g

/-- One entry of `_energy_helper` before `np.real_if_close` (zdi_magnetogram.py:500-512). -/
noncomputable def energyC (r : ZRow) (c : ℂ) (lTerm : Bool) : ℂ :=
  let m0 : ℂ := if r.m = 0 then 1 else 0
  let e := 0.5 * c * (starRingEnd ℂ) c + m0 * 0.25 * (c ^ 2 + (starRingEnd ℂ) c ^ 2)
  if lTerm then e * (r.l / (r.l + 1)) else e

/-- One entry of `_energy_helper` (zdi_magnetogram.py:500-514): the result is real (see C41), so
`np.real_if_close` drops the imaginary part. -/
noncomputable def energyOf (k : Comp) (r : ZRow) : ℝ := (energyC r (k.of r) (k ≠ .alpha)).re

/-- `np.sum` over the rows selected by `p` (zdi_magnetogram.py:358-466, 382-444, 447-449). -/
noncomputable def sumWhere (p : ZRow → Bool) (f : ZRow → ℝ) (z : Zdi) : ℝ := ((z.filter p).map f).sum

/-- Poloidal energy of a row, `energy_alpha + energy_beta` (zdi_magnetogram.py:358-466, 382-444, 447-449). -/
noncomputable def energyPol (r : ZRow) : ℝ := energyOf .alpha r + energyOf .beta r

/-- `total_energy` (zdi_magnetogram.py:378). -/
noncomputable def totalEnergy (z : Zdi) : ℝ :=
  (z.map (energyOf .alpha)).sum + (z.map (energyOf .beta)).sum + (z.map (energyOf .gamma)).sum

/-- A numpy float division under `errstate(ignore)`: `none` stands for the nan or inf of a zero denominator
(zdi_magnetogram.py:358-466, 382-444, 447-449). -/
noncomputable def npDiv (x y : ℝ) : Option ℝ := open Classical in if y = 0 then none else some (x / y)

/-- The entries `energy` writes into `dest` before the assertion on the axial dipole
(zdi_magnetogram.py:382-444), in order. -/
noncomputable def energyEntries (z : Zdi) : List (String × Option ℝ) :=
  let all : ZRow → Bool := fun _ => true
  let tot := totalEnergy z
  let pol := sumWhere all (energyOf .alpha) z + sumWhere all (energyOf .beta) z
  let tor := sumWhere all (energyOf .gamma) z
  let isL (l : ℤ) : ZRow → Bool := fun r => decide (r.l = l)
  let m0 : ZRow → Bool := fun r => decide (r.m = 0)
  [("magnetogram.total.energy.B2", some tot),
   ("magnetogram.radial.energy.fraction", npDiv (sumWhere all (energyOf .alpha) z) tot),
   ("magnetogram.poloidal.energy.fraction", npDiv pol tot),
   ("magnetogram.toroidal.energy.fraction", npDiv tor tot),
   ("magnetogram.total.energy.dipole.fraction", npDiv (sumWhere (isL 1) energyPol z) pol),
   ("magnetogram.total.energy.quadrupole.fraction", npDiv (sumWhere (isL 2) energyPol z) pol),
   ("magnetogram.total.energy.octopole.fraction", npDiv (sumWhere (isL 3) energyPol z) pol),
   ("magnetogram.total.energy.toroidal.l1.fraction", npDiv (sumWhere (isL 1) (energyOf .gamma) z) tor),
   ("magnetogram.total.energy.toroidal.l2.fraction", npDiv (sumWhere (isL 2) (energyOf .gamma) z) tor),
   ("magnetogram.total.energy.toroidal.l3.fraction", npDiv (sumWhere (isL 3) (energyOf .gamma) z) tor)]
  ++ ((pyRange 1 16).map fun l =>
    ("magnetogram.pol.energy.l" ++ toString l ++ ".fraction", npDiv (sumWhere (isL l) energyPol z) pol))
  ++ ((pyRange 1 16).map fun l =>
    ("magnetogram.tor.energy.l" ++ toString l ++ ".fraction", npDiv (sumWhere (isL l) (energyOf .gamma) z) tor))
  ++ [("magnetogram.total.energy.axisymmetric.fraction",
      npDiv (sumWhere m0 energyPol z + sumWhere m0 (energyOf .gamma) z) tot)]

/-- The entries written after the `allclose` assertion on line 446 (zdi_magnetogram.py:447-449). -/
noncomputable def axisymEntries (z : Zdi) : List (String × Option ℝ) :=
  let all : ZRow → Bool := fun _ => true
  let pol := sumWhere all (energyOf .alpha) z + sumWhere all (energyOf .beta) z
  let tor := sumWhere all (energyOf .gamma) z
  let m0 : ZRow → Bool := fun r => decide (r.m = 0)
  [("magnetogram.total.energy.radial.axisymmetric.fraction", npDiv (sumWhere m0 (energyOf .alpha) z) pol),
   ("magnetogram.total.energy.poloidal.axisymmetric.fraction", npDiv (sumWhere m0 energyPol z) pol),
   ("magnetogram.total.energy.toroidal.axisymmetric.fraction", npDiv (sumWhere m0 (energyOf .gamma) z) tor)]

/-- The rows that are the axial dipole (zdi_magnetogram.py:452). -/
def axialDipole (z : Zdi) : Zdi := z.filter fun r => decide (r.l = 1) && decide (r.m = 0)

/-- Write entries into the destination dictionary (zdi_magnetogram.py:358-466). -/
def writeEntries (es : List (String × Option ℝ)) : Meth (List (String × Option ℝ)) Unit :=
  modify (· ++ es)

/-- `energy` (zdi_magnetogram.py:358-466) with a destination dictionary, kept as the list of stores. -/
noncomputable def energy (z : Zdi) :
    Meth (List (String × Option ℝ)) (List ℝ × List ℝ × List ℝ) := open Classical in do
  let all : ZRow → Bool := fun _ => true
  let pol := sumWhere all (energyOf .alpha) z + sumWhere all (energyOf .beta) z
  let tor := sumWhere all (energyOf .gamma) z
  writeEntries (energyEntries z)
  pyAssert (|totalEnergy z - (pol + tor)| ≤ 1e-8 + 1e-5 * |pol + tor|)
  writeEntries (axisymEntries z)
  let num := (axialDipole z).map energyPol
  let den := sumWhere (fun r => decide (r.l = 1)) energyPol z
  pyAssert (num.length = 1)
  writeEntries [("magnetogram.total.energy.dipole.axisymmetric.fraction", npDiv (num.headD 0) den)]
  pure (z.map (energyOf .alpha), z.map (energyOf .beta), z.map (energyOf .gamma))

/-- `matrix[rows, cols] = values` on a zero matrix: later assignments win (zdi_magnetogram.py:469-498). -/
noncomputable def assignAll (es : List ((ℕ × ℕ) × ℝ)) (i j : ℕ) : ℝ :=
  es.foldl (fun v e => if e.1 = (i, j) then e.2 else v) 0

/-- The index pairs `[degrees_l, orders_m]` into an `(L+1) × (2L+1)` array (zdi_magnetogram.py:469-498). -/
def matrixIndices (L : ℤ) (z : Zdi) : Res (List (ℕ × ℕ)) :=
  z.mapM fun r => do
    let i ← npIndex (L + 1) r.l
    let j ← npIndex (2 * L + 1) r.m
    pure (i, j)

/-- `np.roll(a, L, axis=1)` of an array with `2 L + 1` columns (zdi_magnetogram.py:469-498). -/
def rollCols (L : ℕ) (a : ℕ → ℕ → ℝ) (i j : ℕ) : ℝ := a i ((j + (L + 1)) % (2 * L + 1))

/-- `energy_matrix` (zdi_magnetogram.py:469-498): the degree `L` (the shape is `(L+1, 2L+1)`) and the radial,
poloidal and toroidal matrices. A negative degree raises ValueError (`np.zeros` of a negative shape; for
`L = -1` the shape is `(0, -1)`). -/
noncomputable def energyMatrix (z : Zdi) : Res (ℕ × (ℕ → ℕ → ℝ) × (ℕ → ℕ → ℝ) × (ℕ → ℕ → ℝ)) := do
  let L ← z.degree
  if L < 0 then throw .value
  let idx ← matrixIndices L z
  let mat (f : ZRow → ℝ) := rollCols L.toNat (assignAll (idx.zip (z.map f)))
  pure (L.toNat, mat (energyOf .alpha), mat energyPol, mat (energyOf .gamma))

end Zdi
end Verif
