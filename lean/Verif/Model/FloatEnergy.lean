import Verif.Model.FloatAxis
import Verif.Model.EnergyText

/-!
# The energies in double precision (zdi_magnetogram.py:358-466, 500-514)

`Model.Energy` uses exact numbers, `Model.EnergyText` starts from the sums. Here the coefficients are pairs of binary64 numbers
and the energies are computed as numpy does: every operation is rounded (no fused multiply-add), real factors are first made
complex. The order in which `np.sum` adds up its terms is a parameter. When `np.real_if_close` keeps the complex numbers
`energy` goes on with them; that is in `Model.FloatReport`.
-/

namespace Verif
namespace FloatEnergy
open PyFloat EnergyText

/-- One coefficient of a magnetogram: degree, order, `alpha`, `beta`, `gamma` (zdi_magnetogram.py:37-66). -/
structure ERow where
  l : ℤ
  m : ℤ
  a : PyFloat × PyFloat
  b : PyFloat × PyFloat
  g : PyFloat × PyFloat

/-- `np.conj` (zdi_magnetogram.py:506-507). -/
def conj (z : PyFloat × PyFloat) : PyFloat × PyFloat := (z.1, neg z.2)

/-- `z ** 2`, for which numpy calls `np.square` (zdi_magnetogram.py:507). -/
def square (z : PyFloat × PyFloat) : PyFloat × PyFloat :=
  (sub (mul z.1 z.1) (mul z.2 z.2), add (mul z.1 z.2) (mul z.2 z.1))

/-- `Es` of one coefficient (zdi_magnetogram.py:506). -/
def plain (c : PyFloat × PyFloat) : PyFloat × PyFloat := cmul (cmul (fin false (1 / 2), fin false 0) c) (conj c)

/-- `M0s` of one coefficient (zdi_magnetogram.py:503-504, 507). -/
def zonal (m : ℤ) (c : PyFloat × PyFloat) : PyFloat × PyFloat :=
  cmul (cmul (fin false (if m = 0 then 1 else 0), fin false 0) (fin false (1 / 4), fin false 0))
    (cadd (square c) (square (conj c)))

/-- One entry of `_energy_helper` before `np.real_if_close` (zdi_magnetogram.py:500-512). -/
def energyC (l m : ℤ) (c : PyFloat × PyFloat) (lTerm : Bool) : PyFloat × PyFloat :=
  let e := cadd (plain c) (zonal m c)
  if lTerm then cmul e (div (ofInt l) (ofInt (l + 1)), fin false 0) else e

/-- `np.abs(x) < 100 * eps` (`np.real_if_close`, zdi_magnetogram.py:514). -/
def small : PyFloat → Bool
  | fin _ a => decide (a < 100 / 2 ^ 52)
  | _ => false

/-- `np.real_if_close`: `none` when the complex numbers are kept (zdi_magnetogram.py:514). -/
def realIfClose (zs : List (PyFloat × PyFloat)) : Option (List PyFloat) :=
  if zs.all fun z => small z.2 then some (zs.map Prod.fst) else none

/-- `_energy_helper` (zdi_magnetogram.py:500-514). -/
def helper (z : List ERow) (k : ERow → PyFloat × PyFloat) (lTerm : Bool) : Option (List PyFloat) :=
  realIfClose (z.map fun r => energyC r.l r.m (k r) lTerm)

/-- The entries of an array at the rows selected by a mask (zdi_magnetogram.py:407-412, 424-428, 439-441, 452). -/
def pick (p : ERow → Bool) (z : List ERow) (es : List PyFloat) : List PyFloat :=
  ((z.zip es).filter fun x => p x.1).map Prod.snd

/-- `energy_alpha + energy_beta` (zdi_magnetogram.py:407-409, 425, 440, 452-453). -/
def both (ea eb : List PyFloat) : List PyFloat := List.zipWith add ea eb

/-- The sums that `energy` makes and its report shows (zdi_magnetogram.py:374-379, 405-412, 439-441, 452), from the
arrays of energies. -/
def sums (S : List PyFloat → PyFloat) (z : List ERow) (ea eb eg : List PyFloat) : Sums :=
  let isL (l : ℤ) : ERow → Bool := fun r => decide (r.l = l)
  let m0 : ERow → Bool := fun r => decide (r.m = 0)
  { alpha := S ea
    beta := S eb
    gamma := S eg
    pol1 := S (pick (isL 1) z (both ea eb))
    pol2 := S (pick (isL 2) z (both ea eb))
    pol3 := S (pick (isL 3) z (both ea eb))
    tor1 := S (pick (isL 1) z eg)
    tor2 := S (pick (isL 2) z eg)
    tor3 := S (pick (isL 3) z eg)
    polAxi := S (pick m0 z (both ea eb))
    torAxi := S (pick m0 z eg)
    axial := pick (fun r => decide (r.l = 1) && decide (r.m = 0)) z (both ea eb)
    rows := List.zipWith (fun r e => (r.l, r.m, e)) z (List.zip ea (List.zip eb eg)) }

/-- The entries `energy` writes into `dest` before the assertions (zdi_magnetogram.py:382-444), in order. -/
def entries (S : List PyFloat → PyFloat) (z : List ERow) (ea eb eg : List PyFloat) : List (String × PyFloat) :=
  let s := sums S z ea eb eg
  let isL (l : ℤ) : ERow → Bool := fun r => decide (r.l = l)
  [("magnetogram.total.energy.B2", s.total),
   ("magnetogram.radial.energy.fraction", div s.alpha s.total),
   ("magnetogram.poloidal.energy.fraction", div s.pol s.total),
   ("magnetogram.toroidal.energy.fraction", div s.gamma s.total),
   ("magnetogram.total.energy.dipole.fraction", div s.pol1 s.pol),
   ("magnetogram.total.energy.quadrupole.fraction", div s.pol2 s.pol),
   ("magnetogram.total.energy.octopole.fraction", div s.pol3 s.pol),
   ("magnetogram.total.energy.toroidal.l1.fraction", div s.tor1 s.gamma),
   ("magnetogram.total.energy.toroidal.l2.fraction", div s.tor2 s.gamma),
   ("magnetogram.total.energy.toroidal.l3.fraction", div s.tor3 s.gamma)]
  ++ ((pyRange 1 16).map fun l =>
    ("magnetogram.pol.energy.l" ++ toString l ++ ".fraction", div (S (pick (isL l) z (both ea eb))) s.pol))
  ++ ((pyRange 1 16).map fun l =>
    ("magnetogram.tor.energy.l" ++ toString l ++ ".fraction", div (S (pick (isL l) z eg)) s.gamma))
  ++ [("magnetogram.total.energy.axisymmetric.fraction", div (add s.polAxi s.torAxi) s.total)]

/-- The entries written after the assertion on line 446 (zdi_magnetogram.py:447-449). -/
def axisymEntries (S : List PyFloat → PyFloat) (z : List ERow) (ea eb eg : List PyFloat) : List (String × PyFloat) :=
  let s := sums S z ea eb eg
  [("magnetogram.total.energy.radial.axisymmetric.fraction", div (S (pick (fun r => decide (r.m = 0)) z ea)) s.pol),
   ("magnetogram.total.energy.poloidal.axisymmetric.fraction", div s.polAxi s.pol),
   ("magnetogram.total.energy.toroidal.axisymmetric.fraction", div s.torAxi s.gamma)]

/-- `energy` (zdi_magnetogram.py:377-466) with a destination, kept as the list of stores, once the three arrays of energies are
real. The sums on lines 454 and 407 are the same. -/
def energyReal (S : List PyFloat → PyFloat) (z : List ERow) (ea eb eg : List PyFloat) :
    Meth (List (String × PyFloat)) (List PyFloat × List PyFloat × List PyFloat) := do
  let s := sums S z ea eb eg
  modify (· ++ entries S z ea eb eg)
  pyAssert (isClose s.total (add s.pol s.gamma) = true)
  modify (· ++ axisymEntries S z ea eb eg)
  pyAssert (s.axial.length = 1)
  modify (· ++ [("magnetogram.total.energy.dipole.axisymmetric.fraction", div (s.axial.headD (fin false 0)) s.pol1)])
  pure (ea, eb, eg)

/-- The three arrays of energies (zdi_magnetogram.py:374-376); `none` when one of them stays complex. -/
def arrays (z : List ERow) : Option (List PyFloat × List PyFloat × List PyFloat) := do
  let ea ← helper z ERow.a false
  let eb ← helper z ERow.b true
  let eg ← helper z ERow.g true
  pure (ea, eb, eg)

end FloatEnergy
end Verif
