import Verif.Model.Label
import Verif.Model.FloatRange

/-!
# Model of the report that `energy` prints (zdi_magnetogram.py:358-466 with `dest=None`)

`Model.Energy` is the behaviour with a destination. Here the sums that numpy makes of the energies are given, as numbers of
the binary64 model, and everything that follows is computed as the code does: the quotients under `errstate(ignore)`, and
the text of the lines. Standard output is the list of lines printed.
-/

namespace Verif
namespace EnergyText
open PyFloat

/-- `f"{x:5.1%}"`: the number times 100, one digit after the point, a percent sign, filled up on the left to five characters
(zdi_magnetogram.py:372, 400-402, 432-437, 461-464). -/
def percent (x : PyFloat) : Text :=
  padLeft 5 (match mul x (fin false 100) with
    | fin neg q => signText neg ++ natText ((rhe (q * 10)).toNat / 10) ++ ['.', digitChar ((rhe (q * 10)).toNat % 10), '%']
    | inf neg => signText neg ++ ['i', 'n', 'f', '%']
    | nan => ['n', 'a', 'n', '%'])

/-- `f"{x:.3g}"`: as with the sign shown, without the plus (zdi_magnetogram.py:399). -/
def general (x : PyFloat) : Text :=
  match Label.fmtG x with
  | '+' :: t => t
  | t => t

/-- What numpy computes first (zdi_magnetogram.py:374-376, 407-412, 439-441, 452): the sums of the energies of alpha, beta
and gamma; of the poloidal and of the toroidal energies of degree 1, 2 and 3; of the poloidal and of the toroidal energies of
order 0; the poloidal energies of the rows of degree 1 and order 0; and degree, order and the three energies of every row. -/
structure Sums where
  alpha : PyFloat
  beta : PyFloat
  gamma : PyFloat
  pol1 : PyFloat
  pol2 : PyFloat
  pol3 : PyFloat
  tor1 : PyFloat
  tor2 : PyFloat
  tor3 : PyFloat
  polAxi : PyFloat
  torAxi : PyFloat
  axial : List PyFloat
  rows : List (ℤ × ℤ × PyFloat × PyFloat × PyFloat)

/-- `total_energy_poloidal` (zdi_magnetogram.py:379, 405). -/
def Sums.pol (s : Sums) : PyFloat := add s.alpha s.beta

/-- `total_energy` (zdi_magnetogram.py:378). -/
def Sums.total (s : Sums) : PyFloat := add (add s.alpha s.beta) s.gamma

/-- `print` of some lines (zdi_magnetogram.py:391-403, 431-437, 460-464). -/
def put (ls : List Text) : Meth (List Text) Unit := modify (· ++ ls)

/-- The table of all rows (zdi_magnetogram.py:391-396). -/
def table (s : Sums) : List Text :=
  ["Fraction of magnetic energy in each component. Should sum to 1.".toList,
   "  l    m       E_alpha        E_beta       E_gamma".toList] ++
  s.rows.map fun r => padLeft 3 (intText r.1) ++ "  ".toList ++ padLeft 3 (intText r.2.1) ++ "  ".toList
    ++ fmtE (div r.2.2.1 s.total) ++ "  ".toList ++ fmtE (div r.2.2.2.1 s.total) ++ "  ".toList
    ++ fmtE (div r.2.2.2.2 s.total)

/-- The first block (zdi_magnetogram.py:398-403). -/
def summary (s : Sums) : List Text :=
  ["Total energy: ".toList ++ general s.total ++ " (B^2)".toList,
   "Radial   energy* ".toList ++ percent (div s.alpha s.total),
   "Poloidal energy  ".toList ++ percent (div s.pol s.total),
   "Toroidal energy  ".toList ++ percent (div s.gamma s.total),
   "* The radial energy is part of the poloidal energy.".toList]

/-- The second block (zdi_magnetogram.py:431-437). -/
def degrees (s : Sums) : List Text :=
  ["poloidal l1 (dipole):     ".toList ++ percent (div s.pol1 s.pol) ++ " (% poloidal)".toList,
   "poloidal l2 (quadrupole): ".toList ++ percent (div s.pol2 s.pol) ++ " (% poloidal)".toList,
   "poloidal l3 (octopole):   ".toList ++ percent (div s.pol3 s.pol) ++ " (% poloidal)".toList,
   "toroidal l1: ".toList ++ percent (div s.tor1 s.gamma) ++ " (% toroidal)".toList,
   "toroidal l2: ".toList ++ percent (div s.tor2 s.gamma) ++ " (% toroidal)".toList,
   "toroidal l3: ".toList ++ percent (div s.tor3 s.gamma) ++ " (% toroidal)".toList]

/-- The third block; the last denominator is the sum of line 410 again (zdi_magnetogram.py:453-456, 460-464). -/
def axisymmetric (s : Sums) (axial : PyFloat) : List Text :=
  ["axisymmetric:          ".toList ++ percent (div (add s.polAxi s.torAxi) s.total) ++ " (% total)".toList,
   "poloidal axisymmetric: ".toList ++ percent (div s.polAxi s.pol) ++ " (% poloidal)".toList,
   "toroidal axisymmetric: ".toList ++ percent (div s.torAxi s.gamma) ++ " (% toroidal)".toList,
   "dipole axisymmetric:   ".toList ++ percent (div axial s.pol1) ++ " (% dipole)".toList]

/-- `energy(show_fractions=…)` without destination (zdi_magnetogram.py:358-466). The assert of line 446 compares two numbers
that are computed in the same way. -/
def report (showFractions : Bool) (s : Sums) : Meth (List Text) Unit := do
  if showFractions then put (table s)
  put (summary s)
  put (degrees s)
  pyAssert (isClose s.total (add s.pol s.gamma) = true)
  pyAssert (s.axial.length = 1)
  put (axisymmetric s (s.axial.headD nan))

end EnergyText
end Verif
