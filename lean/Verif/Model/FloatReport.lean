import Verif.Model.FloatMatrix
import Verif.Model.FloatClose

/-!
# `energy` when the energies stay complex (zdi_magnetogram.py:358-466)

`Model.FloatEnergy` and `Model.EnergyText` have `energy` for energies that `np.real_if_close` made real. Here every number may be a
float or complex, as python computes it. Numpy's quotient of complex numbers, its sum of complex numbers, `hypot` and the text of
complex numbers are parameters.
-/

namespace Verif
namespace FloatReport
open PyFloat FloatEnergy FloatMatrix EnergyText

/-- The numpy functions on complex numbers that are left open (zdi_magnetogram.py:377-466). -/
structure CLib where
  /-- `np.sum` of floats -/
  sum : List PyFloat → PyFloat
  /-- `np.sum` of complex numbers -/
  csum : List PyComplex → PyComplex
  /-- `x / y` of complex numbers -/
  cdiv : PyComplex → PyComplex → PyComplex
  /-- `abs` of complex numbers -/
  abs : AbsLib
  /-- `f"{x:e}"` of a complex number -/
  fmtE : PyComplex → Text
  /-- `f"{x:.3g}"` of a complex number -/
  fmtG : PyComplex → Text

/-- A numpy scalar: `float64` or `complex128` (zdi_magnetogram.py:377-466). -/
inductive Num where
  | re (x : PyFloat)
  | cx (z : PyComplex)

/-- The number as `complex128` (zdi_magnetogram.py:377-466). -/
def Num.toC : Num → PyComplex
  | .re x => (x, fin false 0)
  | .cx z => z

/-- `x + y` (zdi_magnetogram.py:378-379, 442, 446). -/
def addN : Num → Num → Num
  | .re x, .re y => .re (add x y)
  | a, b => .cx (cadd a.toC b.toC)

/-- `x / y` (zdi_magnetogram.py:387-389, 416-429, 444-456). -/
def divN (C : CLib) : Num → Num → Num
  | .re x, .re y => .re (div x y)
  | a, b => .cx (C.cdiv a.toC b.toC)

/-- `np.allclose(x, y)` (zdi_magnetogram.py:446). -/
def closeN (C : CLib) : Num → Num → Bool
  | .re x, .re y => isClose x y
  | a, b => FloatClose.close C.abs FloatClose.defaults a.toC b.toC

/-- `np.sum` (zdi_magnetogram.py:378-380, 405-412, 439-441). -/
def sumN (C : CLib) : Arr → Num
  | .real xs => .re (C.sum xs)
  | .cplx zs => .cx (C.csum zs)

/-- The entries of an array at the rows selected by a mask (zdi_magnetogram.py:407-412, 424-428, 439-441, 452). -/
def pickA (p : ERow → Bool) (z : List ERow) : Arr → Arr
  | .real xs => .real (pick p z xs)
  | .cplx zs => .cplx (((z.zip zs).filter fun x => p x.1).map Prod.snd)

/-- The numbers of an array (zdi_magnetogram.py:394-396, 454-456). -/
def nums : Arr → List Num
  | .real xs => xs.map .re
  | .cplx zs => zs.map .cx

/-- `total_energy_poloidal` (zdi_magnetogram.py:379, 405). -/
def pol (C : CLib) (ea eb : Arr) : Num := addN (sumN C ea) (sumN C eb)

/-- `total_energy` (zdi_magnetogram.py:378). -/
def totalN (C : CLib) (ea eb eg : Arr) : Num := addN (addN (sumN C ea) (sumN C eb)) (sumN C eg)

/-- The entries `energy` writes into `dest` before the assertions (zdi_magnetogram.py:382-444), in order. -/
def entriesN (C : CLib) (z : List ERow) (ea eb eg : Arr) : List (String × Num) :=
  let total := totalN C ea eb eg
  let p := pol C ea eb
  let t := sumN C eg
  let polAt (q : ERow → Bool) := sumN C (pickA q z (addArr ea eb))
  let torAt (q : ERow → Bool) := sumN C (pickA q z eg)
  let isL (l : ℤ) : ERow → Bool := fun r => decide (r.l = l)
  let m0 : ERow → Bool := fun r => decide (r.m = 0)
  [("magnetogram.total.energy.B2", total),
   ("magnetogram.radial.energy.fraction", divN C (sumN C ea) total),
   ("magnetogram.poloidal.energy.fraction", divN C p total),
   ("magnetogram.toroidal.energy.fraction", divN C t total),
   ("magnetogram.total.energy.dipole.fraction", divN C (polAt (isL 1)) p),
   ("magnetogram.total.energy.quadrupole.fraction", divN C (polAt (isL 2)) p),
   ("magnetogram.total.energy.octopole.fraction", divN C (polAt (isL 3)) p),
   ("magnetogram.total.energy.toroidal.l1.fraction", divN C (torAt (isL 1)) t),
   ("magnetogram.total.energy.toroidal.l2.fraction", divN C (torAt (isL 2)) t),
   ("magnetogram.total.energy.toroidal.l3.fraction", divN C (torAt (isL 3)) t)]
  ++ ((pyRange 1 16).map fun l => ("magnetogram.pol.energy.l" ++ toString l ++ ".fraction", divN C (polAt (isL l)) p))
  ++ ((pyRange 1 16).map fun l => ("magnetogram.tor.energy.l" ++ toString l ++ ".fraction", divN C (torAt (isL l)) t))
  ++ [("magnetogram.total.energy.axisymmetric.fraction", divN C (addN (polAt m0) (torAt m0)) total)]

/-- The entries written after the assertion on line 446 (zdi_magnetogram.py:447-449). -/
def axisymN (C : CLib) (z : List ERow) (ea eb eg : Arr) : List (String × Num) :=
  let m0 : ERow → Bool := fun r => decide (r.m = 0)
  [("magnetogram.total.energy.radial.axisymmetric.fraction", divN C (sumN C (pickA m0 z ea)) (pol C ea eb)),
   ("magnetogram.total.energy.poloidal.axisymmetric.fraction", divN C (sumN C (pickA m0 z (addArr ea eb))) (pol C ea eb)),
   ("magnetogram.total.energy.toroidal.axisymmetric.fraction", divN C (sumN C (pickA m0 z eg)) (sumN C eg))]

/-- `energy` (zdi_magnetogram.py:358-466) with a destination, kept as the list of stores. -/
def energyAny (C : CLib) (z : List ERow) : Meth (List (String × Num)) (Arr × Arr × Arr) := do
  let ea := energies z ERow.a false
  let eb := energies z ERow.b true
  let eg := energies z ERow.g true
  modify (· ++ entriesN C z ea eb eg)
  pyAssert (closeN C (totalN C ea eb eg) (addN (pol C ea eb) (sumN C eg)) = true)
  modify (· ++ axisymN C z ea eb eg)
  let axial := nums (pickA (fun r => decide (r.l = 1) && decide (r.m = 0)) z (addArr ea eb))
  pyAssert (axial.length = 1)
  modify (· ++ [("magnetogram.total.energy.dipole.axisymmetric.fraction",
    divN C (axial.headD (.re (fin false 0))) (sumN C (pickA (fun r => decide (r.l = 1)) z (addArr ea eb))))])
  pure (ea, eb, eg)

/-- `f"{x:e}"` (zdi_magnetogram.py:396). -/
def textE (C : CLib) : Num → Text
  | .re x => Verif.fmtE x
  | .cx z => C.fmtE z

/-- `f"{x:.3g}"` (zdi_magnetogram.py:399). -/
def textG (C : CLib) : Num → Text
  | .re x => general x
  | .cx z => C.fmtG z

/-- `print(f"…{x:5.1%}")`: a complex number has no `%` format, ValueError (zdi_magnetogram.py:400-402). -/
def putPercent (label : Text) : Num → Meth (List Text) Unit
  | .re x => put [label ++ percent x]
  | .cx _ => throw .value

/-- One row of the table (zdi_magnetogram.py:394-396). -/
def rowText (C : CLib) (total : Num) (r : ERow) (a b g : Num) : Text :=
  padLeft 3 (intText r.l) ++ "  ".toList ++ padLeft 3 (intText r.m) ++ "  ".toList ++ textE C (divN C a total) ++ "  ".toList
    ++ textE C (divN C b total) ++ "  ".toList ++ textE C (divN C g total)

/-- The table of all rows (zdi_magnetogram.py:391-396). -/
def tableN (C : CLib) (z : List ERow) (ea eb eg : Arr) : List Text :=
  ["Fraction of magnetic energy in each component. Should sum to 1.".toList,
   "  l    m       E_alpha        E_beta       E_gamma".toList] ++
  List.zipWith (fun r e => rowText C (totalN C ea eb eg) r e.1 e.2.1 e.2.2) z (List.zip (nums ea) (List.zip (nums eb) (nums eg)))

/-- What `energy(show_fractions=…)` without destination prints first (zdi_magnetogram.py:377-403); what follows is in
`EnergyText.report`. -/
def printHead (C : CLib) (showFractions : Bool) (z : List ERow) : Meth (List Text) Unit := do
  let ea := energies z ERow.a false
  let eb := energies z ERow.b true
  let eg := energies z ERow.g true
  let total := totalN C ea eb eg
  if showFractions then put (tableN C z ea eb eg)
  put ["Total energy: ".toList ++ textG C total ++ " (B^2)".toList]
  putPercent "Radial   energy* ".toList (divN C (sumN C ea) total)
  putPercent "Poloidal energy  ".toList (divN C (pol C ea eb) total)
  putPercent "Toroidal energy  ".toList (divN C (sumN C eg) total)
  put ["* The radial energy is part of the poloidal energy.".toList]

end FloatReport
end Verif
