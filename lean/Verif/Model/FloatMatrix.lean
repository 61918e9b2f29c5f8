import Verif.Model.FloatEnergy
import Verif.Model.Energy

/-!
# The matrix of energies in double precision (zdi_magnetogram.py:469-514)

`Model.Energy` has `energy_matrix` with exact numbers. Here the energies are those of `Model.FloatEnergy`. The three arrays may
stay complex (`np.real_if_close`); storing complex numbers in an array of floats keeps the real parts (numpy gives a
ComplexWarning, which is not modelled).
-/

namespace Verif
namespace FloatMatrix
open PyFloat FloatEnergy

/-- What `_energy_helper` returns: floats or complex numbers (zdi_magnetogram.py:514). -/
inductive Arr where
  | real (xs : List PyFloat)
  | cplx (zs : List (PyFloat × PyFloat))

/-- `_energy_helper` (zdi_magnetogram.py:500-514), with the complex numbers it returns when they are not close to real. -/
def energies (z : List ERow) (k : ERow → PyFloat × PyFloat) (lTerm : Bool) : Arr :=
  match helper z k lTerm with
  | some xs => .real xs
  | none => .cplx (z.map fun r => energyC r.l r.m (k r) lTerm)

/-- The array as complex numbers (zdi_magnetogram.py:482). -/
def Arr.toC : Arr → List (PyFloat × PyFloat)
  | .real xs => xs.map fun x => (x, fin false 0)
  | .cplx zs => zs

/-- `energy_alpha + energy_beta` (zdi_magnetogram.py:482). -/
def addArr : Arr → Arr → Arr
  | .real xs, .real ys => .real (List.zipWith add xs ys)
  | a, b => .cplx (List.zipWith cadd a.toC b.toC)

/-- What is stored in an array of floats (zdi_magnetogram.py:490-492). -/
def Arr.stored : Arr → List PyFloat
  | .real xs => xs
  | .cplx zs => zs.map Prod.fst

/-- `matrix[rows, cols] = values` on a zero matrix: later assignments win (zdi_magnetogram.py:486-492). -/
def assign (es : List ((ℕ × ℕ) × PyFloat)) (i j : ℕ) : PyFloat :=
  es.foldl (fun v e => if e.1 = (i, j) then e.2 else v) (fin false 0)

/-- The index pairs `[degrees_l, orders_m]` into an `(L+1) × (2L+1)` array (zdi_magnetogram.py:490-492). -/
def indices (L : ℤ) (z : List ERow) : Res (List (ℕ × ℕ)) :=
  z.mapM fun r => do
    let i ← npIndex (L + 1) r.l
    let j ← npIndex (2 * L + 1) r.m
    pure (i, j)

/-- `np.roll(a, L, axis=1)` of an array with `2 L + 1` columns (zdi_magnetogram.py:496-498). -/
def roll (L : ℕ) (a : ℕ → ℕ → PyFloat) (i j : ℕ) : PyFloat := a i ((j + (L + 1)) % (2 * L + 1))

/-- `degree` (zdi_magnetogram.py:75-80). -/
def degree (z : List ERow) : Res ℤ :=
  match listMax (z.map ERow.l) with
  | some L => .ok L
  | none => .error .value

/-- `energy_matrix` (zdi_magnetogram.py:469-498): the degree `L` (the shape is `(L+1, 2L+1)`) and the radial, poloidal and
toroidal matrices. A negative degree raises ValueError. -/
def energyMatrix (z : List ERow) : Res (ℕ × (ℕ → ℕ → PyFloat) × (ℕ → ℕ → PyFloat) × (ℕ → ℕ → PyFloat)) := do
  let ea := energies z ERow.a false
  let eb := energies z ERow.b true
  let eg := energies z ERow.g true
  let L ← degree z
  if L < 0 then throw .value
  let idx ← indices L z
  let mat (es : Arr) := roll L.toNat (assign (idx.zip es.stored))
  pure (L.toNat, mat ea, mat (addArr ea eb), mat eg)

end FloatMatrix
end Verif
