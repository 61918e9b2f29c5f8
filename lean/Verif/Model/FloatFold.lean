import Verif.Model.Converter
import Verif.Model.FloatSets
import Verif.Model.FloatAxis
import Verif.Model.FloatFib

/-!
# Folding negative orders in double precision (converter.py:14-81)

`Model.Converter` uses exact numbers. Here the coefficients are complex128 numbers and every operation is rounded; the functions of the C library
and of numpy are parameters. `cmath.polar` and `cmath.rect` follow CPython's `cmathmodule.c`.
-/

namespace Verif
open PyFloat

/-- The functions `map_to_positive_orders` uses (converter.py:23-27, 72-79). -/
structure FoldLib where
  /-- C's `hypot`, the modulus in `cmath.polar` -/
  hypot : PyFloat → PyFloat → PyFloat
  /-- C's `atan2`, the phase in `cmath.polar` -/
  phase : PyFloat → PyFloat → PyFloat
  /-- `np.sin` -/
  sin : PyFloat → PyFloat
  /-- `np.cos` -/
  cos : PyFloat → PyFloat
  /-- `x**2` of a numpy float -/
  square : PyFloat → PyFloat
  /-- `np.sqrt` -/
  sqrt : PyFloat → PyFloat
  /-- `np.arctan2` -/
  atan2 : PyFloat → PyFloat → PyFloat
  /-- C's `sin`, in `cmath.rect` -/
  csin : PyFloat → PyFloat
  /-- C's `cos`, in `cmath.rect` -/
  ccos : PyFloat → PyFloat
  /-- the table of special values of `cmath.rect` where a modulus or an angle is nan or the angle is infinite -/
  special : PyFloat → PyFloat → PyComplex

namespace FloatFold

/-- `cmath.polar` (converter.py:72-73): OverflowError if the modulus of a finite number is too large. -/
def polar (L : FoldLib) (z : PyComplex) : Res (PyFloat × PyFloat) :=
  let r := L.hypot z.1 z.2
  if isFin z.1 && isFin z.2 && !isFin r then .error .overflow else .ok (r, L.phase z.2 z.1)

/-- `collect_cosines` (converter.py:14-29). -/
def collectCosines (L : FoldLib) (r α s β : PyFloat) : PyFloat × PyFloat :=
  let c := add (mul r (L.cos α)) (mul s (L.cos β))
  let d := sub (mul r (L.sin α)) (mul s (L.sin β))
  (L.sqrt (add (L.square c) (L.square d)), L.atan2 d c)

/-- `cmath.rect` (converter.py:79). -/
def rect (L : FoldLib) (t γ : PyFloat) : Res PyComplex :=
  match t, γ with
  | fin s a, fin u b =>
    if b = 0 then .ok (fin s a, mul (fin s a) (fin u b))
    else .ok (mul (fin s a) (L.ccos (fin u b)), mul (fin s a) (L.csin (fin u b)))
  | inf s, fin u b =>
    if b = 0 then .ok (inf s, fin (s != u) b)
    else .ok (inf (s != signBit (L.ccos (fin u b))), inf (s != signBit (L.csin (fin u b))))
  | fin s a, inf u => if a = 0 then .ok (L.special (fin s a) (inf u)) else .error .value
  | inf _, inf _ => .error .value
  | t, γ => .ok (L.special t γ)

/-- The folded coefficient (converter.py:72-79). -/
def foldPair (L : FoldLib) (m : ℤ) (cp cn : PyComplex) : Res PyComplex := do
  let p ← polar L cp
  let n ← polar L cn
  let t := collectCosines L p.1 p.2 (mul (ofInt ((-1) ^ m.toNat)) n.1) n.2
  rect L t.1 t.2

/-- One pass of the loop body of `map_to_positive_orders` for pair `k` (converter.py:61-80). -/
def foldRow (L : FoldLib) (s : Coefs PyComplex) (k : ℤ × ℤ) : Res (Idx × Idx × List PyComplex) :=
  if k.2 = 0 then .ok (Coefs.intRow k (s.getI k))
  else match s.getI k, s.getI (k.1, -k.2) with
    | [cp], [cn] => do
      let c ← foldPair L k.2 cp cn
      pure (Coefs.intRow k [c])
    | _, _ => .error .assertion

/-- `map_to_positive_orders` (converter.py:50-81); as in `Converter.mapToPositiveOrders` the rows come first. -/
def mapToPositiveOrders (L : FoldLib) (s : Coefs PyComplex) : Res (Coefs PyComplex) := do
  let rows ← (Converter.foldKeys s.degreeMax).mapM (foldRow L s)
  Coefs.appendAll s.emptyLike rows

end FloatFold
end Verif
