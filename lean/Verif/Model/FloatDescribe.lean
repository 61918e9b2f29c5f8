import Verif.Model.FloatClose
import Verif.Model.FloatFib
import Verif.Model.FloatParker

/-!
# `numerical_description` in double precision (geometry.py:10-28, 58-67, 113-169)

`Model.Geometry` is exact. Here the corners of a grid given by numbers of corners, the areas of its facets and the statistics are computed
on the binary64 numbers of `Py.Arith`. Arrays are flat lists in C order (azimuth first). What `np.cos`, `np.sqrt` of an array, and the
powers `** 2` and `** .5` of numpy's float64 scalars return are parameters, and so is the sum `np.sum` (`S`), whose order of summation
depends on the shape; an array `** 2` is the rounded product and an array `** .5` is `np.sqrt`. The values of the six methods of the
magnetogram at the centres of the facets are parameters. The position of the maximum and the log messages are not modelled.
-/

namespace Verif

/-- The functions used, on floats (geometry.py:63, 134-139, 166-168). -/
structure DescLib where
  /-- `np.cos` -/
  cos : PyFloat → PyFloat
  /-- `np.sqrt` of an entry of an array -/
  sqrt : PyFloat → PyFloat
  /-- `x**2` of a float64 scalar -/
  square : PyFloat → PyFloat
  /-- `x**.5` of a float64 scalar -/
  root : PyFloat → PyFloat

namespace FloatDescribe
open PyFloat

/-- `np.pi` (geometry.py:15). -/
def pi : PyFloat := fin false (884279719003555 / 2 ^ 48)

/-- `2 * np.pi` (geometry.py:16). -/
def twoPi : PyFloat := mul (ofInt 2) pi

/-- `np.linspace(0, b, n)` for a positive float `b`: `arange(0, n) * (b / (n - 1)) + 0`, and then the last entry is `b`; negative `n` raises
ValueError (geometry.py:15-22). -/
def linspace (b : PyFloat) (n : ℤ) : Res (List PyFloat) :=
  if n < 0 then .error .value
  else if n = 0 then .ok []
  else if n = 1 then .ok [add (mul (ofInt 0) b) (fin false 0)]
  else .ok (((List.range (n.toNat - 1)).map fun (i : ℕ) => add (mul (ofInt i) (div b (ofInt (n - 1)))) (fin false 0)) ++ [b])

/-- The larger of two entries for `np.max` and `np.argmax`: the first nan or else the first largest entry wins (geometry.py:25, 129). -/
def larger (x y : PyFloat) : PyFloat :=
  if FloatCoords.isNan x then x else if FloatCoords.isNan y || FloatPfss.lt x y then y else x

/-- The smaller of two entries for `np.min` (geometry.py:25). -/
def smaller (x y : PyFloat) : PyFloat :=
  if FloatCoords.isNan x then x else if FloatCoords.isNan y || FloatPfss.lt y x then y else x

/-- `np.max` (or the entry at `np.argmax`) of an array, ValueError if it is empty (geometry.py:25, 129). -/
def maximum : List PyFloat → Res PyFloat
  | [] => .error .value
  | x :: xs => .ok (xs.foldl larger x)

/-- `np.min` of an array (geometry.py:25). -/
def minimum : List PyFloat → Res PyFloat
  | [] => .error .value
  | x :: xs => .ok (xs.foldl smaller x)

/-- The assertion that the corners go around only once (geometry.py:25-26). -/
def checkOnce (xs : List PyFloat) (b : PyFloat) : Res Unit := do
  let hi ← maximum xs
  let lo ← minimum xs
  resAssert (FloatClose.le (FloatParker.fabs (sub hi lo)) b = true)

/-- The corners of `ZdiGeometry(n, k)`, where each argument is an int or None; only the number of azimuths is not enough (geometry.py:10-28). -/
def corners : Option ℤ → Option ℤ → Res (List PyFloat × List PyFloat)
  | some n, some k => do
    let p ← linspace pi n
    let a ← linspace twoPi k
    checkOnce p pi
    checkOnce a twoPi
    pure (p, a)
  | some n, none => do
    let p ← linspace pi n
    let a ← linspace twoPi (2 * p.length)
    checkOnce p pi
    checkOnce a twoPi
    pure (p, a)
  | none, none => do
    let p ← linspace pi (64 + 1)
    let a ← linspace twoPi (2 * p.length)
    checkOnce p pi
    checkOnce a twoPi
    pure (p, a)
  | none, some _ => .error .type

/-- Neighbouring corners (geometry.py:63-64). -/
def pairs (xs : List PyFloat) : List (PyFloat × PyFloat) := xs.zip xs.tail

/-- `areas` (geometry.py:58-66). -/
def areas (L : DescLib) (P A : List PyFloat) : List PyFloat :=
  (pairs A).flatMap fun a => (pairs P).map fun p => mul (sub (L.cos p.1) (L.cos p.2)) (sub a.2 a.1)

/-- `np.isclose(x, y)` of floats, with the default tolerances, as in `Model.FloatClose` (geometry.py:139). -/
def close (x y : PyFloat) : Bool :=
  FloatClose.le (FloatParker.fabs (sub x y)) (add FloatClose.defaults.atol (mul FloatClose.defaults.rtol (FloatParker.fabs y))) && isFin y
    || FloatClose.eq x y

/-- What `describe` stores: maximum, mean, rms, standard deviation (geometry.py:141-149). -/
structure FStats where
  max : PyFloat
  mean : PyFloat
  rms : PyFloat
  std : PyFloat

/-- `abs_mean` (geometry.py:134). -/
def mean (S : List PyFloat → PyFloat) (areas values : List PyFloat) : PyFloat :=
  div (S ((values.zip areas).map fun x => mul (FloatParker.fabs x.1) x.2)) FloatRange.fourPi

/-- `abs_rms` (geometry.py:135). -/
def rms (L : DescLib) (S : List PyFloat → PyFloat) (areas values : List PyFloat) : PyFloat :=
  L.root (div (S ((values.zip areas).map fun x => mul (mul x.1 x.1) x.2)) FloatRange.fourPi)

/-- `np.abs(values) - abs_mean` of one entry (geometry.py:136). -/
def deviation (m v : PyFloat) : PyFloat := sub (FloatParker.fabs v) m

/-- `abs_std` (geometry.py:136). -/
def std (L : DescLib) (S : List PyFloat → PyFloat) (areas values : List PyFloat) (m : PyFloat) : PyFloat :=
  L.root (div (S ((values.zip areas).map fun x => mul (mul (deviation m x.1) (deviation m x.1)) x.2)) FloatRange.fourPi)

/-- `describe` (geometry.py:126-151). -/
def describe (L : DescLib) (S : List PyFloat → PyFloat) (areas values : List PyFloat) : Res FStats := do
  let hi ← maximum (values.map FloatParker.fabs)
  let m := mean S areas values
  let r := rms L S areas values
  let s := std L S areas values m
  resAssert (close (L.square r) (add (L.square m) (L.square s)) = true)
  pure ⟨hi, m, r, s⟩

/-- The values of the methods in `get_all` at the centres: poloidal and toroidal parts of the radial, polar and azimuthal component
(zdi_magnetogram.py:299-307, geometry.py:160). -/
structure Values where
  radial : List PyFloat × List PyFloat
  polar : List PyFloat × List PyFloat
  azimuthal : List PyFloat × List PyFloat

/-- `accumulated_component`, which starts with zeros (geometry.py:158-162). -/
def accumulated (v : List PyFloat × List PyFloat) : List PyFloat :=
  (v.1.zip v.2).map fun x => add (add (fin false 0) x.1) x.2

/-- One direction of `numerical_description` (geometry.py:157-164). -/
def direction (L : DescLib) (S : List PyFloat → PyFloat) (areas : List PyFloat) (name : String) (v : List PyFloat × List PyFloat) :
    Res (List (String × FStats)) := do
  let p ← describe L S areas v.1
  let t ← describe L S areas v.2
  let s ← describe L S areas (accumulated v)
  pure [(name ++ "-poloidal", p), (name ++ "-toroidal", t), (name, s)]

/-- `accumulated_strength_squared**.5` of one facet (geometry.py:156, 166-168). -/
def strengthAt (L : DescLib) (r p a : PyFloat) : PyFloat :=
  L.sqrt (add (add (add (fin false 0) (mul r r)) (mul p p)) (mul a a))

/-- The field strength at all facets (geometry.py:156, 166-168). -/
def strength (L : DescLib) (r p a : List PyFloat) : List PyFloat :=
  (r.zip (p.zip a)).map fun x => strengthAt L x.1 x.2.1 x.2.2

/-- `numerical_description` (geometry.py:113-170), with what is stored under each name. -/
def numericalDescription (L : DescLib) (S : List PyFloat → PyFloat) (areas : List PyFloat) (v : Values) : Res (List (String × FStats)) := do
  let r ← direction L S areas "radial" v.radial
  let p ← direction L S areas "polar" v.polar
  let a ← direction L S areas "azimuthal" v.azimuthal
  let s ← describe L S areas (strength L (accumulated v.radial) (accumulated v.polar) (accumulated v.azimuthal))
  pure (r ++ p ++ a ++ [("field strength", s)])

end FloatDescribe
end Verif
