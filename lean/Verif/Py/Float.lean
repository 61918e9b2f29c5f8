import Mathlib.Data.Int.Log
import Mathlib.Algebra.Order.Floor.Ring
import Mathlib.Data.Rat.Floor
import Mathlib.Algebra.Order.Round
import Mathlib.Tactic.NormNum
import Mathlib.Tactic.Linarith

/-!
# Python floats

IEEE binary64 values with signed zeros, infinities and nan; rounding of a rational number to the nearest
double (ties to even, gradual underflow, overflow to infinity) and to the nearest decimal with seven
significant digits, as done by `float(text)` and by the `%e` format.
-/

namespace Verif

/-- A python float. `fin neg mag` stands for `mag` or `-mag`; the magnitude of a real float is a double
(`IsDouble`). `fin true 0` is negative zero. -/
inductive PyFloat
  | fin (neg : Bool) (mag : ℚ)
  | inf (neg : Bool)
  | nan
  deriving DecidableEq, Repr

/-- Round half to even. -/
def rhe (q : ℚ) : ℤ :=
  if q - ⌊q⌋ < 1 / 2 then ⌊q⌋
  else if 1 / 2 < q - ⌊q⌋ then ⌊q⌋ + 1
  else if ⌊q⌋ % 2 = 0 then ⌊q⌋ else ⌊q⌋ + 1

/-- The exponent of the last bit of the double nearest to a positive rational `q`. -/
def flExp (q : ℚ) : ℤ := max (Int.log 2 q - 52) (-1074)

/-- Nearest double without upper limit on the exponent. -/
def fl0 (q : ℚ) : ℚ := rhe (q / 2 ^ flExp q) * 2 ^ flExp q

namespace PyFloat

/-- Nearest float of a non-negative rational magnitude with a given sign. -/
def ofMag (neg : Bool) (q : ℚ) : PyFloat :=
  if 2 ^ (1024 : ℤ) ≤ fl0 q then inf neg else fin neg (fl0 q)

/-- `x + 0.0` (`negz = false`) or `x + (-0.0)` (`negz = true`). -/
def addZero (x : PyFloat) (negz : Bool) : PyFloat :=
  match x with
  | fin neg mag => if mag = 0 then fin (neg && negz) 0 else fin neg mag
  | x => x

/-- `real + 1j * imag` for python floats. Up to python 3.13 both operands are first converted to complex,
`1j * imag = (0*imag - 1*0) + (0*0 + 1*imag)j` and `real + z = (real + z.real) + (0 + z.imag)j`;
from 3.14 on (`mixed = true`) `1j * imag = (0*imag) + (1*imag)j` and `real + z = (real + z.real) + (z.imag)j`.
The product `0*imag` is a zero with the sign of `imag`, or nan when `imag` is infinite or nan. -/
def complexOf (mixed : Bool) (re im : PyFloat) : PyFloat × PyFloat :=
  let im' := if mixed then im else (im.addZero false).addZero false
  match im with
  | fin neg _ => (re.addZero neg, im')
  | _ => (nan, im')

end PyFloat

/-- Exponent and seven-digit significand of the decimal nearest to `q` (`0 ≤ q`): `q ≈ m * 10^(k-6)`. -/
def dec7 (q : ℚ) : ℤ × ℤ :=
  let k := Int.log 10 q
  let m := rhe (q / 10 ^ (k - 6))
  if m = 10 ^ 7 then (10 ^ 6, k + 1) else (m, k)

/-- The value of a pair produced by `dec7`. -/
def decVal (mk : ℤ × ℤ) : ℚ := mk.1 * 10 ^ (mk.2 - 6)

end Verif
