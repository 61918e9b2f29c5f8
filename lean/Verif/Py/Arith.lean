import Verif.Py.Float

/-!
# Float arithmetic

Correctly rounded addition and multiplication of `PyFloat`, and the product of complex128 numbers.
-/

namespace Verif
namespace PyFloat

/-- The number a finite float stands for. -/
def num : PyFloat → ℚ
  | fin neg m => if neg then -m else m
  | _ => 0

/-- `x * y`. -/
def mul : PyFloat → PyFloat → PyFloat
  | nan, _ => nan
  | _, nan => nan
  | fin s a, fin t b => ofMag (s != t) (a * b)
  | inf s, inf t => inf (s != t)
  | inf s, fin t b => if b = 0 then nan else inf (s != t)
  | fin s a, inf t => if a = 0 then nan else inf (s != t)

/-- `-x`. -/
def neg : PyFloat → PyFloat
  | fin s a => fin (!s) a
  | inf s => inf (!s)
  | nan => nan

/-- `x + y`. An exact zero sum is positive unless both terms are negative zeros. -/
def add : PyFloat → PyFloat → PyFloat
  | nan, _ => nan
  | _, nan => nan
  | inf s, inf t => if s = t then inf s else nan
  | inf s, fin _ _ => inf s
  | fin _ _, inf t => inf t
  | fin s a, fin t b =>
    let r := (fin s a).num + (fin t b).num
    if r = 0 then fin (s && t) 0 else ofMag (decide (r < 0)) |r|

/-- Product of complex numbers given by real and imaginary part. -/
def cmul (z w : PyFloat × PyFloat) : PyFloat × PyFloat :=
  (add (mul z.1 w.1) (neg (mul z.2 w.2)), add (mul z.1 w.2) (mul z.2 w.1))

end PyFloat
end Verif
