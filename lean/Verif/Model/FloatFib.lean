import Verif.Model.FloatFactors

/-!
# The points of fibonacci_sphere.py in double precision

`Model.Fibonacci` is exact. Here the same steps are followed on the binary64 numbers of `Py.Arith`. What the functions of
python's `math` module and `pow(y, 2)` return are parameters. The number of points is below 2^53, so that integers are exact as
floats; whether there is memory for the points is not modelled.
-/

namespace Verif

/-- The functions used, on floats (fibonacci_sphere.py:23-32). -/
structure FibLib where
  /-- `math.sqrt` of a number that is not negative -/
  sqrt : PyFloat → PyFloat
  /-- `pow(y, 2)`, where an infinite result stands for OverflowError -/
  square : PyFloat → PyFloat
  /-- `math.cos` -/
  cos : PyFloat → PyFloat
  /-- `math.sin` -/
  sin : PyFloat → PyFloat

namespace PyFloat

/-- `x < 0` (fibonacci_sphere.py:27, 29). -/
def isNeg : PyFloat → Bool
  | fin s a => s && decide (a ≠ 0)
  | inf s => s
  | nan => false

/-- The sign bit (fibonacci_sphere.py:29). -/
def signBit : PyFloat → Bool
  | fin s _ => s
  | inf s => s
  | nan => false

/-- C's `fmod`, which is exact (fibonacci_sphere.py:29). -/
def fmod : PyFloat → PyFloat → PyFloat
  | fin s a, fin _ b => if b = 0 then nan else fin s (a - b * ⌊a / b⌋)
  | fin s a, inf _ => fin s a
  | _, _ => nan

/-- `x % y` of python floats, which has the sign of `y` (fibonacci_sphere.py:29). -/
def pyMod (x y : PyFloat) : Res PyFloat :=
  if neZero y = false then .error .zeroDiv
  else if neZero (fmod x y) = false then .ok (fin (signBit y) 0)
  else if isNeg y = isNeg (fmod x y) then .ok (fmod x y)
  else .ok (add (fmod x y) y)

end PyFloat

namespace FloatFib
open PyFloat

/-- `math.pi` (fibonacci_sphere.py:23). -/
def pi : PyFloat := fin false (884279719003555 / 2 ^ 48)

/-- `math.sqrt`, which refuses negative numbers (fibonacci_sphere.py:23, 27). -/
def mathSqrt (L : FibLib) (x : PyFloat) : Res PyFloat := if isNeg x then .error .value else .ok (L.sqrt x)

/-- `math.cos` and `math.sin`, which refuse infinities (fibonacci_sphere.py:31-32). -/
def mathTrig (f : PyFloat → PyFloat) (x : PyFloat) : Res PyFloat :=
  match x with
  | inf _ => .error .value
  | x => .ok (f x)

/-- `pow(y, 2)` (fibonacci_sphere.py:27). -/
def mathSquare (L : FibLib) (x : PyFloat) : Res PyFloat :=
  match L.square x with
  | inf _ => .error .overflow
  | y => .ok y

/-- The height `y` of point `i` (fibonacci_sphere.py:26). -/
def height (offset : PyFloat) (i : ℕ) : PyFloat :=
  add (sub (mul (ofInt i) offset) (ofInt 1)) (div offset (ofInt 2))

/-- Point `i` (fibonacci_sphere.py:25-34). -/
def point (L : FibLib) (n : ℤ) (rnd offset increment : PyFloat) (i : ℕ) : Res (PyFloat × PyFloat × PyFloat) := do
  let y := height offset i
  let r ← mathSqrt L (sub (ofInt 1) (← mathSquare L y))
  let phi := mul (← pyMod (add (ofInt i) rnd) (ofInt n)) increment
  let x := mul (← mathTrig L.cos phi) r
  let z := mul (← mathTrig L.sin phi) r
  pure (x, y, z)

/-- `fibonacci_sphere` (fibonacci_sphere.py:8-36); `random` is the value drawn by `random.random()`, if `randomize` is set. -/
def sphere (L : FibLib) (n : ℤ) (random : Option PyFloat) : Res (List (PyFloat × PyFloat × PyFloat)) := do
  if n < 0 then throw .value
  let rnd := random.elim (fin false 1) (mul · (ofInt n))
  let offset ← FloatFactors.pyDiv (fin false 2) (ofInt n)
  let increment := mul pi (sub (fin false 3) (← mathSqrt L (fin false 5)))
  (List.range n.toNat).mapM (point L n rnd offset increment)

end FloatFib
end Verif
