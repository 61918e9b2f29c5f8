import Verif.Model.ReaderWriter
import Verif.Model.FloatRange

/-!
# Arithmetic of coefficient sets in double precision

`Model.Coefficients` leaves the arithmetic of the elements open; the claims C08 to C12 are about exact numbers. Here the
elements are complex128 numbers: pairs of binary64 numbers (`Py.Arith`). A real number that meets a complex128 array is first
given the imaginary part zero, as numpy does. The product is written without fused operations; for the real factors
used here fused operations give the same numbers.
-/

namespace Verif
namespace FloatSets
open PyFloat

/-- A real factor as a complex128 number (coefficients.py:333). -/
def ofReal (x : PyFloat) : PyComplex := (x, fin false 0)

/-- `a + b` (coefficients.py:142, 300-319). -/
def addF (ks : List Key) (a b : Coefs PyComplex) : Res (Coefs PyComplex) := @Coefs.add PyComplex _ ⟨cadd⟩ ks a b

/-- `s * x` with a real number `x` (coefficients.py:146-148, 329-335). -/
def mulF (s : Coefs PyComplex) (x : PyFloat) : Res (Coefs PyComplex) := @Coefs.mulScalar PyComplex _ ⟨cmul⟩ s (ofReal x)

/-- `a - b`: `add(self, multiply(other, -1))` (coefficients.py:144). -/
def subF (ks : List Key) (a b : Coefs PyComplex) : Res (Coefs PyComplex) := do
  let nb ← mulF b (fin true 1)
  addF ks a nb

/-- `value**-1` of a python float; `inv` is the C library's `pow(·, -1)` (coefficients.py:157). Python raises for zero
and when the result is too large. -/
def powNeg (inv : PyFloat → PyFloat) : PyFloat → Res PyFloat
  | nan => .ok nan
  | inf s => .ok (fin s 0)
  | fin s q =>
    if q = 0 then .error .zeroDiv
    else match inv (fin s q) with
      | inf _ => .error .overflow
      | r => .ok r

/-- `s / y` with a python float `y`: `multiply(self, value**-1)` (coefficients.py:157). -/
def divF (inv : PyFloat → PyFloat) (s : Coefs PyComplex) (y : PyFloat) : Res (Coefs PyComplex) := do
  let i ← powNeg inv y
  mulF s i

end FloatSets
end Verif
