import Verif.Model.Cli
import Verif.Model.FloatPfss

/-!
# The conversion factors in double precision

`Model.Cli` takes the values of the factor functions of converter.py as parameters. Here they are computed as the code does, on
binary64 numbers. What `np.sqrt`, the power -1 of a numpy float and the power of a python float return are parameters. The power
1 that `scale` applies by default leaves a float as it is. The second value of `r_l`, which is not used here and cannot raise
when the first does not, is left out.
-/

namespace Verif

/-- The functions that the factors are computed with (converter.py:97-106, coefficients.py:279, pfss_magnetogram.py:115-119). -/
structure FactorLib where
  /-- `np.sqrt` of a float -/
  sqrt : PyFloat → PyFloat
  /-- `x ** -1` of a numpy float -/
  recip : PyFloat → PyFloat
  /-- `x ** n` of a python float and an int, where an infinite result stands for OverflowError -/
  pow : PyFloat → ℤ → PyFloat

namespace FloatFactors
open PyFloat

/-- `np.sqrt` of a python int: those that fit neither int64 nor uint64 become objects, which have no square root
(converter.py:106). -/
def sqrtInt (L : FactorLib) (n : ℤ) : Res PyFloat :=
  if -2 ^ 63 ≤ n ∧ n < 2 ^ 64 then .ok (L.sqrt (ofInt n)) else .error .type

/-- `forward_conversion_factor` (converter.py:84-113), on floats. -/
def forward (L : FactorLib) (l m : ℤ) : Res PyFloat := do
  let rescaling := L.sqrt (ofInt (-(if m = 0 then 1 else 0) + 2))
  let phase := ofInt (if m % 2 = 0 then 1 else -1)
  let unit := L.sqrt FloatRange.fourPi
  let schmidt ← sqrtInt L (2 * l + 1)
  pure (div schmidt (mul (mul phase rescaling) unit))

/-- The factor of `scale` with the power -1 (coefficients.py:279, converter.py:140). -/
def inverse (L : FactorLib) (l m : ℤ) : Res PyFloat := do
  let x ← forward L l m
  pure (L.recip x)

/-- `x ** n` of python numbers, which raises rather than returning infinity (pfss_magnetogram.py:115-119). -/
def pyPow (L : FactorLib) (x : PyFloat) (n : ℤ) : Res PyFloat :=
  match L.pow x n with
  | inf _ => .error .overflow
  | y => .ok y

/-- `x / y` of python numbers (pfss_magnetogram.py:115-120). -/
def pyDiv (x y : PyFloat) : Res PyFloat :=
  match y with
  | fin _ b => if b = 0 then .error .zeroDiv else .ok (div x y)
  | _ => .ok (div x y)

/-- `_beta_inverse_conversion_factor` (converter.py:128-130 and pfss_magnetogram.py:115-120), on floats. -/
def beta (L : FactorLib) (l : ℤ) : Res PyFloat := do
  let one := ofInt 1
  let a := mul one (← pyPow L (← pyDiv one one) (l + 2))
  let b := sub one (← pyPow L (← pyDiv one (ofInt 3)) (2 * l + 1))
  let e := add (ofInt (l + 1)) (mul (ofInt l) (← pyPow L (← pyDiv one (ofInt 3)) (2 * l + 1)))
  let value ← pyDiv (mul a b) e
  pure (mul value (ofInt (l + 1)))

/-- The factors that the command multiplies with (converter.py:84-113, 128-130, 139-143). -/
def factors (L : FactorLib) : Cli.Factors := ⟨forward L, inverse L, fun l _ => beta L l⟩

end FloatFactors
end Verif
