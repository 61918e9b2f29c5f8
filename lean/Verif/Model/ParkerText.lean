import Verif.Model.Label

/-!
# Model of ParkerSolution.__str__ (parker_solution.py:91-94)

The four parameters are numbers of the binary64 model; what `np.float64` objects would print is the same, since `%G` converts
to a python float first. Array parameters (which `%G` refuses) are not covered.
-/

namespace Verif
namespace ParkerText

/-- Significand with two digits and exponent of the decimal nearest to `q` (`0 ≤ q`): `q ≈ m * 10^(k-1)`
(parker_solution.py:92-93). -/
def dec2 (q : ℚ) : ℤ × ℤ :=
  let k := Int.log 10 q
  let m := rhe (q / 10 ^ (k - 1))
  if m = 10 ^ 2 then (10 ^ 1, k + 1) else (m, k)

/-- `'%.2G' % x`: the exponent `k` of the rounded value selects fixed (`-4 ≤ k < 2`) or scientific notation
(parker_solution.py:92-93). -/
def fmtG : PyFloat → Text
  | .fin neg q =>
    let (m, k) := dec2 q
    if -4 ≤ k ∧ k < 2 then
      let w := (1 - k).toNat
      signText neg ++ (natText (m.toNat / 10 ^ w) ++ Label.frac (fixedDigits w (m.toNat % 10 ^ w)))
    else signText neg ++ (natText (m.toNat / 10 ^ 1) ++ Label.frac (fixedDigits 1 (m.toNat % 10 ^ 1)) ++ 'E' :: expText k)
  | .inf neg => signText neg ++ ['I', 'N', 'F']
  | .nan => ['N', 'A', 'N']

/-- `'%2.2G' % x` (parker_solution.py:92-93). -/
def fmt (x : PyFloat) : Text := padLeft 2 (fmtG x)

/-- The parameters that are shown (parker_solution.py:92-93). -/
structure Params where
  temperature : PyFloat
  baseDensity : PyFloat
  radius : PyFloat
  mass : PyFloat

/-- `ParkerSolution.__str__` (parker_solution.py:91-94). -/
def text (p : Params) : Text :=
  "Parker solution T_c=".toList ++ fmt p.temperature ++ " K, Rho_c=".toList ++ fmt p.baseDensity ++ " kg/m3, ".toList ++
    ("R=".toList ++ fmt p.radius ++ ", M=".toList ++ fmt p.mass ++ ",".toList)

end ParkerText
end Verif
