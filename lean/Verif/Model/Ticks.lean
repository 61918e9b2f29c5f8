import Mathlib.Algebra.Order.Field.Rat
import Mathlib.Algebra.Field.Power
import Mathlib.Data.List.Dedup
import Verif.Py.Text

/-!
# Model of `generate_major`, `generate_minor` and `tesla_to_gauss` (colorbar_manual_tickmarks.py:68-117)

Tick values are exact numbers: the rounding of `10.0 ** e` and the range of int64 (which `9 * 10 ** e` leaves at e = 19)
are not modelled.
-/

namespace Verif
namespace Ticks

/-- `np.arange(a, b, s)` for integers and a positive step (colorbar_manual_tickmarks.py:68-85). -/
def arange (a b s : ℤ) : List ℤ := (List.range ((b - a + s - 1) / s).toNat).map fun (i : ℕ) => a + i * s

/-- `"$10^{%d}$" % e` (colorbar_manual_tickmarks.py:68-85). -/
def posLabel (e : ℤ) : Text := ['$', '1', '0', '^', '{'] ++ intText e ++ ['}', '$']

/-- `"$-10^{%d}$" % e` (colorbar_manual_tickmarks.py:68-85). -/
def negLabel (e : ℤ) : Text := ['$', '-', '1', '0', '^', '{'] ++ intText e ++ ['}', '$']

/-- `generate_major` (colorbar_manual_tickmarks.py:68-85). -/
def generateMajor (lo hi step : ℤ) : List ℚ × List Text :=
  let es := arange lo (hi + 1) step
  ((es.map fun e => -(10 : ℚ) ^ e).reverse ++ [0] ++ es.map fun e => (10 : ℚ) ^ e,
    es.reverse.map negLabel ++ [['0']] ++ es.map posLabel)

/-- `np.unique(np.sort(xs))` (colorbar_manual_tickmarks.py:88-98). -/
def npUniqueSort (xs : List ℚ) : List ℚ := (xs.mergeSort fun a b => decide (a ≤ b)).dedup

/-- `generate_minor` (colorbar_manual_tickmarks.py:88-98); the step is not used. -/
def generateMinor (lo hi _step : ℤ) : List ℚ :=
  npUniqueSort ((pyRange lo (hi + 2)).flatMap fun e =>
    ((List.range 10).map fun (d : ℕ) => (d : ℚ) * 10 ^ (e - 1)) ++ (List.range 10).map fun (d : ℕ) => -(d : ℚ) * 10 ^ (e - 1))

/-- `t.find(c)` (colorbar_manual_tickmarks.py:101-117). -/
def find (c : Char) (t : Text) : ℤ := if c ∈ t then t.idxOf c else -1

/-- `int(t)` of a string: surrounding white space is dropped (colorbar_manual_tickmarks.py:101-117). -/
def intOf (U : Digits) (t : Text) : Res ℤ := (parseInt U (strip t)).elim (.error .value) .ok

/-- `tesla_to_gauss` (colorbar_manual_tickmarks.py:101-117). -/
def teslaToGauss (U : Digits) (t : Text) (shift : ℤ := 4) : Res Text :=
  let p0 := find '{' t + 1
  let p1 := find '}' t
  if p1 < p0 then .ok t
  else do
    let k ← intOf U ((t.take p1.toNat).drop p0.toNat)
    pure (t.take p0.toNat ++ intText (k + shift) ++ t.drop p1.toNat)

end Ticks
end Verif
