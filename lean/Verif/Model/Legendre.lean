import Verif.Py.Basic
import Verif.Spec.Legendre

/-!
# Model of associated_legendre.py and of the scipy functions it uses

`scipy.special.lpmv` and `lpmn` are taken at their documented meaning (exact values). Arrays of points are
evaluated pointwise; every function here is the value at one point.
-/

namespace Verif

/-- `scipy.special.lpmv(m, l, x)` (pfss_magnetogram.py:24, zdi_magnetogram.py:92). -/
noncomputable def lpmv (m l : ℤ) (x : ℝ) : ℝ := Spec.legendrePZ l m x

/-- `scipy.special.factorial` on integers: 0 for negative arguments (zdi_magnetogram.py:622-623,
pfss_magnetogram.py:27-28). -/
noncomputable def spFactorial (n : ℤ) : ℝ := if n < 0 then 0 else (n.toNat.factorial : ℝ)

/-- Index `i` into a numpy axis of length `size`: negative indices count from the end (associated_legendre.py:27-28). -/
def npIndex (size i : ℤ) : Res ℕ :=
  if 0 ≤ i ∧ i < size then .ok i.toNat
  else if -size ≤ i ∧ i < 0 then .ok (i + size).toNat
  else .error .index

/-- `np.max` of a non-empty integer array (associated_legendre.py:12-13, zdi_magnetogram.py:80). -/
def listMax : List ℤ → Option ℤ
  | [] => none
  | x :: xs => some (xs.foldl max x)

/-- `calculate_lpmn` (associated_legendre.py:5-30) at one polar angle, for the list of (degree, order) pairs.
`np.max` of an empty array raises ValueError (lines 12-13); a negative maximum order or degree makes the
result shapes wrong and `lpmn` refuses `m > n` (ValueError, lines 14-21). The tables are indexed with numpy's
rules for negative indices (lines 27-28). -/
noncomputable def calcLpmn (lm : List (ℤ × ℤ)) (θ : ℝ) : Res (List (ℝ × ℝ)) :=
  match listMax (lm.map Prod.fst), listMax (lm.map Prod.snd) with
  | some L, some M =>
    if M < 0 ∨ L < M then .error .value
    else lm.mapM fun k => do
      let j ← npIndex (M + 1) k.2
      let i ← npIndex (L + 1) k.1
      pure (Spec.legendreP i j (Real.cos θ), deriv (Spec.legendreP i j) (Real.cos θ) * -Real.sin θ)
  | _, _ => .error .value

end Verif
