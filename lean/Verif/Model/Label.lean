import Verif.Py.Text

/-!
# Model of latex_float (plots.py:209-215)

The function is modelled with its default pattern `{0:+.3g}`, the only one in use (plots.py:200, 203).
-/

namespace Verif
namespace Label

/-- Significand with three digits and exponent of the decimal nearest to `q` (`0 ≤ q`): `q ≈ m * 10^(k-2)`
(plots.py:209-210). -/
def dec3 (q : ℚ) : ℤ × ℤ :=
  let k := Int.log 10 q
  let m := rhe (q / 10 ^ (k - 2))
  if m = 10 ^ 3 then (10 ^ 2, k + 1) else (m, k)

/-- Drop trailing zeros (plots.py:209-210). -/
def stripZeros (t : Text) : Text := (t.reverse.dropWhile fun c => c = '0').reverse

/-- The digits after the point as the `g` format shows them: without trailing zeros, and without the point if nothing
is left (plots.py:209-210). -/
def frac (t : Text) : Text := if stripZeros t = [] then [] else '.' :: stripZeros t

/-- The sign as shown by `+` in the format (plots.py:209-210). -/
def sign (neg : Bool) : Char := if neg then '-' else '+'

/-- `"{0:+.3g}".format(x)`: the exponent `k` of the rounded value selects fixed (`-4 ≤ k < 3`) or scientific notation
(plots.py:209-210). -/
def fmtG : PyFloat → Text
  | .fin neg q =>
    let (m, k) := dec3 q
    if -4 ≤ k ∧ k < 3 then
      let w := (2 - k).toNat
      sign neg :: (natText (m.toNat / 10 ^ w) ++ frac (fixedDigits w (m.toNat % 10 ^ w)))
    else sign neg :: (natText (m.toNat / 10 ^ 2) ++ frac (fixedDigits 2 (m.toNat % 10 ^ 2)) ++ 'e' :: expText k)
  | .inf neg => [sign neg, 'i', 'n', 'f']
  | .nan => ['+', 'n', 'a', 'n']

/-- `t.split(c)` with a separator of one character (plots.py:212, plot_magnetogram.py:56). -/
def splitSep (c : Char) : Text → List Text
  | [] => [[]]
  | x :: t =>
    if x = c then [] :: splitSep c t
    else match splitSep c t with
      | [] => [[x]]
      | s :: ss => (x :: s) :: ss

/-- `latex_float` (plots.py:209-215). Unpacking a split with other than two parts and `int` of another text raise
ValueError. -/
def latexFloat (U : Digits) (x : PyFloat) : Res Text :=
  let t := fmtG x
  if 'e' ∈ t then
    match splitSep 'e' t with
    | [base, exponent] =>
      match parseInt U exponent with
      | some e => .ok (base ++ [' ', '\\', 't', 'i', 'm', 'e', 's', ' ', '1', '0', '^', '{'] ++ intText e ++ ['}'])
      | none => .error .value
    | _ => .error .value
  else .ok t

end Label
end Verif
