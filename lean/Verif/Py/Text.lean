import Verif.Py.Basic
import Verif.Py.Float

/-!
# Python text

Text is a list of characters. Universal newlines, `readlines`, `strip`, `split`, `int(...)`, `float(...)` and the
`%d` and `%e` formats.
-/

namespace Verif

abbrev Text := List Char

/-- Which characters are decimal digits. Python accepts every Unicode decimal digit in `int` and `float`; the
table is left open apart from its ASCII part. -/
structure Digits where
  val : Char → Option ℕ
  lt : ∀ c d, val c = some d → d < 10
  ascii : ∀ c : Char, c.toNat < 128 → val c = if 48 ≤ c.toNat ∧ c.toNat ≤ 57 then some (c.toNat - 48) else none

/-- The table with ASCII digits only. -/
def Digits.asciiOnly : Digits where
  val c := if 48 ≤ c.toNat ∧ c.toNat ≤ 57 then some (c.toNat - 48) else none
  lt c d h := by
    split_ifs at h with hc
    simp only [Option.some.injEq] at h
    omega
  ascii _ _ := rfl

/-- `str.isspace` of one character, which is what `strip` and `split` use. -/
def isSpace (c : Char) : Bool :=
  let n := c.toNat
  (9 ≤ n && n ≤ 13) || (28 ≤ n && n ≤ 32) || n = 133 || n = 160 || n = 5760 || (8192 ≤ n && n ≤ 8202)
    || n = 8232 || n = 8233 || n = 8239 || n = 8287 || n = 12288

/-- Universal newline translation done by `open(...)` in text mode. -/
def univNewlines : Text → Text
  | [] => []
  | '\r' :: '\n' :: t => '\n' :: univNewlines t
  | '\r' :: t => '\n' :: univNewlines t
  | c :: t => c :: univNewlines t

/-- `readlines` on translated text: every line keeps its `\n`; a last line without one is kept. -/
def lines : Text → List Text
  | [] => []
  | c :: t =>
    if c = '\n' then [c] :: lines t
    else match lines t with
      | [] => [[c]]
      | l :: ls => (c :: l) :: ls

/-- `str.strip()`. -/
def strip (t : Text) : Text :=
  (((t.dropWhile isSpace).reverse).dropWhile isSpace).reverse

/-- `str.split()`: maximal runs of non-space characters. `cur` is the run being read. -/
def splitGo (cur : Text) : Text → List Text
  | [] => if cur = [] then [] else [cur]
  | c :: t =>
    if isSpace c then (if cur = [] then splitGo [] t else cur :: splitGo [] t)
    else splitGo (cur ++ [c]) t

/-- `str.split()`. -/
def pySplit (t : Text) : List Text := splitGo [] t

section
variable (U : Digits)

/-- A non-empty run of digits in which single underscores may separate digits. -/
def digitRun : Text → Option (List ℕ)
  | [] => none
  | [c] => (U.val c).map fun d => [d]
  | c :: '_' :: t => do
    let d ← U.val c
    let ds ← digitRun t
    pure (d :: ds)
  | c :: t => do
    let d ← U.val c
    let ds ← digitRun t
    pure (d :: ds)

/-- The natural number with the given decimal digits. -/
def natOfDigits (ds : List ℕ) : ℕ := ds.foldl (fun n d => 10 * n + d) 0

/-- Optional sign: `true` for minus. -/
def takeSign : Text → Bool × Text
  | '-' :: t => (true, t)
  | '+' :: t => (false, t)
  | t => (false, t)

/-- `int(token)`; `none` is ValueError. The limit on the number of digits (4300 by default) is not modelled. -/
def parseInt (t : Text) : Option ℤ := do
  let (neg, t) := takeSign t
  let ds ← digitRun U t
  let n := natOfDigits ds
  pure (if neg then -(n : ℤ) else (n : ℤ))

/-- Mantissa of a float: digits, digits with a point, or a point with digits. Returns all digits and the number
of digits after the point. -/
def parseMantissa (t : Text) : Option (List ℕ × ℕ) :=
  let a := t.takeWhile (fun c => c ≠ '.')
  match t.dropWhile (fun c => c ≠ '.') with
  | [] => (digitRun U a).map fun ds => (ds, 0)
  | _ :: [] => (digitRun U a).map fun ds => (ds, 0)
  | _ :: b => do
    let fs ← digitRun U b
    if a = [] then pure (fs, fs.length)
    else
      let ds ← digitRun U a
      pure (ds ++ fs, fs.length)

/-- Is this character `e` or `E`? -/
def isE (c : Char) : Bool := c = 'e' || c = 'E'

/-- Case-insensitive comparison with an ASCII word. -/
def ciEq (t : Text) (w : Text) : Bool := t.map (fun c => if c.toNat < 128 then c.toLower else c) = w

/-- `float(token)`; `none` is ValueError. -/
def parseFloat (t : Text) : Option PyFloat :=
  let (neg, t) := takeSign t
  if ciEq t ['i', 'n', 'f'] || ciEq t ['i', 'n', 'f', 'i', 'n', 'i', 't', 'y'] then some (.inf neg)
  else if ciEq t ['n', 'a', 'n'] then some .nan
  else do
    let (ds, nfrac) ← parseMantissa U (t.takeWhile (fun c => !isE c))
    let e ← match t.dropWhile (fun c => !isE c) with
      | [] => some 0
      | _ :: x => parseInt U x
    pure (.ofMag neg ((natOfDigits ds : ℚ) * 10 ^ (e - nfrac)))

end

/-! ### Formatting -/

/-- The character of a digit. -/
def digitChar (d : ℕ) : Char := Char.ofNat (48 + d)

/-- Exactly `w` decimal digits of `n` (the last ones if there are more). -/
def fixedDigits : ℕ → ℕ → Text
  | 0, _ => []
  | w + 1, n => fixedDigits w (n / 10) ++ [digitChar (n % 10)]

/-- `str(n)` of a natural number. -/
def natText (n : ℕ) : Text :=
  if n < 10 then [digitChar n] else natText (n / 10) ++ [digitChar (n % 10)]
decreasing_by omega

/-- `str(z)` or `'%d' % z`. -/
def intText (z : ℤ) : Text := if z < 0 then '-' :: natText z.natAbs else natText z.natAbs

/-- Pad on the left with spaces to width `w`. -/
def padLeft (w : ℕ) (t : Text) : Text := List.replicate (w - t.length) ' ' ++ t

/-- Exponent field of `%e`: sign and at least two digits. -/
def expText (k : ℤ) : Text :=
  (if k < 0 then '-' else '+') :: (if k.natAbs < 10 then '0' :: natText k.natAbs else natText k.natAbs)

/-- Sign character printed by `%e`. -/
def signText (neg : Bool) : Text := if neg then ['-'] else []

/-- `'%e' % x` (six digits after the point). -/
def fmtE : PyFloat → Text
  | .fin neg q =>
    let (m, k) := dec7 q
    signText neg ++ fixedDigits 1 (m.toNat / 10 ^ 6) ++ ['.'] ++ fixedDigits 6 (m.toNat % 10 ^ 6) ++ ['e']
      ++ expText k
  | .inf neg => signText neg ++ ['i', 'n', 'f']
  | .nan => ['n', 'a', 'n']

end Verif
