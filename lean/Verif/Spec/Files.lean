import Verif.Model.ReaderWriter

/-!
# Specification vocabulary for magnetogram files

What a number, a line, a data line and a block are, independently of how the reader splits and parses.
-/

namespace Verif
namespace Spec

/-! ### Number syntax -/

/-- digit (["_"] digit)*, with the list of digit values -/
inductive DigitPart (U : Digits) : Text → List ℕ → Prop
  | one {c : Char} {d : ℕ} : U.val c = some d → DigitPart U [c] [d]
  | cons {c : Char} {d : ℕ} {t : Text} {ds : List ℕ} : U.val c = some d → DigitPart U t ds →
      DigitPart U (c :: t) (d :: ds)
  | under {c : Char} {d : ℕ} {t : Text} {ds : List ℕ} : U.val c = some d → DigitPart U t ds →
      DigitPart U (c :: '_' :: t) (d :: ds)

/-- Positional value of a list of decimal digits. -/
def decimalValue : List ℕ → ℕ
  | [] => 0
  | d :: ds => d * 10 ^ ds.length + decimalValue ds

/-- An optional sign; `true` is minus. -/
inductive Sign : Text → Bool → Prop
  | none : Sign [] false
  | plus : Sign ['+'] false
  | minus : Sign ['-'] true

/-- What `int(...)` accepts, and the value. -/
def IntLit (U : Digits) (t : Text) (z : ℤ) : Prop :=
  ∃ s neg b ds, Sign s neg ∧ DigitPart U b ds ∧ t = s ++ b ∧
    z = if neg then -(decimalValue ds : ℤ) else (decimalValue ds : ℤ)

/-- Digits with an optional point: all digits, and how many of them follow the point. -/
inductive Mantissa (U : Digits) : Text → List ℕ → ℕ → Prop
  | int {a : Text} {ds : List ℕ} : DigitPart U a ds → Mantissa U a ds 0
  | point {a : Text} {ds : List ℕ} : DigitPart U a ds → Mantissa U (a ++ ['.']) ds 0
  | frac {b : Text} {fs : List ℕ} : DigitPart U b fs → Mantissa U ('.' :: b) fs fs.length
  | both {a b : Text} {ds fs : List ℕ} : DigitPart U a ds → DigitPart U b fs →
      Mantissa U (a ++ '.' :: b) (ds ++ fs) fs.length

/-- Optional exponent. -/
inductive Exponent (U : Digits) : Text → ℤ → Prop
  | none : Exponent U [] 0
  | some {c : Char} {t : Text} {e : ℤ} : c = 'e' ∨ c = 'E' → IntLit U t e → Exponent U (c :: t) e

/-- Equal up to the case of ASCII letters. -/
def SameWord (t w : Text) : Prop :=
  List.Forall₂ (fun c x => c = x ∨ (c.toNat + 32 = x.toNat ∧ 65 ≤ c.toNat ∧ c.toNat ≤ 90)) t w

/-- What `float(...)` accepts, and the value (correctly rounded). -/
inductive FloatLit (U : Digits) : Text → PyFloat → Prop
  | num {s m x : Text} {neg : Bool} {ds : List ℕ} {nf : ℕ} {e : ℤ} :
      Sign s neg → Mantissa U m ds nf → Exponent U x e →
      FloatLit U (s ++ m ++ x) (.ofMag neg ((decimalValue ds : ℚ) * 10 ^ (e - nf)))
  | inf {s w : Text} {neg : Bool} : Sign s neg →
      SameWord w ['i', 'n', 'f'] ∨ SameWord w ['i', 'n', 'f', 'i', 'n', 'i', 't', 'y'] →
      FloatLit U (s ++ w) (.inf neg)
  | nan {s w : Text} {neg : Bool} : Sign s neg → SameWord w ['n', 'a', 'n'] → FloatLit U (s ++ w) .nan

/-! ### Lines -/

/-- White space only. -/
def Blank (t : Text) : Prop := ∀ c ∈ t, isSpace c = true

/-- A token: not empty, no white space. -/
def Token (t : Text) : Prop := t ≠ [] ∧ ∀ c ∈ t, isSpace c = false

/-- End of the line, or white space follows. -/
def Sep (t : Text) : Prop := t = [] ∨ ∃ c r, t = c :: r ∧ isSpace c = true

/-- A line whose first four tokens are `t0 t1 t2 t3`. -/
def FourTokens (line t0 t1 t2 t3 : Text) : Prop :=
  ∃ w0 w1 w2 w3 rest, Blank w0 ∧ Blank w1 ∧ Blank w2 ∧ Blank w3 ∧ w1 ≠ [] ∧ w2 ≠ [] ∧ w3 ≠ [] ∧
    Token t0 ∧ Token t1 ∧ Token t2 ∧ Token t3 ∧ Sep rest ∧
    line = w0 ++ (t0 ++ (w1 ++ (t1 ++ (w2 ++ (t2 ++ (w3 ++ (t3 ++ rest)))))))

/-- A record: degree, order, real and imaginary part. -/
abbrev Rec := ℤ × ℤ × PyFloat × PyFloat

/-- A data line: its first four tokens are int, int, float, float. -/
def DataLine (U : Digits) (line : Text) (r : Rec) : Prop :=
  ∃ t0 t1 t2 t3, FourTokens line t0 t1 t2 t3 ∧ IntLit U t0 r.1 ∧ IntLit U t1 r.2.1 ∧
    FloatLit U t2 r.2.2.1 ∧ FloatLit U t3 r.2.2.2

/-- No line break inside. -/
def NoBreak (t : Text) : Prop := ∀ c ∈ t, c ≠ '\n' ∧ c ≠ '\r'

/-- A line end: `\n`, `\r` or `\r\n`. -/
def Newline (t : Text) : Prop := t = ['\n'] ∨ t = ['\r'] ∨ t = ['\r', '\n']

/-- `ls` are the lines of the text, for some reading of its line ends. -/
inductive Lines : Text → List Text → Prop
  | last {l : Text} : NoBreak l → Lines l [l]
  | cons {l nl t : Text} {ls : List Text} : NoBreak l → Newline nl → Lines t ls → Lines (l ++ nl ++ t) (l :: ls)

/-- The data lines among `ls` hold the records `rs`, in order. -/
inductive Records (U : Digits) : List Text → List Rec → Prop
  | nil : Records U [] []
  | skip {l : Text} {ls : List Text} {rs : List Rec} : (∀ r, ¬ DataLine U l r) → Records U ls rs →
      Records U (l :: ls) rs
  | data {l : Text} {ls : List Text} {r : Rec} {rs : List Rec} : DataLine U l r → Records U ls rs →
      Records U (l :: ls) (r :: rs)

/-- The file holds the records `rs`. -/
def FileRecords (U : Digits) (text : Text) (rs : List Rec) : Prop := ∃ ls, Lines text ls ∧ Records U ls rs

/-- Where a line may start / end. -/
def AtLineStart (a : Text) : Prop := a = [] ∨ ∃ a' c, a = a' ++ [c] ∧ (c = '\n' ∨ c = '\r')
def AtLineEnd (b : Text) : Prop := b = [] ∨ ∃ c b', b = c :: b' ∧ (c = '\n' ∨ c = '\r')

/-- Files that differ only in things a reader should not care about. -/
inductive SameFile (U : Digits) : Text → Text → Prop
  | refl (t : Text) : SameFile U t t
  | symm {t t' : Text} : SameFile U t t' → SameFile U t' t
  | trans {t t' t'' : Text} : SameFile U t t' → SameFile U t' t'' → SameFile U t t''
  /-- an extra line that is not a data line -/
  | junk {a line nl b : Text} : AtLineStart a → NoBreak line → (∀ r, ¬ DataLine U line r) → Newline nl →
      SameFile U (a ++ (line ++ nl ++ b)) (a ++ b)
  /-- ... at the end of the file without a line end -/
  | junkLast {a line : Text} : AtLineStart a → NoBreak line → (∀ r, ¬ DataLine U line r) → SameFile U (a ++ line) a
  /-- another style of line end -/
  | newline {a nl nl' b : Text} : Newline nl → Newline nl' → SameFile U (a ++ nl ++ b) (a ++ nl' ++ b)
  /-- a missing line end at the end of the file -/
  | newlineLast {a nl : Text} : Newline nl → SameFile U (a ++ nl) a
  /-- different white space around the first four tokens, different text after them -/
  | layout {a line line' b t0 t1 t2 t3 : Text} : AtLineStart a → AtLineEnd b → NoBreak line → NoBreak line' →
      FourTokens line t0 t1 t2 t3 → FourTokens line' t0 t1 t2 t3 → SameFile U (a ++ line ++ b) (a ++ line' ++ b)

/-! ### Numbers in written files -/

/-- The number a finite float stands for. -/
def value : PyFloat → ℚ
  | .fin neg m => if neg then -m else m
  | _ => 0

/-- A finite binary64 number. -/
def IsFinite (x : PyFloat) : Prop :=
  ∃ (neg : Bool) (n : ℕ) (e : ℤ), n < 2 ^ 53 ∧ -1074 ≤ e ∧ e ≤ 971 ∧ x = .fin neg (n * 2 ^ e)

/-- A decimal with at most seven significant digits. -/
def SevenDigits (d : ℚ) : Prop := ∃ n k : ℤ, |n| < 10 ^ 7 ∧ d = n * 10 ^ k

/-- `y` is the double nearest to the seven-digit decimal nearest to `x`. -/
def Rounded7 (x y : PyFloat) : Prop :=
  IsFinite x ∧ IsFinite y ∧ ∃ d : ℚ, SevenDigits d ∧
    (∀ d', SevenDigits d' → |d - value x| ≤ |d' - value x|) ∧
    (∀ y', IsFinite y' → |value y - d| ≤ |value y' - d|) ∧
    |d - value x| ≤ 5 / 10 ^ 7 * |value x| ∧ |value y - value x| ≤ 1 / 10 ^ 6 * |value x|

/-- The pairs a file with the given limits covers. -/
def InWindow (degreeMax orderMin l m : ℤ) : Prop := 0 ≤ l ∧ l ≤ degreeMax ∧ |m| ≤ l ∧ orderMin ≤ m

/-- The (degree, order) pair of a record. -/
abbrev recKey (r : Rec) : ℤ × ℤ := (r.1, r.2.1)

/-- Every block after the first starts with a pair of the preceding block. -/
def Linked : List (List Rec) → Prop
  | b :: b' :: bs => (∃ r ∈ b'.head?, recKey r ∈ b.map recKey) ∧ Linked (b' :: bs)
  | _ => True

end Spec
end Verif
