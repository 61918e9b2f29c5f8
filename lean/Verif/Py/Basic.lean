import Mathlib.Data.Rat.Defs
import Mathlib.Algebra.Order.Ring.Rat
import Mathlib.Data.Int.Range

/-!
# Python basics shared by all models

Exceptions as values, index arguments, `range`, dictionaries as insertion-ordered association lists and
iteration over a `set` in unspecified order.
-/

namespace Verif

/-- The python exceptions that the modelled code can raise. -/
inductive Err
  | assertion   -- AssertionError (python `assert`; `-O` is not modelled)
  | index       -- IndexError
  | value       -- ValueError
  | type        -- TypeError / numpy UFuncTypeError
  | key         -- KeyError
  | zeroDiv     -- ZeroDivisionError
  | noFile      -- FileNotFoundError
  | notImpl     -- NotImplementedError
  | unbound     -- UnboundLocalError
  | overflow    -- OverflowError
  deriving DecidableEq, Repr

/-- A function call that returns a value or raises. -/
abbrev Res (α : Type) := Except Err α

/-- A method that mutates an object of type `σ`; when it raises, the mutations made so far persist. -/
abbrev Meth (σ α : Type) := EStateM Err σ α

/-- python `assert`. -/
def pyAssert {σ : Type} (p : Prop) [Decidable p] : Meth σ Unit :=
  if p then pure () else throw Err.assertion

/-- python `assert` in a function without mutable state. -/
def resAssert (p : Prop) [Decidable p] : Res Unit :=
  if p then pure () else throw Err.assertion

/-- A dictionary key of `Coefficients.coefficients`: (degree, order), both python ints. -/
abbrev Key := ℤ × ℤ

/-- A degree or order argument: a python int, a numpy integer, or a (finite) float.
NaN and infinities are not modelled. -/
inductive Idx
  | int (z : ℤ)
  | npInt (z : ℤ)
  | flt (q : ℚ)
  deriving DecidableEq, Repr

namespace Idx

/-- The number an index argument stands for. -/
def val : Idx → ℚ
  | int z => z
  | npInt z => z
  | flt q => q

/-- `int(x)`: truncation towards zero. -/
def toInt : Idx → ℤ
  | int z => z
  | npInt z => z
  | flt q => q.num.tdiv q.den

/-- `type(x) == int`. -/
def isPlainInt : Idx → Bool
  | int _ => true
  | _ => false

end Idx

/-- `range(a, b)` as a list. -/
def pyRange (a b : ℤ) : List ℤ := (List.range (b - a).toNat).map fun (i : ℕ) => a + (i : ℤ)

/-- Lexicographic comparison of key tuples, as used by `sorted`. -/
def keyLe (a b : Key) : Bool := decide (a.1 < b.1) || (decide (a.1 = b.1) && decide (a.2 ≤ b.2))

/-- `sorted(keys)`. -/
def sortKeys (ks : List Key) : List Key := ks.mergeSort keyLe

/-- Dictionary lookup `d.get(k)`. -/
def dictGet {β : Type} (d : List (Key × β)) (k : Key) : Option β :=
  match d with
  | [] => none
  | (k', v) :: rest => if k' = k then some v else dictGet rest k

/-- Dictionary store `d[k] = v`: replaces in place or appends at the end (insertion order). -/
def dictSet {β : Type} (d : List (Key × β)) (k : Key) (v : β) : List (Key × β) :=
  match d with
  | [] => [(k, v)]
  | (k', v') :: rest => if k' = k then (k', v) :: rest else (k', v') :: dictSet rest k v

/-- `keys` is one possible iteration order of a python `set` whose elements are those of `elems`. -/
def IsSetIter {κ : Type} (keys elems : List κ) : Prop := keys.Nodup ∧ ∀ k, k ∈ keys ↔ k ∈ elems

end Verif
