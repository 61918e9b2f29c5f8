import Verif.Model.Elements
import Mathlib.Data.Set.Card

/-!
# Specification vocabulary for the coefficient container

Everything here is phrased through the public interface (`has`, `get`, `size`, `degree_max`, `order_min`,
the default value) and is independent of how the model stores its data.
-/

namespace Verif
namespace Spec

variable {α : Type}

/-- Two sets cannot be told apart by `has`, `get` and the default value. -/
structure Same (a b : Coefs α) : Prop where
  dflt : a.dflt = b.dflt
  dtype : a.dtype = b.dtype
  has : ∀ l m : ℤ, a.has (.int l) (.int m) = b.has (.int l) (.int m)
  get : ∀ l m : ℤ, a.get (.int l) (.int m) = b.get (.int l) (.int m)

/-- Two sets have equal values at every pair (a missing pair counts as the default). -/
def SameValues (a b : Coefs α) : Prop :=
  ∀ l m : ℤ, a.get (.int l) (.int m) = b.get (.int l) (.int m)

/-- The default value is zero in every column. -/
def ZeroDefault [Zero α] (s : Coefs α) : Prop := ∀ x ∈ s.dflt, x = 0

/-- Well-formedness of a coefficient set as seen by a user. -/
structure WellFormed [Elem α] (s : Coefs α) : Prop where
  /-- only pairs with |m| ≤ l are stored -/
  pairs : ∀ l m : ℤ, s.has (.int l) (.int m) = true → |m| ≤ l
  /-- every value returned has the shape and dtype of the default -/
  values : ∀ (l m : ℤ) (v : List α), s.get (.int l) (.int m) = .ok v →
    v.length = s.dflt.length ∧ ∀ x ∈ v, Elem.cast s.dtype x = x
  /-- no pair is stored twice: `size` counts the stored pairs -/
  size : s.size = Set.ncard {k : ℤ × ℤ | s.has (.int k.1) (.int k.2) = true}
  /-- degree_max is the largest stored degree, 0 if there is none -/
  degMaxUpper : ∀ l m : ℤ, s.has (.int l) (.int m) = true → l ≤ s.degreeMax
  degMaxAttained : (s.size = 0 ∧ s.degreeMax = 0) ∨
    ∃ m : ℤ, s.has (.int s.degreeMax) (.int m) = true
  /-- order_min is the lowest of 0 and the stored orders -/
  ordMinLower : ∀ l m : ℤ, s.has (.int l) (.int m) = true → s.orderMin ≤ m
  ordMinNonpos : s.orderMin ≤ 0
  ordMinAttained : s.orderMin = 0 ∨ ∃ l : ℤ, s.has (.int l) (.int s.orderMin) = true

/-! ### Histories of stores -/

/-- A mutating call on a set. -/
inductive Call (α : Type)
  | set (l m : Idx) (data : List α)
  | append (l m : Idx) (data : List α)

namespace Call

/-- The index arguments and data of a call. -/
def deg : Call α → Idx | set l _ _ => l | append l _ _ => l
def ord : Call α → Idx | set _ m _ => m | append _ m _ => m
def data : Call α → List α | set _ _ d => d | append _ _ d => d

/-- Execute the call in the model. -/
def run [Elem α] : Call α → Meth (Coefs α) Unit
  | set l m data => Coefs.set l m data
  | append l m data => Coefs.append l m data

end Call

/-- A caller that performs a list of calls and catches every exception. -/
def runCalls [Elem α] (s : Coefs α) : List (Call α) → Coefs α
  | [] => s
  | c :: cs =>
    match c.run s with
    | .ok _ s' => runCalls s' cs
    | .error _ s' => runCalls s' cs

/-- The abstract state: a partial function from pairs to values. -/
abbrev PMap (α : Type) := ℤ × ℤ → Option (List α)

/-- Which exception a call must raise in abstract state `σ` when arrays have `n` columns. -/
noncomputable def raises (n : ℕ) (σ : PMap α) (c : Call α) : Option Err :=
  open Classical in
  match c with
  | .set l m data => if |m.val| ≤ l.val ∧ data.length = n then none else some .assertion
  | .append l m data =>
    if ∃ k : ℤ × ℤ, (σ k).isSome ∧ (k.1 : ℚ) = l.val ∧ (k.2 : ℚ) = m.val then some .index
    else if |m.val| ≤ l.val ∧ data.length = n then none else some .assertion

/-- Effect of a call on the abstract state: a call that must raise has no effect, any other call
overwrites the entry at the truncated pair. -/
noncomputable def step [Elem α] (n : ℕ) (dt : DType) (σ : PMap α) (c : Call α) : PMap α :=
  match raises n σ c with
  | some _ => σ
  | none => Function.update σ (c.deg.toInt, c.ord.toInt) (some (c.data.map (Elem.cast dt)))

/-- Effect of a history. -/
noncomputable def run [Elem α] (n : ℕ) (dt : DType) (σ : PMap α) : List (Call α) → PMap α
  | [] => σ
  | c :: cs => run n dt (step n dt σ c) cs

/-! ### Sets reachable through the public interface -/

/-- Sets that a program can build with the public operations. A constructor argument is an array, so its
elements are values of its dtype; whenever a python `set` is iterated, every order is allowed. -/
inductive Reach [Field α] [DecidableEq α] [ElemField α] : Coefs α → Prop
  | new (d : List α) (dt : DType) : (∀ x ∈ d, Elem.cast dt x = x) → Reach (Coefs.new d dt)
  | set {s s' : Coefs α} (l m : Idx) (data : List α) : Reach s → Coefs.set l m data s = .ok () s' → Reach s'
  | setFail {s s' : Coefs α} (l m : Idx) (data : List α) (e : Err) : Reach s →
      Coefs.set l m data s = .error e s' → Reach s'
  | append {s s' : Coefs α} (l m : Idx) (data : List α) : Reach s →
      Coefs.append l m data s = .ok () s' → Reach s'
  | appendFail {s s' : Coefs α} (l m : Idx) (data : List α) (e : Err) : Reach s →
      Coefs.append l m data s = .error e s' → Reach s'
  | emptyLike {s : Coefs α} : Reach s → Reach s.emptyLike
  | copy {s s' : Coefs α} : Reach s → Coefs.copy s = .ok s' → Reach s'
  | zerosLike {s s' : Coefs α} : Reach s → Coefs.zerosLike s = .ok s' → Reach s'
  | truncated {s s' : Coefs α} (n : ℤ) : Reach s → Coefs.truncated s n = .ok s' → Reach s'
  | scale {s s' : Coefs α} (f : ℤ → ℤ → α) (p : ℤ) (fdt : DType) : Reach s →
      Coefs.scale s f p fdt = .ok s' → Reach s'
  | add {a b s' : Coefs α} (ks : List Key) : Reach a → Reach b → IsSetIter ks (a.keys ++ b.keys) →
      Coefs.add ks a b = .ok s' → Reach s'
  | sub {a b s' : Coefs α} (ks : List Key) : Reach a → Reach b → IsSetIter ks (a.keys ++ b.keys) →
      Coefs.sub ks a b = .ok s' → Reach s'
  | mulArray {s s' : Coefs α} (xs : List α) : Reach s → Coefs.mulArray s xs = .ok s' → Reach s'
  | mulScalar {s s' : Coefs α} (x : α) : Reach s → Coefs.mulScalar s x = .ok s' → Reach s'
  | mulCoefs {a b s' : Coefs α} (ks : List Key) : Reach a → Reach b → IsSetIter ks (a.keys ++ b.keys) →
      Coefs.mulCoefs ks a b = .ok s' → Reach s'
  | pow {s s' : Coefs α} (p : ℤ) : Reach s → Coefs.pow s p = .ok s' → Reach s'
  | divScalar {s s' : Coefs α} (x : α) : Reach s → Coefs.divScalar s x = .ok s' → Reach s'
  | divCoefs {a b s' : Coefs α} (ks : List Key) : Reach a → Reach b → IsSetIter ks (a.keys ++ b.keys) →
      Coefs.divCoefs ks a b = .ok s' → Reach s'
  | hstack {s' : Coefs α} (ks : List Key) (ss : List (Coefs α)) : (∀ s ∈ ss, Reach s) →
      IsSetIter ks (ss.flatMap Coefs.keys) → Coefs.hstack ks ss = .ok s' → Reach s'
  | hsplit {s t : Coefs α} (n : Option ℕ) (ts : List (Coefs α)) : Reach s → Coefs.hsplit s n = .ok ts →
      t ∈ ts → Reach t
  | hsplitAt {s t : Coefs α} (idx : List ℤ) (ts : List (Coefs α)) : Reach s → Coefs.hsplitAt s idx = .ok ts →
      t ∈ ts → Reach t
  | fromArrays {s' : Coefs α} (dt : DType) (ls ms : List Idx) (rows : List (List α)) :
      Coefs.fromArrays dt ls ms rows = .ok s' → Reach s'

/-- The value a user reads at (l, m). -/
def valueAt (s : Coefs α) (l m : ℤ) : List α :=
  match s.get (.int l) (.int m) with
  | .ok v => v
  | .error _ => []

/-- Operands of the arithmetic: reachable sets with zero default, dtype `d` and `n` columns. -/
structure Operand [Field α] [DecidableEq α] [ElemField α] (d : DType) (n : ℕ) (s : Coefs α) : Prop where
  reach : Reach s
  zero : ZeroDefault s
  dtype : s.dtype = d
  cols : s.dflt.length = n

/-- The stored pairs of `s`. -/
def stores (s : Coefs α) (l m : ℤ) : Prop := s.has (.int l) (.int m) = true

/-- `s` holds exactly the pairs and values described by `P` and `v`. -/
structure Holds (s : Coefs α) (P : ℤ → ℤ → Prop) (v : ℤ → ℤ → List α) : Prop where
  has : ∀ l m : ℤ, stores s l m ↔ P l m
  val : ∀ l m : ℤ, valueAt s l m = v l m

end Spec
end Verif
