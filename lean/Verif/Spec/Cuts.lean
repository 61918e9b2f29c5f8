import Mathlib.Data.Int.Notation
import Mathlib.Order.Basic
import Mathlib.Data.List.Basic

/-!
# Specification vocabulary for splitting at positions
-/

namespace Verif
namespace Spec

/-- The column at which position `i` cuts an array of `n` columns: negative positions count from the end, positions
beyond either end cut there. -/
def cutPos (n : ℕ) (i : ℤ) : ℕ := (max 0 (min (n : ℤ) (if i < 0 then n + i else i))).toNat

/-- The column at which piece `i` begins; piece `i` ends where piece `i + 1` would begin. -/
def cutAt (n : ℕ) (idx : List ℤ) (i : ℕ) : ℕ :=
  if i = 0 then 0 else
    match idx[i - 1]? with
    | some p => cutPos n p
    | none => n

/-- The positions cut the columns in increasing order. -/
def IncreasingCuts (n : ℕ) (idx : List ℤ) : Prop := (idx.map (cutPos n)).Pairwise (· ≤ ·)

instance (n : ℕ) (idx : List ℤ) : Decidable (IncreasingCuts n idx) := by unfold IncreasingCuts; infer_instance

end Spec
end Verif
