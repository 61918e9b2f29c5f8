import Verif.Lemmas.Zdi
import Verif.Lemmas.Writer
import Verif.Lemmas.CoefOps
import Verif.Model.Converter

/-!
# The rows that field evaluation reads from a coefficient set
-/

namespace Verif
namespace Coefs
open Spec

variable {α : Type}

/-- The stored pairs in the order of `as_arrays(include_unset=False)`. -/
def rowKeys (s : Coefs α) : List Key :=
  (s.requested none none none none).filter fun k => s.has (.int k.1) (.int k.2)

theorem rowKeys_sorted (s : Coefs α) : s.rowKeys.Pairwise LexLt :=
  (requested_sorted s none none none none).filter _

theorem rowKeys_nodup (s : Coefs α) : s.rowKeys.Nodup := by
  refine s.rowKeys_sorted.imp ?_
  rintro x y (h | ⟨_, h⟩) rfl <;> exact absurd h (lt_irrefl _)

theorem mem_rowKeys [Elem α] {s : Coefs α} (hs : s.WF) (k : Key) : k ∈ s.rowKeys ↔ k ∈ s.keys := by
  rw [rowKeys, List.mem_filter, mem_requested, has_int]
  constructor
  · rintro ⟨_, h⟩; exact h
  · intro h
    refine ⟨?_, h⟩
    have h1 := hs.valid k h
    have h2 := hs.degUpper k h
    have h3 := abs_le.1 h1
    have h4 := abs_nonneg k.2
    simp only [Option.getD_none]
    omega

theorem rowKeys_toFinset [Elem α] {s : Coefs α} (hs : s.WF) : s.rowKeys.toFinset = s.keys.toFinset := by
  ext k; simp [mem_rowKeys hs]

theorem asArrays_rows [Elem α] {s : Coefs α} (hs : s.WF) :
    s.asArrays false = .ok (s.rowKeys.map Prod.fst, s.rowKeys.map Prod.snd, s.rowKeys.map s.getI) := by
  have hne : s.requested none none none none ≠ [] := by
    have h0 : 0 ≤ s.degreeMax := by
      rcases hs.degAttained with ⟨_, h⟩ | ⟨k, hk, h⟩
      · omega
      · have := hs.valid k hk; have := abs_nonneg k.2; omega
    have : (0, 0) ∈ s.requested none none none none := by
      rw [mem_requested]; simp [h0]
    exact List.ne_nil_of_mem this
  unfold asArrays
  simp only [hne, if_false, Bool.false_or]
  rfl

theorem sum_rowKeys [Elem α] {β : Type} [AddCommMonoid β] {s : Coefs α} (hs : s.WF) (f : Key → β) :
    (s.rowKeys.map f).sum = ∑ k ∈ s.keys.toFinset, f k := by
  rw [← rowKeys_toFinset hs, List.sum_toFinset f s.rowKeys_nodup]

theorem zip_fst_snd (ks : List Key) : (ks.map Prod.fst).zip (ks.map Prod.snd) = ks := by
  induction ks with
  | nil => rfl
  | cons k ks ih => simp [ih]

theorem zip_rows {β : Type} (ks : List Key) (f : Key → β) :
    (ks.map Prod.fst).zip ((ks.map Prod.snd).zip (ks.map f)) = ks.map fun k => (k.1, k.2, f k) := by
  induction ks with
  | nil => rfl
  | cons k ks ih => simp [ih]

end Coefs
end Verif
