import Verif.Props.Container
import Verif.Lemmas.Writer

/-!
# C03: the reachable coefficient sets are exactly the well-formed ones
-/

namespace Verif
open Spec Coefs

variable {α : Type} [Field α] [DecidableEq α] [ElemField α]

namespace Coefs

theorem reach_appendAll {s s' : Coefs α} (h : Reach s) (rows : List (Idx × Idx × List α)) (e : appendAll s rows = .ok s') :
    Reach s' := by
  induction rows generalizing s with
  | nil => cases e; exact h
  | cons r rows ih =>
    obtain ⟨l, m, data⟩ := r
    rw [appendAll] at e
    cases ha : append l m data s with
    | ok u t => rw [ha] at e; exact ih (Reach.append l m data h ha) e
    | error x t => rw [ha] at e; cases e

/-- The largest degree and the least order are determined by the stored pairs. -/
theorem WF.limits_unique {β : Type} [Elem β] {s t : Coefs β} (hs : s.WF) (ht : t.WF) (h : s.keys = t.keys) :
    s.degreeMax = t.degreeMax ∧ s.orderMin = t.orderMin := by
  constructor
  · rcases hs.degAttained with ⟨a, b⟩ | ⟨k, hk, e⟩
    · rcases ht.degAttained with ⟨_, d⟩ | ⟨k, hk, _⟩
      · rw [b, d]
      · rw [← h, a] at hk; cases hk
    · rcases ht.degAttained with ⟨a, _⟩ | ⟨k', hk', e'⟩
      · rw [h, a] at hk; cases hk
      · have := hs.degUpper k' (h ▸ hk')
        have := ht.degUpper k (h ▸ hk)
        omega
  · have a := hs.ordNonpos
    have b := ht.ordNonpos
    rcases hs.ordAttained with e | ⟨k, hk, e⟩
    · rcases ht.ordAttained with e' | ⟨k', hk', e'⟩
      · rw [e, e']
      · have := hs.ordLower k' (h ▸ hk'); omega
    · rcases ht.ordAttained with e' | ⟨k', hk', e'⟩
      · have := ht.ordLower k (h ▸ hk); omega
      · have := hs.ordLower k' (h ▸ hk')
        have := ht.ordLower k (h ▸ hk)
        omega

/-- Every well-formed set can be built with the constructor and `append`. -/
theorem WF.reach {s : Coefs α} (h : s.WF) : Reach s := by
  have r0 : Reach (Coefs.new s.dflt s.dtype) := Reach.new _ _ h.dfltTyped
  obtain ⟨t, e1, e2, e3, e4⟩ := appendAll_ok (Coefs.new s.dflt s.dtype) s.dict h.nodup (fun _ _ hk => by cases hk)
    (fun kv hk => h.valid kv.1 (List.mem_map.2 ⟨kv, hk, rfl⟩)) h.shape
  have rt := reach_appendAll r0 _ e1
  have hd : t.dict = s.dict := by
    rw [e2]
    change [] ++ s.dict.map (fun kv => (kv.1, kv.2.map (Elem.cast s.dtype))) = s.dict
    rw [List.nil_append]
    conv_rhs => rw [← List.map_id s.dict]
    refine List.map_congr_left fun kv hk => ?_
    rw [List.map_congr_left (g := id) fun x hx => h.dtyped kv hk x hx, List.map_id]
    rfl
  obtain ⟨h1, h2⟩ := rt.WF.limits_unique h (by rw [keys, keys, hd])
  have : t = s := by
    cases t; cases s
    simp only at hd e3 e4 h1 h2
    simp only [Coefs.new] at e3 e4
    subst hd e3 e4 h1 h2
    rfl
  exact this ▸ rt

end Coefs

/-- **C03.** A state of the container can be reached with the public operations if and only if it is well-formed: the
invariant cannot be strengthened. -/
theorem C03_reachable_iff (s : Coefs α) : Reach s ↔ WellFormed s :=
  ⟨C03_reachable_wellFormed, fun h => (WF_of_wellFormed h).reach⟩

end Verif
