import Verif.Props.ContainerMore
import Verif.Spec.Cuts

/-!
# Property C14, continued: splitting at given positions

`hsplit` also accepts a list of positions. The statements are about the columns of the pieces.
-/

namespace Verif
open Spec Coefs

variable {α : Type} [Field α] [DecidableEq α] [ElemField α]

omit [Field α] [DecidableEq α] [ElemField α] in
private theorem pySlice_getElem? {β : Type} (xs : List β) (a b : ℤ) (j : ℕ) :
    (pySlice xs a b)[j]? =
      if cutPos xs.length a + j < cutPos xs.length b then xs[cutPos xs.length a + j]? else none := by
  rw [pySlice, slicePos_eq, List.getElem?_drop, List.getElem?_take]

omit [Field α] [DecidableEq α] [ElemField α] in
private theorem cuts_length (n : ℕ) (idx : List ℤ) : (cuts n idx).length = idx.length + 1 := by
  simp [cuts]

private theorem cuts_getElem (n : ℕ) (idx : List ℤ) (i : ℕ) (hi : i < (cuts n idx).length) :
    cutPos n ((cuts n idx)[i]).1 = cutAt n idx i ∧ cutPos n ((cuts n idx)[i]).2 = cutAt n idx (i + 1) := by
  have h0 : cutPos n 0 = 0 := by rw [← slicePos_eq]; exact slicePos_zero n
  have hn : cutPos n n = n := by rw [← slicePos_eq]; exact slicePos_self n
  have hl : i < idx.length + 1 := by rw [cuts_length] at hi; exact hi
  have hz : (cuts n idx)[i] = ((0 :: idx)[i]'(by simpa using hl), (idx ++ [(n : ℤ)])[i]'(by simpa using hl)) :=
    List.getElem_zip
  rw [hz]
  constructor
  · cases i with
    | zero => simpa [cutAt] using h0
    | succ i =>
      have : i < idx.length := by omega
      simp [cutAt, List.getElem?_eq_getElem this]
  · simp only [cutAt, Nat.add_sub_cancel]
    by_cases h : i < idx.length
    · simp [List.getElem_append_left h, List.getElem?_eq_getElem h]
    · have : i = idx.length := by omega
      subst this
      simpa using hn

/-- **C14.** Splitting at positions never fails: `k` positions give `k + 1` sets with the same stored pairs, and
column `j` of piece `i` is the `j`-th column after the piece's first, up to where the next piece begins. -/
theorem C14_hsplit_at {s : Coefs α} (hr : Reach s) (idx : List ℤ) :
    ∃ ts, hsplitAt s idx = .ok ts ∧ ∃ hl : ts.length = idx.length + 1, ∀ i (hi : i < idx.length + 1),
      Reach (ts[i]'(hl ▸ hi)) ∧ (ts[i]'(hl ▸ hi)).dtype = s.dtype ∧
      (∀ l m, stores (ts[i]'(hl ▸ hi)) l m ↔ stores s l m) ∧
      (∀ j, (ts[i]'(hl ▸ hi)).dflt[j]? =
        if cutAt s.dflt.length idx i + j < cutAt s.dflt.length idx (i + 1) then
          s.dflt[cutAt s.dflt.length idx i + j]? else none) ∧
      ∀ l m j, (valueAt (ts[i]'(hl ▸ hi)) l m)[j]? =
        if cutAt s.dflt.length idx i + j < cutAt s.dflt.length idx (i + 1) then
          (valueAt s l m)[cutAt s.dflt.length idx i + j]? else none := by
  obtain ⟨T, e, hT⟩ := hsplitAt_spec hr.WF idx
  refine ⟨_, e, by rw [List.length_map, cuts_length], fun i hi => ?_⟩
  have hc : i < (cuts s.dflt.length idx).length := by rw [cuts_length]; exact hi
  obtain ⟨c1, c2⟩ := cuts_getElem s.dflt.length idx i hc
  have hget : ((cuts s.dflt.length idx).map T)[i]'(by rw [List.length_map]; exact hc) =
    T (cuts s.dflt.length idx)[i] := by simp
  rw [hget]
  obtain ⟨_, k, d, dt, g⟩ := hT (cuts s.dflt.length idx)[i]
  refine ⟨Reach.hsplitAt idx _ hr e (List.mem_map_of_mem (List.getElem_mem hc)), dt, fun l m => ?_, fun j => ?_,
    fun l m j => ?_⟩
  · rw [stores, stores, has_int, has_int, k, mem_sortKeys]
  · rw [d, pySlice_getElem?, c1, c2]
  · change ((T _).getI (l, m))[j]? = if _ then (s.getI (l, m))[_]? else none
    rw [g, pySlice_getElem?, hr.WF.getI_length, c1, c2]

omit [Field α] [DecidableEq α] [ElemField α] in
private theorem foldl_promote_same' (ss : List (Coefs α)) (d : DType) (h : ∀ s ∈ ss, s.dtype = d) :
    ss.foldl (fun d s => d.promote s.dtype) d = d := by
  induction ss with
  | nil => rfl
  | cons s ss ih =>
    rw [List.foldl_cons, h s List.mem_cons_self, show d.promote d = d by simp [DType.promote]]
    exact ih fun t ht => h t (List.mem_cons_of_mem _ ht)

/-- **C14.** Stacking the pieces gives the set back exactly when the positions increase; otherwise the stacked set
has more columns than the original. -/
theorem C14_hstack_hsplit_at {s : Coefs α} (hr : Reach s) (idx : List ℤ) :
    ∃ ts, hsplitAt s idx = .ok ts ∧ ∀ ks, IsSetIter ks (ts.flatMap Coefs.keys) → ∃ u, hstack ks ts = .ok u ∧
      (Same u s ↔ IncreasingCuts s.dflt.length idx) ∧
      (¬ IncreasingCuts s.dflt.length idx → s.dflt.length < u.dflt.length) := by
  obtain ⟨T, e, hT⟩ := hsplitAt_spec hr.WF idx
  refine ⟨_, e, fun ks hk => ?_⟩
  have hinc : IncreasingCuts s.dflt.length idx ↔
      (((0 : ℤ) :: idx).map (slicePos s.dflt.length)).Pairwise (· ≤ ·) := by
    rw [List.map_cons, List.pairwise_cons, slicePos_zero, slicePos_eq]
    exact ⟨fun h => ⟨fun _ _ => Nat.zero_le _, h⟩, fun h => h.2⟩
  obtain ⟨c0, cr, hcs⟩ : ∃ c0 cr, cuts s.dflt.length idx = c0 :: cr :=
    List.exists_cons_of_ne_nil (List.ne_nil_of_length_pos (by rw [cuts_length]; omega))
  rw [hcs, List.map_cons] at hk ⊢
  obtain ⟨u, eu, wu, ku, du, tu, gu⟩ := hstack_spec (s0 := T c0) (rest := cr.map T)
    (by
      intro t ht
      rw [← List.map_cons] at ht
      obtain ⟨c, _, rfl⟩ := List.mem_map.1 ht
      exact (hT c).1) hk
  have hmem : ∀ q, q ∈ ks ↔ q ∈ s.keys := by
    intro q
    rw [hk.2, ← List.map_cons, List.mem_flatMap]
    constructor
    · rintro ⟨t, ht, hq⟩
      obtain ⟨c, _, rfl⟩ := List.mem_map.1 ht
      rw [(hT c).2.1, mem_sortKeys] at hq
      exact hq
    · intro hq
      exact ⟨T c0, List.mem_map_of_mem List.mem_cons_self, by rw [(hT c0).2.1, mem_sortKeys]; exact hq⟩
  have hd : u.dflt = (cuts s.dflt.length idx).flatMap fun c => pySlice s.dflt c.1 c.2 := by
    rw [du, ← List.map_cons, ← hcs, List.flatMap_map]
    exact List.flatMap_congr fun c _ => (hT c).2.2.1
  have hg : ∀ k, u.getI k = (cuts s.dflt.length idx).flatMap fun c => pySlice (s.getI k) c.1 c.2 := by
    intro k
    rw [gu, ← List.map_cons, ← hcs, List.flatMap_map]
    exact List.flatMap_congr fun c _ => (hT c).2.2.2.2 k
  obtain ⟨l1, l2⟩ := length_cuts s.dflt idx 0
  rw [slicePos_zero, Nat.sub_zero] at l1 l2
  change s.dflt.length ≤ ((cuts s.dflt.length idx).flatMap _).length at l1
  change ((cuts s.dflt.length idx).flatMap _).length = s.dflt.length → _ at l2
  rw [← hd] at l1 l2
  refine ⟨u, eu, ⟨fun h => hinc.2 (l2 (by rw [h.dflt])), fun h => ?_⟩, fun h => ?_⟩
  · have h' := hinc.1 h
    refine ⟨?_, ?_, fun l m => ?_, fun l m => ?_⟩
    · rw [hd]
      refine (flatMap_cuts s.dflt idx 0 h').trans ?_
      rw [slicePos_zero, List.drop_zero]
    · rw [tu, (hT c0).2.2.2.1]
      refine foldl_promote_same' _ _ fun t ht => ?_
      obtain ⟨c, _, rfl⟩ := List.mem_map.1 ht
      exact (hT c).2.2.2.1
    · rw [Bool.eq_iff_iff, has_int, has_int, ku, hmem]
    · rw [get_int, get_int, hg]
      congr 1
      have hl := hr.WF.getI_length (l, m)
      have := flatMap_cuts (s.getI (l, m)) idx 0 (by rw [hl]; exact h')
      rw [hl, slicePos_zero, List.drop_zero] at this
      exact this
  · exact lt_of_le_of_ne l1 fun he => h (hinc.2 (l2 he.symm))

private local instance decEqCoefs : DecidableEq (Coefs ℚ) := fun a b => decidable_of_iff
  (a.dflt = b.dflt ∧ a.dtype = b.dtype ∧ a.dict = b.dict ∧ a.degreeMax = b.degreeMax ∧ a.orderMin = b.orderMin)
  (by cases a; cases b; simp)

omit [Field α] [DecidableEq α] [ElemField α] in
private theorem ok_of_toOption {β : Type} {r : Res β} {x : β} (h : r.toOption = some x) : r = .ok x := by
  cases r with
  | error e => cases h
  | ok y => cases h; rfl

/-- A set with three columns. -/
private def exThree : Coefs ℚ := ⟨[0, 0, 0], .real, [((1, 0), [1, 2, 3])], 1, 0⟩

private theorem exThree_reach : Reach exThree := by
  refine Reach.append (s := Coefs.new [0, 0, 0] .real) (.int 1) (.int 0) [1, 2, 3] ?_ rfl
  exact Reach.new _ _ (by simp [Elem.cast, castQ])

/-- Non-vacuity: positions 1 and -1 of three columns increase, so stacking restores the set. -/
example : ∃ ts, hsplitAt exThree [1, -1] = .ok ts ∧ ts.length = 3 ∧
    ∃ u, hstack [(1, 0)] ts = .ok u ∧ Same u exThree := by
  obtain ⟨ts, e, h⟩ := C14_hstack_hsplit_at exThree_reach [1, -1]
  obtain ⟨ts', e', hl, h'⟩ := C14_hsplit_at exThree_reach [1, -1]
  rw [e] at e'; cases e'
  have hk : IsSetIter [(1, 0)] (ts.flatMap Coefs.keys) := by
    have : hsplitAt exThree [1, -1] = .ok
      [⟨[0], .real, [((1, 0), [1])], 1, 0⟩, ⟨[0], .real, [((1, 0), [2])], 1, 0⟩,
       ⟨[0], .real, [((1, 0), [3])], 1, 0⟩] := ok_of_toOption (by decide +kernel)
    rw [e] at this; cases this
    simp [IsSetIter, Coefs.keys]
  obtain ⟨u, eu, h1, _⟩ := h _ hk
  exact ⟨ts, e, hl, u, eu, h1.2 (by decide)⟩

/-- Positions that do not increase, `[2, 1]`: the middle piece is empty and the second column appears twice. -/
theorem C14_unsorted_positions : ∃ (s : Coefs ℚ) (idx : List ℤ) (ts : List (Coefs ℚ)) (u : Coefs ℚ), Reach s ∧
    ¬ IncreasingCuts s.dflt.length idx ∧ hsplitAt s idx = .ok ts ∧ hstack [(1, 0)] ts = .ok u ∧
    valueAt s 1 0 = [1, 2, 3] ∧ valueAt u 1 0 = [1, 2, 2, 3] := by
  refine ⟨exThree, [2, 1],
    [⟨[0, 0], .real, [((1, 0), [1, 2])], 1, 0⟩, ⟨[], .real, [((1, 0), [])], 1, 0⟩,
     ⟨[0, 0], .real, [((1, 0), [2, 3])], 1, 0⟩],
    ⟨[0, 0, 0, 0], .real, [((1, 0), [1, 2, 2, 3])], 1, 0⟩, exThree_reach, by decide,
    ok_of_toOption (by decide +kernel), ok_of_toOption (by decide +kernel), by decide +kernel, by decide +kernel⟩

end Verif
