import Verif.Props.ContainerMore

/-!
# Property C113: when arithmetic on coefficient sets is refused
-/

namespace Verif
open Spec Coefs

variable {α : Type}

/-- Broadcasting arrays of different lengths, none of them one, is refused. -/
private theorem bcast_refused {β γ : Type} (f : α → β → γ) {xs : List α} {ys : List β} (h : xs.length ≠ ys.length)
    (hx : xs.length ≠ 1) (hy : ys.length ≠ 1) : bcast f xs ys = .error .value := by
  unfold bcast
  rw [if_neg h]
  rcases xs with _ | ⟨x, _ | ⟨x', xs⟩⟩ <;> rcases ys with _ | ⟨y, _ | ⟨y', ys⟩⟩ <;>
    first | rfl | (exact absurd rfl hx) | (exact absurd rfl hy) | exact absurd rfl h

/-- An array of one value is stretched to the length of the other. -/
private theorem bcast_stretch {β γ : Type} (f : α → β → γ) {xs : List α} {ys : List β} (hx : xs.length = 1) :
    ∃ v, bcast f xs ys = .ok v ∧ v.length = ys.length := by
  obtain ⟨x, rfl⟩ := List.length_eq_one_iff.1 hx
  rcases ys with _ | ⟨y, _ | ⟨y', ys⟩⟩
  · exact ⟨[], rfl, rfl⟩
  · exact ⟨[f x y], rfl, rfl⟩
  · refine ⟨(y :: y' :: ys).map (f x), ?_, by simp⟩
    simp [bcast]

/-- Appending a row of the wrong length to a set that has no such pair. -/
private theorem append_refused [Elem α] (s : Coefs α) (k : Key) (v : List α) (hk : k ∉ s.keys)
    (h : v.length ≠ s.dflt.length) : append (.int k.1) (.int k.2) v s = .error .assertion s := by
  rw [append_run, if_neg (by rw [keyIn_int]; exact hk), set_run, if_neg (fun h' => h h'.2)]

private theorem contents_cons [Elem α] {s : Coefs α} (hs : s.WF) (hne : ∃ l m, stores s l m) :
    ∃ k rest, s.contents = (k, s.getI k) :: rest := by
  obtain ⟨l, m, h⟩ := hne
  have h1 : ((l, m), s.getI (l, m)) ∈ s.contents := (mem_contents s _).2 ⟨(has_int s l m).1 h, rfl⟩
  rcases e : s.contents with _ | ⟨kv, rest⟩
  · rw [e] at h1
    exact absurd h1 (by simp)
  · refine ⟨kv.1, rest, ?_⟩
    have h2 : kv ∈ s.contents := by rw [e]; exact List.mem_cons_self
    rw [← ((mem_contents s kv).1 h2).2]

/-- **C113**: `get` raises AssertionError unless both arguments are python ints, whatever the set holds; with two python ints it
never raises. -/
theorem C113_get (s : Coefs α) (d o : Idx) :
    (∃ v, s.get d o = .ok v) ∧ (∃ l m, d = .int l ∧ o = .int m) ∨
      s.get d o = .error .assertion ∧ ¬ ∃ l m, d = .int l ∧ o = .int m := by
  rcases d with l | l | l <;> rcases o with m | m | m <;>
    first
      | exact Or.inl ⟨⟨_, rfl⟩, _, _, rfl, rfl⟩
      | exact Or.inr ⟨rfl, by rintro ⟨l, m, h, h'⟩; first | exact Idx.noConfusion h | exact Idx.noConfusion h'⟩

section
variable [Field α] [DecidableEq α] [ElemField α]

/-- **C113**: a set without entries can be multiplied by an array of any length; the result is empty. -/
theorem C113_array_empty {s : Coefs α} (h : ∀ l m, ¬ stores s l m) (xs : List α) :
    ∃ t, mulArray s xs = .ok t ∧ ∀ l m, ¬ stores t l m := by
  have e : s.contents = [] := by
    rw [List.eq_nil_iff_forall_not_mem]
    intro kv hkv
    exact h kv.1.1 kv.1.2 ((has_int s _ _).2 ((mem_contents s kv).1 hkv).1)
  refine ⟨s.emptyLike, ?_, fun l m hs => ?_⟩
  · rw [mulArray, e]
    rfl
  · rw [stores, has_int] at hs
    exact absurd hs (by simp [emptyLike, Coefs.new, Coefs.keys])

/-- **C113**: a set with entries of `n` values can be multiplied by an array of `n` values or of one; the result has the same
pairs. -/
theorem C113_array_accepted {s : Coefs α} (hs : Reach s) (xs : List α)
    (h : xs.length = s.dflt.length ∨ xs.length = 1) :
    ∃ t, mulArray s xs = .ok t ∧ (∀ l m, stores t l m ↔ stores s l m) ∧
      ∀ l m, (valueAt t l m).length = (valueAt s l m).length := by
  have key : ∀ t : Coefs α, t.WF → t.keys = sortKeys s.keys → t.dflt = s.dflt →
      (∀ l m, stores t l m ↔ stores s l m) ∧ ∀ l m, (valueAt t l m).length = (valueAt s l m).length := by
    intro t w k d
    refine ⟨fun l m => ?_, fun l m => ?_⟩
    · rw [stores, stores, has_int, has_int, k, mem_sortKeys]
    · change (t.getI (l, m)).length = (s.getI (l, m)).length
      rw [w.getI_length, hs.WF.getI_length, d]
  rcases h with h | h
  · obtain ⟨t, e, w, k, d, -⟩ := mulArray_spec hs.WF xs h
    exact ⟨t, e, key t w k d⟩
  · obtain ⟨x, rfl⟩ := List.length_eq_one_iff.1 h
    obtain ⟨t, e, w, k, d, -⟩ := mulScalar_spec hs.WF x
    exact ⟨t, e, key t w k d⟩

/-- **C113**: any other length is refused: with ValueError by numpy if the entries have several values (or none), and with
AssertionError if they have one. -/
theorem C113_array_refused {s : Coefs α} (hs : Reach s) (hne : ∃ l m, stores s l m) (xs : List α)
    (h : xs.length ≠ s.dflt.length) (h1 : xs.length ≠ 1) :
    mulArray s xs = .error (if s.dflt.length = 1 then .assertion else .value) := by
  obtain ⟨k, rest, e⟩ := contents_cons hs.WF hne
  have hk := hs.WF.getI_length k
  rw [mulArray, e, mulArray.go]
  by_cases hn : s.dflt.length = 1
  · obtain ⟨v, ev, hv⟩ := bcast_stretch (· * ·) (xs := s.getI k) (ys := xs) (by rw [hk, hn])
    rw [ev, if_pos hn]
    change (match append (.int k.1) (.int k.2) v s.emptyLike with | .ok () t => _ | .error e _ => _) = _
    rw [append_refused _ _ _ (by simp [emptyLike, Coefs.new, Coefs.keys]) (by rw [hv]; exact h)]
  · rw [bcast_refused _ (by rw [hk]; exact fun h' => h h'.symm) (by rw [hk]; exact hn) h1, if_neg hn]
    rfl

/-- **C113**: sets are added exactly if their entries have equally many values, whatever they contain; otherwise
AssertionError. -/
theorem C113_add {a b : Coefs α} (ha : Reach a) (hb : Reach b) {ks : List Key} (hk : IsSetIter ks (a.keys ++ b.keys)) :
    if a.dflt.length = b.dflt.length then ∃ t, add ks a b = .ok t ∧ ∀ l m, stores t l m ↔ stores a l m ∨ stores b l m
    else add ks a b = .error .assertion := by
  split_ifs with h
  · obtain ⟨t, e, -, k, -⟩ := combine_spec (· + ·) ha.WF hb.WF h hk
    refine ⟨t, by rw [add, if_pos h]; exact e, fun l m => ?_⟩
    rw [stores, stores, stores, has_int, has_int, has_int, k, hk.2, List.mem_append]
  · rw [add, if_neg h]

/-- **C113**: so are they multiplied. -/
theorem C113_mul {a b : Coefs α} (ha : Reach a) (hb : Reach b) {ks : List Key} (hk : IsSetIter ks (a.keys ++ b.keys)) :
    if a.dflt.length = b.dflt.length then
      ∃ t, mulCoefs ks a b = .ok t ∧ ∀ l m, stores t l m ↔ stores a l m ∨ stores b l m
    else mulCoefs ks a b = .error .assertion := by
  split_ifs with h
  · obtain ⟨t, e, -, k, -⟩ := combine_spec (· * ·) ha.WF hb.WF h hk
    refine ⟨t, by rw [mulCoefs, if_pos h]; exact e, fun l m => ?_⟩
    rw [stores, stores, stores, has_int, has_int, has_int, k, hk.2, List.mem_append]
  · rw [mulCoefs, if_neg h]

end

/-! ### isclose -/

private theorem mapM_rows (ks : List Key) (f : Key → Res (List Bool)) (g : Key → List Bool)
    (h : ∀ k ∈ ks, f k = .ok (g k)) :
    ks.mapM (fun k => do let v ← f k; pure (intRow k v)) = (.ok (ks.map fun k => intRow k (g k)) : Res _) := by
  induction ks with
  | nil => rfl
  | cons k ks ih =>
    rw [List.mapM_cons, h k List.mem_cons_self, ih fun q hq => h q (List.mem_cons_of_mem _ hq)]
    rfl

/-- **C113**: `isclose` of sets whose entries have different numbers of values, at least one set with entries: refused with
ValueError if both numbers differ from one, refused with AssertionError if the first is one, and a comparison of every value
with the single one if the second is one. -/
theorem C113_isclose {a b : Coefs ℂ} (ha : Reach a) (hb : Reach b) (close : ℂ → ℂ → Bool) {ks : List Key}
    (hk : IsSetIter ks (a.keys ++ b.keys)) (hne : ∃ l m, stores a l m ∨ stores b l m) (junk : List Bool)
    (hj : junk.length = a.dflt.length) (h : a.dflt.length ≠ b.dflt.length) :
    (a.dflt.length ≠ 1 → b.dflt.length ≠ 1 → isclose close ks junk a b = .error .value) ∧
      (a.dflt.length = 1 → isclose close ks junk a b = .error .assertion) ∧
      (b.dflt.length = 1 → ∃ t, isclose close ks junk a b = .ok t ∧
        (∀ l m, stores t l m ↔ stores a l m ∨ stores b l m) ∧
        ∀ l m y, stores t l m → valueAt b l m = [y] → valueAt t l m = (valueAt a l m).map fun x => close x y) := by
  have hks : ks ≠ [] := by
    rintro rfl
    obtain ⟨l, m, hs⟩ := hne
    rw [stores, stores, has_int, has_int, ← List.mem_append] at hs
    exact absurd ((hk.2 _).2 hs) (by simp)
  have la := fun k => ha.WF.getI_length k
  have lb := fun k => hb.WF.getI_length k
  obtain ⟨k0, ks', rfl⟩ := List.exists_cons_of_ne_nil hks
  refine ⟨fun h1 h2 => ?_, fun h1 => ?_, fun h2 => ?_⟩
  · rw [isclose, if_neg hks, List.mapM_cons,
      bcast_refused close (by rw [la, lb]; exact h) (by rw [la]; exact h1) (by rw [lb]; exact h2)]
    rfl
  · have hs : ∀ k, ∃ v, bcast close (a.getI k) (b.getI k) = .ok v ∧ v.length = b.dflt.length := fun k => by
      obtain ⟨v, e, hv⟩ := bcast_stretch close (xs := a.getI k) (ys := b.getI k) (by rw [la, h1])
      exact ⟨v, e, by rw [hv, lb]⟩
    choose v ev hv using hs
    rw [isclose, if_neg hks, mapM_rows _ _ v fun k _ => ev k]
    change appendAll (Coefs.new junk .bool) _ = _
    rw [List.map_cons, intRow, appendAll,
      append_refused _ _ _ (by simp [Coefs.new, Coefs.keys]) (by rw [hv]; change _ ≠ junk.length; rw [hj]; exact h.symm)]
  · have hs : ∀ k, bcast close (a.getI k) (b.getI k)
        = .ok ((a.getI k).map fun x => close x ((b.getI k).headD 0)) := fun k => by
      obtain ⟨y, e⟩ := List.length_eq_one_iff.1 ((lb k).trans h2)
      rw [e, bcast_singleton]
      rfl
    rw [isclose, if_neg hks, mapM_rows _ _ _ fun k _ => hs k]
    obtain ⟨t, e, w, kt, df, dt, g⟩ := build_ok junk .bool (by intro x _; rfl) (k0 :: ks')
      (fun k => (a.getI k).map fun x => close x ((b.getI k).headD 0)) hk.1
      (by
        intro k hkm
        rcases List.mem_append.1 ((hk.2 k).1 hkm) with h | h
        · exact ha.WF.valid k h
        · exact hb.WF.valid k h)
      (by intro k _; rw [List.length_map, la, hj])
    refine ⟨t, e, fun l m => ?_, fun l m y hst hy => ?_⟩
    · rw [stores, stores, stores, has_int, has_int, has_int, kt, hk.2, List.mem_append]
    · rw [stores, has_int, kt] at hst
      change t.getI (l, m) = _
      rw [g, if_pos hst]
      change b.getI (l, m) = [y] at hy
      rw [hy]
      change List.map (fun x => x) _ = _
      rw [List.map_id']
      rfl

/-! ### Cases -/

private def exRow (xs : List ℂ) : Coefs ℂ := ⟨xs.map fun _ => 0, .cplx, [((1, 0), xs)], 1, 0⟩

private theorem exRow_reach (xs : List ℂ) : Reach (exRow xs) := by
  refine Reach.append (s := Coefs.new (xs.map fun _ => 0) .cplx) (.int 1) (.int 0) xs ?_ ?_
  · exact Reach.new _ _ (by intro x _; rfl)
  · rw [append_run, if_neg (by rw [keyIn_int]; simp [Coefs.new, Coefs.keys]), set_run,
      if_pos ⟨by norm_num [Idx.val], by simp [Coefs.new]⟩]
    have : xs.map (Elem.cast DType.cplx) = xs := by
      conv_rhs => rw [← List.map_id xs]
      rfl
    simp [stored, Coefs.new, exRow, dictSet, this, Idx.toInt]

/-- Two values per entry times an array of three. -/
example : mulArray (exRow [1, 2]) [1, 2, 3] = .error .value :=
  C113_array_refused (exRow_reach _) ⟨1, 0, (has_int _ _ _).2 (by simp [exRow, Coefs.keys])⟩ _ (by simp [exRow]) (by simp)

/-- One value per entry times an array of three. -/
example : mulArray (exRow [1]) [1, 2, 3] = .error .assertion :=
  C113_array_refused (exRow_reach _) ⟨1, 0, (has_int _ _ _).2 (by simp [exRow, Coefs.keys])⟩ _ (by simp [exRow]) (by simp)

private theorem exRow_iter (xs ys : List ℂ) : IsSetIter [((1, 0) : Key)] ((exRow xs).keys ++ (exRow ys).keys) := by
  refine ⟨by simp, fun k => ?_⟩
  simp [exRow, Coefs.keys]

/-- Comparing two values with one is fine, one with two is not. -/
example (close : ℂ → ℂ → Bool) : (∃ t, isclose close [(1, 0)] [true, false] (exRow [1, 2]) (exRow [3]) = .ok t) ∧
    isclose close [(1, 0)] [true] (exRow [3]) (exRow [1, 2]) = .error .assertion := by
  have h := C113_isclose (exRow_reach [1, 2]) (exRow_reach [3]) close (exRow_iter _ _)
    ⟨1, 0, Or.inl ((has_int _ _ _).2 (by simp [exRow, Coefs.keys]))⟩ [true, false] rfl (by simp [exRow])
  have h' := C113_isclose (exRow_reach [3]) (exRow_reach [1, 2]) close (exRow_iter _ _)
    ⟨1, 0, Or.inl ((has_int _ _ _).2 (by simp [exRow, Coefs.keys]))⟩ [true] rfl (by simp [exRow])
  exact ⟨(h.2.2 rfl).imp fun t ht => ht.1, h'.2.1 rfl⟩

end Verif
