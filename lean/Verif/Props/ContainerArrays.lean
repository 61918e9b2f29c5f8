import Verif.Props.Container

/-!
# Properties C06 - C07: the array view of a coefficient set
-/

namespace Verif
open Spec Coefs

variable {α : Type}

/-! ## C06 -/

section C06

theorem mem_requested (s : Coefs α) (lMin lMax mMin mMax : Option ℤ) (l m : ℤ) :
    (l, m) ∈ s.requested lMin lMax mMin mMax ↔
      lMin.getD 0 ≤ l ∧ l ≤ lMax.getD s.degreeMax ∧ |m| ≤ l ∧
      mMin.getD (-(lMax.getD s.degreeMax)) ≤ m ∧ m ≤ mMax.getD (lMax.getD s.degreeMax) := by
  simp only [requested, List.mem_flatMap, List.mem_map, mem_pyRange, Prod.mk.injEq, abs_le]
  constructor
  · rintro ⟨a, ⟨h1, h2⟩, b, ⟨h3, h4⟩, rfl, rfl⟩; omega
  · rintro ⟨h1, h2, ⟨h3, h4⟩, h5, h6⟩
    exact ⟨l, ⟨h1, by omega⟩, m, ⟨by omega, by omega⟩, rfl, rfl⟩

/-- Strict lexicographic order of (degree, order) pairs. -/
def LexLt (a b : ℤ × ℤ) : Prop := a.1 < b.1 ∨ (a.1 = b.1 ∧ a.2 < b.2)

theorem requested_sorted (s : Coefs α) (lMin lMax mMin mMax : Option ℤ) :
    (s.requested lMin lMax mMin mMax).Pairwise LexLt := by
  unfold requested
  refine List.pairwise_flatMap.2 ⟨fun l _ => ?_, ?_⟩
  · refine List.pairwise_map.2 ((pyRange_sorted _ _).imp ?_)
    intro a b h; exact Or.inr ⟨rfl, h⟩
  · refine (pyRange_sorted _ _).imp ?_
    intro a b h x hx y hy
    obtain ⟨_, _, rfl⟩ := List.mem_map.1 hx
    obtain ⟨_, _, rfl⟩ := List.mem_map.1 hy
    exact Or.inl h

/-- **C06.** `as_arrays` fails exactly when no pair with |m| ≤ l lies in the requested window. -/
theorem C06_asArrays_raises_iff (s : Coefs α) (unset : Bool) (lMin lMax mMin mMax : Option ℤ) :
    (∃ e, s.asArrays unset lMin lMax mMin mMax = .error e) ↔
      ¬ ∃ l m : ℤ, lMin.getD 0 ≤ l ∧ l ≤ lMax.getD s.degreeMax ∧ |m| ≤ l ∧
        mMin.getD (-(lMax.getD s.degreeMax)) ≤ m ∧ m ≤ mMax.getD (lMax.getD s.degreeMax) := by
  simp only [← mem_requested s lMin lMax mMin mMax]
  unfold asArrays
  by_cases h : s.requested lMin lMax mMin mMax = []
  · simp [h]
  · simp only [h, if_false]
    constructor
    · rintro ⟨e, he⟩; cases he
    · intro hn
      obtain ⟨⟨l, m⟩, hk⟩ := List.exists_mem_of_ne_nil _ h
      exact absurd ⟨l, m, hk⟩ hn

/-- **C06.** Otherwise the three arrays are parallel, list exactly the pairs of the window (only the stored
ones without `include_unset`), strictly increasing, with the values of `get`. -/
theorem C06_asArrays_window (s : Coefs α) (unset : Bool) (lMin lMax mMin mMax : Option ℤ)
    (ls ms : List ℤ) (vs : List (List α)) (h : s.asArrays unset lMin lMax mMin mMax = .ok (ls, ms, vs)) :
    ls.length = ms.length ∧ vs.length = ms.length ∧ (ls.zip ms).Pairwise LexLt ∧
    (∀ l m : ℤ, (l, m) ∈ ls.zip ms ↔
      (lMin.getD 0 ≤ l ∧ l ≤ lMax.getD s.degreeMax ∧ |m| ≤ l ∧
        mMin.getD (-(lMax.getD s.degreeMax)) ≤ m ∧ m ≤ mMax.getD (lMax.getD s.degreeMax)) ∧
      (unset = true ∨ s.has (.int l) (.int m) = true)) ∧
    (∀ p ∈ (ls.zip ms).zip vs, s.get (.int p.1.1) (.int p.1.2) = .ok p.2) := by
  unfold asArrays at h
  simp only at h
  split_ifs at h
  simp only [Except.ok.injEq, Prod.mk.injEq] at h
  obtain ⟨rfl, rfl, rfl⟩ := h
  generalize hr : List.filter (fun k => unset || s.has (Idx.int k.1) (Idx.int k.2))
    (s.requested lMin lMax mMin mMax) = r
  have hz : (r.map Prod.fst).zip (r.map Prod.snd) = r := by
    rw [List.zip_map']; simp
  rw [hz]
  refine ⟨by simp, by simp, ?_, ?_, ?_⟩
  · rw [← hr]; exact (requested_sorted s lMin lMax mMin mMax).sublist List.filter_sublist
  · intro l m
    rw [← hr, List.mem_filter, mem_requested]
    simp
  · intro p hp
    obtain ⟨⟨l, m⟩, v⟩ := p
    have : r.zip (r.map s.getI) = r.map fun k => (k, s.getI k) := by
      conv_lhs => rw [← List.map_id r, List.map_map, List.zip_map']
      rfl
    rw [this] at hp
    obtain ⟨k, _, e⟩ := List.mem_map.1 hp
    cases e
    rfl

private theorem length_requested (s : Coefs α) (L : ℕ) (h : s.degreeMax = L) :
    (s.requested none none none none).length = (L + 1) ^ 2 := by
  have e : s.requested none none none none = (pyRange 0 (L + 1)).flatMap fun l =>
      (pyRange (-l) (l + 1)).map fun m => (l, m) := by
    simp only [requested, Option.getD_none, h]
    refine List.flatMap_congr ?_
    intro l hl
    rw [mem_pyRange] at hl
    rw [max_eq_right (by omega), min_eq_right (by omega)]
  rw [e, List.length_flatMap]
  have : ((pyRange 0 (L + 1)).map fun l => ((pyRange (-l) (l + 1)).map fun m => (l, m)).length)
      = (List.range (L + 1)).map fun i => 2 * i + 1 := by
    simp only [pyRange, List.length_map, List.map_map, List.length_range]
    rw [show ((L : ℤ) + 1 - 0).toNat = L + 1 by omega]
    refine List.map_congr_left ?_
    intro i _
    simp only [Function.comp]
    omega
  rw [this]
  clear this e h
  induction L with
  | zero => rfl
  | succ n ih =>
    rw [List.range_succ, List.map_append, List.sum_append, ih]
    simp; ring

/-- **C06.** With the default arguments there are exactly (degree_max + 1)² rows. -/
theorem C06_asArrays_default_count (s : Coefs α) (L : ℕ) (hL : s.degreeMax = L) :
    ∃ ls ms vs, s.asArrays = .ok (ls, ms, vs) ∧ ls.length = (L + 1) ^ 2 ∧ ms.length = (L + 1) ^ 2 ∧
      vs.length = (L + 1) ^ 2 := by
  have hlen := length_requested s L hL
  have hne : s.requested none none none none ≠ [] := by
    intro h; rw [h] at hlen; simp only [List.length_nil] at hlen
    have : 0 < (L + 1) ^ 2 := by positivity
    omega
  unfold asArrays
  simp only [hne, if_false]
  refine ⟨_, _, _, rfl, ?_, ?_, ?_⟩ <;> simp [hlen]

end C06

/-- Non-vacuity of C06: a window with negative orders only. -/
example : (⟨[0], .real, [((2, -2), [3])], 2, -2⟩ : Coefs ℚ).asArrays true (some 1) (some 2) none (some (-1))
    = .ok ([1, 2, 2], [-1, -2, -1], [[0], [3], [0]]) := rfl
example : (⟨[0], .real, [((2, -2), [3])], 2, -2⟩ : Coefs ℚ).asArrays true (some 3) = .error .value := rfl

/-! ## C07 -/

section C07
variable [Field α] [DecidableEq α] [ElemField α]

omit [DecidableEq α] in
private theorem appendAll_congr (s : Coefs α) (rows rows' : List (Idx × Idx × List α))
    (h : List.Forall₂ (fun r r' => r.1.val = r'.1.val ∧ r.1.toInt = r'.1.toInt ∧ r.2.1.val = r'.2.1.val ∧
      r.2.1.toInt = r'.2.1.toInt ∧ r.2.2 = r'.2.2) rows rows') : appendAll s rows = appendAll s rows' := by
  induction h generalizing s with
  | nil => rfl
  | cons h _ ih =>
    rename_i r r' l1 l2 _
    obtain ⟨a, b, c⟩ := r
    obtain ⟨a', b', c'⟩ := r'
    obtain ⟨h1, h2, h3, h4, h5⟩ := h
    simp only at h1 h2 h3 h4 h5
    subst h5
    have : append a b c s = append a' b' c s := by
      have hk : s.keyIn a b = s.keyIn a' b' := by simp only [keyIn, h1, h3]
      rw [append_run, append_run, set_run, set_run, hk, h1, h2, h3, h4]
    rw [appendAll, appendAll, this]
    rcases append a' b' c s with ⟨⟨⟩, t⟩ | ⟨e, t⟩
    · exact ih t
    · rfl

omit [DecidableEq α] in
private theorem fromArrays_eq (dt : DType) (ks : List Key) (rows : List (List α)) (hl : ks.length = rows.length)
    (n : ℕ) (hne : rows ≠ []) (hn : ∀ r ∈ rows, r.length = n) :
    fromArrays dt (ks.map fun k => .npInt k.1) (ks.map fun k => .npInt k.2) rows =
      appendAll (Coefs.new (List.replicate n 0) dt) ((ks.zip rows).map fun kv => intRow kv.1 kv.2) := by
  unfold fromArrays
  rw [if_neg (by simp [hl])]
  cases rows with
  | nil => exact absurd rfl hne
  | cons r0 rest =>
    simp only
    have : (r0.map fun x => 0 * x) = List.replicate n (0 : α) := by
      rw [← hn r0 List.mem_cons_self]
      simp
    rw [this]
    refine appendAll_congr _ _ _ ?_
    rw [List.forall₂_iff_get]
    refine ⟨by simp [hl], ?_⟩
    intro i h1 h2
    simp [intRow, Idx.val, Idx.toInt]

/-- **C07.** `from_arrays(*as_arrays(include_unset=False))` reproduces any non-empty set with zero default:
same pairs, same values, same default and dtype. (The index arrays returned by numpy hold numpy ints.) -/
theorem C07_fromArrays_asArrays {s : Coefs α} (hr : Reach s) (hz : ZeroDefault s) (hne : s.size ≠ 0) :
    ∃ ls ms vs s', s.asArrays false = .ok (ls, ms, vs) ∧
      fromArrays s.dtype (ls.map .npInt) (ms.map .npInt) vs = .ok s' ∧ Same s' s := by
  have hw := hr.WF
  have hL : 0 ≤ s.degreeMax := by
    rcases hw.degAttained with ⟨_, h⟩ | ⟨k, hk, h⟩
    · omega
    · have := hw.valid k hk; have := abs_nonneg k.2; omega
  obtain ⟨L, hL'⟩ := Int.eq_ofNat_of_zero_le hL
  obtain ⟨ls0, ms0, vs0, e0, _⟩ := C06_asArrays_default_count s L hL'
  have hfull : s.requested none none none none ≠ [] := by
    intro h; unfold asArrays at e0; simp [h] at e0
  have e1 : s.asArrays false = .ok
      (((s.requested none none none none).filter fun k => s.has (.int k.1) (.int k.2)).map Prod.fst,
       ((s.requested none none none none).filter fun k => s.has (.int k.1) (.int k.2)).map Prod.snd,
       ((s.requested none none none none).filter fun k => s.has (.int k.1) (.int k.2)).map s.getI) := by
    unfold asArrays; simp [hfull]
  generalize hr : (s.requested none none none none).filter (fun k => s.has (.int k.1) (.int k.2)) = r at e1
  have hmem : ∀ k, k ∈ r ↔ k ∈ s.keys := by
    rintro ⟨l, m⟩
    rw [← hr, List.mem_filter, mem_requested]
    simp only [Option.getD_none, has_int]
    constructor
    · exact fun h => h.2
    · intro h
      have h1 := hw.valid _ h
      have h2 := hw.degUpper _ h
      have h3 := abs_nonneg m
      simp only at h1 h2
      refine ⟨⟨by omega, h2, h1, ?_, ?_⟩, h⟩ <;> rw [abs_le] at h1 <;> omega
  have hnd : r.Nodup := by
    rw [← hr]
    refine ((requested_sorted s none none none none).sublist List.filter_sublist).imp ?_
    rintro ⟨a, b⟩ ⟨c, d⟩ h e
    cases e
    rcases h with h | h <;> simp at h
  have hrne : r ≠ [] := by
    intro h
    apply hne
    have : s.keys = [] := List.eq_nil_iff_forall_not_mem.2 fun k hk => by
      have := (hmem k).2 hk; rw [h] at this; cases this
    simpa [Coefs.size, Coefs.keys] using this
  have e2 := fromArrays_eq s.dtype r (r.map s.getI) (by simp) s.dflt.length (by simpa using hrne)
    (by intro x hx; obtain ⟨k, _, rfl⟩ := List.mem_map.1 hx; exact hw.getI_length k)
  have hd : s.dflt = List.replicate s.dflt.length 0 := List.eq_replicate_of_mem hz
  rw [← hd] at e2
  have hzip : (r.zip (r.map s.getI)) = r.map fun k => (k, s.getI k) := by
    conv_lhs => rw [← List.map_id r, List.map_map, List.zip_map']
    rfl
  rw [hzip, List.map_map] at e2
  obtain ⟨s', es, w', hk, hf, ht, hg⟩ := build_ok s.dflt s.dtype hw.dfltTyped r s.getI hnd
    (fun k hk => hw.valid k ((hmem k).1 hk)) (fun k _ => hw.getI_length k)
  refine ⟨_, _, _, s', e1, ?_, hf, ht, ?_, ?_⟩
  · rw [List.map_map, List.map_map]
    exact e2.trans es
  · intro l m
    rw [Bool.eq_iff_iff, has_int, has_int, hk, hmem]
  · intro l m
    rw [get_int, get_int, hg]
    by_cases h : (l, m) ∈ r
    · rw [if_pos h, map_cast_of_typed (hw.getI_typed _)]
    · rw [if_neg h, getI_of_not_mem s _ (fun h' => h ((hmem _).2 h'))]

omit [DecidableEq α] in
/-- **C07.** Conversely, a table of valid pairs without repetition is stored row by row: `from_arrays` succeeds,
each listed pair gets its (cast) row, every other pair is absent and reads as zero. -/
theorem C07_fromArrays_table (dt : DType) (ks : List Key) (row : Key → List α) (n : ℕ) (hne : ks ≠ [])
    (hnd : ks.Nodup) (hv : ∀ k ∈ ks, |k.2| ≤ k.1) (hn : ∀ k ∈ ks, (row k).length = n) :
    ∃ s', fromArrays dt (ks.map fun k => .npInt k.1) (ks.map fun k => .npInt k.2) (ks.map row) = .ok s' ∧
      ∀ l m : ℤ, s'.has (.int l) (.int m) = decide ((l, m) ∈ ks) ∧
        s'.get (.int l) (.int m) =
          .ok (if (l, m) ∈ ks then (row (l, m)).map (Elem.cast dt) else List.replicate n 0) := by
  have hz : ∀ x ∈ List.replicate n (0 : α), Elem.cast dt x = x := by
    intro x hx; rw [List.eq_of_mem_replicate hx]; exact ElemRing.cast_zero dt
  obtain ⟨s', es, w', hk, hf, ht, hg⟩ := build_ok (List.replicate n 0) dt hz ks row hnd hv (by simpa using hn)
  refine ⟨s', ?_, fun l m => ⟨?_, ?_⟩⟩
  · rw [fromArrays_eq dt ks (ks.map row) (by simp) n (by simpa using hne)
      (by intro r hr; obtain ⟨k, hk', rfl⟩ := List.mem_map.1 hr; exact hn k hk'), ← es]
    congr 1
    conv_lhs => rw [← List.map_id ks, List.map_map, List.zip_map', List.map_map]
    simp [Function.comp_def]
  · rw [Bool.eq_iff_iff, has_int, hk, decide_eq_true_iff]
  · rw [get_int, hg]

omit [DecidableEq α] in
private theorem nodup_of_appendAll (s s' : Coefs α) (rows : List (Key × List α))
    (h : appendAll s (rows.map fun kv => intRow kv.1 kv.2) = .ok s') :
    (rows.map Prod.fst).Nodup ∧ ∀ k ∈ rows.map Prod.fst, k ∉ s.keys := by
  induction rows generalizing s with
  | nil => simp
  | cons r rest ih =>
    rw [List.map_cons, intRow, appendAll, append_run, set_run] at h
    by_cases h1 : s.keyIn (.int r.1.1) (.int r.1.2) = true
    · rw [if_pos h1] at h; cases h
    · rw [if_neg h1] at h
      split_ifs at h with h2
      obtain ⟨i1, i2⟩ := ih _ h
      have hr : r.1 ∉ s.keys := fun hh => h1 ((keyIn_int s _ _).2 hh)
      simp only [Idx.toInt_int, mem_keys_stored] at i2
      simp only [List.map_cons, List.nodup_cons, List.mem_cons, forall_eq_or_imp]
      refine ⟨⟨fun hm => ?_, i1⟩, hr, fun k hk => fun hk' => ?_⟩
      · exact i2 _ hm (by simp)
      · exact i2 _ hk (by simp [hk'])

omit [DecidableEq α] in
private theorem appendAll_error_index (s : Coefs α) (rows : List (Key × List α))
    (hv : ∀ kv ∈ rows, |kv.1.2| ≤ kv.1.1 ∧ kv.2.length = s.dflt.length) {e : Err}
    (h : appendAll s (rows.map fun kv => intRow kv.1 kv.2) = .error e) : e = .index := by
  induction rows generalizing s with
  | nil => cases h
  | cons r rest ih =>
    rw [List.map_cons, intRow, appendAll, append_run, set_run] at h
    by_cases h1 : s.keyIn (.int r.1.1) (.int r.1.2) = true
    · rw [if_pos h1] at h; cases h; rfl
    · obtain ⟨v1, v2⟩ := hv r List.mem_cons_self
      rw [if_neg h1, if_pos ⟨by simp only [Idx.val_int]; exact_mod_cast v1, v2⟩] at h
      exact ih (s.stored r.1.1 r.1.2 r.2) (fun kv hkv => hv kv (List.mem_cons_of_mem _ hkv)) h

omit [DecidableEq α] in
/-- **C07.** A table in which a pair occurs twice raises IndexError. -/
theorem C07_fromArrays_refuses_duplicates (dt : DType) (ks : List Key) (rows : List (List α))
    (hl : ks.length = rows.length) (n : ℕ) (hn : ∀ r ∈ rows, r.length = n) (hv : ∀ k ∈ ks, |k.2| ≤ k.1)
    (hdup : ¬ ks.Nodup) :
    fromArrays dt (ks.map fun k => .npInt k.1) (ks.map fun k => .npInt k.2) rows = .error .index := by
  have hne : rows ≠ [] := by
    rintro rfl
    rw [List.length_nil, List.length_eq_zero_iff] at hl
    exact hdup (hl ▸ List.nodup_nil)
  rw [fromArrays_eq dt ks rows hl n hne hn]
  rcases h : appendAll (Coefs.new (List.replicate n 0) dt) ((ks.zip rows).map fun kv => intRow kv.1 kv.2)
    with e | s'
  · rw [h, appendAll_error_index _ _ _ h]
    intro kv hkv
    obtain ⟨h1, h2⟩ := List.of_mem_zip hkv
    exact ⟨hv _ h1, by simpa [Coefs.new] using hn _ h2⟩
  · have := (nodup_of_appendAll _ _ _ h).1
    rw [List.map_fst_zip (by omega)] at this
    exact absurd this hdup

omit [DecidableEq α] in
/-- **C07.** Reading such a table back gives its rows sorted by pair. -/
theorem C07_asArrays_fromArrays (dt : DType) (ks : List Key) (row : Key → List α) (n : ℕ) (hne : ks ≠ [])
    (hnd : ks.Nodup) (hv : ∀ k ∈ ks, |k.2| ≤ k.1) (hn : ∀ k ∈ ks, (row k).length = n) :
    ∃ s' ls ms vs,
      fromArrays dt (ks.map fun k => .npInt k.1) (ks.map fun k => .npInt k.2) (ks.map row) = .ok s' ∧
      s'.asArrays false = .ok (ls, ms, vs) ∧ (ls.zip ms).Perm ks ∧ (ls.zip ms).Pairwise LexLt ∧
      vs = (ls.zip ms).map fun k => (row k).map (Elem.cast dt) := by
  obtain ⟨s', e, h⟩ := C07_fromArrays_table dt ks row n hne hnd hv hn
  have hw : s'.WF := by
    rw [fromArrays_eq dt ks (ks.map row) (by simp) n (by simpa using hne)
      (by intro r hr; obtain ⟨k, hk', rfl⟩ := List.mem_map.1 hr; exact hn k hk')] at e
    refine ((new_WF _ dt ?_).appendAll _ e).1
    intro x hx; rw [List.eq_of_mem_replicate hx]; exact ElemRing.cast_zero dt
  have hk : ∀ l m : ℤ, s'.has (.int l) (.int m) = true ↔ (l, m) ∈ ks := fun l m => by simp [(h l m).1]
  obtain ⟨⟨l0, m0⟩, hk0⟩ := List.exists_mem_of_ne_nil _ hne
  have hwin : ∀ l m : ℤ, (l, m) ∈ ks → 0 ≤ l ∧ l ≤ s'.degreeMax ∧ |m| ≤ l ∧ -s'.degreeMax ≤ m ∧
      m ≤ s'.degreeMax := by
    intro l m hm
    have h1 := hv _ hm
    have h2 := hw.degUpper (l, m) ((has_int _ _ _).1 ((hk l m).2 hm))
    have h3 := abs_nonneg m
    simp only at h1 h2
    refine ⟨by omega, h2, h1, ?_, ?_⟩ <;> rw [abs_le] at h1 <;> omega
  rcases ha : s'.asArrays false with er | ⟨ls, ms, vs⟩
  · exact absurd ⟨l0, m0, hwin l0 m0 hk0⟩ ((C06_asArrays_raises_iff s' false none none none none).1 ⟨er, ha⟩)
  · obtain ⟨hl1, hl2, hs, hm, hg⟩ := C06_asArrays_window s' false none none none none ls ms vs ha
    have hm' : ∀ k, k ∈ ls.zip ms ↔ k ∈ ks := by
      rintro ⟨l, m⟩
      rw [hm, hk]
      simp only [Bool.false_eq_true, false_or, Option.getD_none]
      exact ⟨fun h => h.2, fun h => ⟨hwin l m h, h⟩⟩
    refine ⟨s', ls, ms, vs, e, ha, ?_, hs, ?_⟩
    · refine perm_of_nodup_mem_iff (hs.imp ?_) hnd hm'
      rintro ⟨a, b⟩ ⟨c, d⟩ h e
      cases e
      rcases h with h | h <;> simp at h
    · refine List.ext_getElem (by simp [hl1, hl2]) ?_
      intro i h1 h2
      have hi : i < (ls.zip ms).length := by simpa using h2
      have hmem := List.getElem_mem hi
      have hp := hg ((ls.zip ms)[i], vs[i]) (by
        rw [List.mem_iff_getElem]
        exact ⟨i, by simp only [List.length_zip] at hi ⊢; omega, List.getElem_zip⟩)
      rw [(h _ _).2, if_pos ((hm' _).1 hmem)] at hp
      simp only [Except.ok.injEq] at hp
      rw [List.getElem_map]
      exact hp.symm

omit [DecidableEq α] in
/-- **C07.** Another number of degrees than of rows, or no rows at all, raises IndexError, whatever the orders. -/
theorem C07_fromArrays_refuses_lengths (dt : DType) (ds os : List Idx) (rows : List (List α))
    (h : ds.length ≠ rows.length ∨ rows = []) : fromArrays dt ds os rows = .error .index := by
  unfold fromArrays
  split
  · rfl
  · rcases h with h | rfl
    · exact absurd h ‹_›
    · rfl

omit [DecidableEq α] in
/-- **C07.** The number of orders is not checked: with fewer orders than degrees the rows without an order are dropped without
a word, and orders beyond the last row are ignored. -/
theorem C07_fromArrays_orders_unchecked (dt : DType) (ds os : List Idx) (rows : List (List α))
    (h : ds.length = rows.length) (ho : os ≠ []) :
    fromArrays dt ds os rows
      = fromArrays dt (ds.take os.length) (os.take ds.length) (rows.take os.length) := by
  unfold fromArrays
  obtain ⟨o, os, rfl⟩ := List.exists_cons_of_ne_nil ho
  rw [if_neg (not_not.2 h), if_neg (by simp [h])]
  rcases rows with _ | ⟨r, rows⟩
  · rfl
  · rcases ds with _ | ⟨d, ds⟩
    · simp at h
    · simp only [List.length_cons, List.take_succ_cons, List.zip_cons_cons]
      congr 2
      simp only [List.length_cons, Nat.add_right_cancel_iff] at h
      clear ho
      induction os generalizing ds rows with
      | nil => simp
      | cons a os ih =>
        rcases ds with _ | ⟨d', ds⟩
        · simp
        · rcases rows with _ | ⟨r', rows⟩
          · simp at h
          · simp only [List.length_cons, List.take_succ_cons, List.zip_cons_cons]
            rw [ih]
            simpa using h

end C07

/-- Non-vacuity of C07: a two-column table with a gap, and a duplicated row. -/
example : fromArrays (α := ℚ) .real [.npInt 2, .npInt 1] [.npInt (-1), .npInt 1] [[1, 2], [3, 4]]
    = .ok ⟨[0, 0], .real, [((2, -1), [1, 2]), ((1, 1), [3, 4])], 2, -1⟩ := by
  simp [fromArrays, appendAll, append_run, set_run, Coefs.new, keyIn, stored, dictSet, Elem.cast, castQ,
    Idx.val, Idx.toInt]
example : fromArrays (α := ℚ) .real [.npInt 1, .npInt 1] [.npInt 1, .npInt 1] [[1], [3]] = .error .index := by
  simp [fromArrays, appendAll, append_run, set_run, Coefs.new, keyIn, stored, dictSet, Elem.cast, castQ,
    Idx.val, Idx.toInt]
/-- Two rows, one order: the second row is dropped. -/
example : fromArrays (α := ℚ) .real [.npInt 2, .npInt 1] [.npInt (-1)] [[1], [3]]
    = .ok ⟨[0], .real, [((2, -1), [1])], 2, -1⟩ := by
  simp [fromArrays, appendAll, append_run, set_run, Coefs.new, keyIn, stored, dictSet, Elem.cast, castQ,
    Idx.val, Idx.toInt]
example : fromArrays (α := ℚ) .real [.npInt 2] [.npInt (-1)] [[1], [3]] = .error .index :=
  C07_fromArrays_refuses_lengths _ _ _ _ (Or.inl (by decide))

end Verif
