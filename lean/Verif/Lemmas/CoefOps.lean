import Verif.Spec.Cuts
import Verif.Lemmas.Coefficients

/-! Closed forms of the container operations on well-formed sets. Helper lemmas only. -/

namespace Verif
namespace Coefs

variable {α : Type}

theorem bcast_eq_length {β γ : Type} (f : α → β → γ) {xs : List α} {ys : List β}
    (h : xs.length = ys.length) : bcast f xs ys = .ok (List.zipWith f xs ys) := by
  simp [bcast, h]

theorem bcast_singleton {β γ : Type} (f : α → β → γ) (xs : List α) (y : β) :
    bcast f xs [y] = .ok (xs.map (f · y)) := by
  match xs with
  | [] => simp [bcast]
  | [x] => simp [bcast]
  | x :: x' :: xs => simp [bcast]

section
variable [Elem α]

omit [Elem α] in
theorem contents_rows (s : Coefs α) (g : Key → List α → List α) :
    (s.contents.map fun kv => intRow kv.1 (g kv.1 kv.2))
      = (sortKeys s.keys).map fun k => intRow k (g k (s.getI k)) := by
  simp [contents, Function.comp_def]

/-- Rebuilding from `contents` with a length-preserving transformation. -/
theorem rebuild_ok {s : Coefs α} (hs : s.WF) (g : Key → List α → List α)
    (hg : ∀ k xs, (g k xs).length = xs.length) :
    ∃ s', appendAll s.emptyLike (s.contents.map fun kv => intRow kv.1 (g kv.1 kv.2)) = .ok s' ∧ s'.WF ∧
      s'.keys = sortKeys s.keys ∧ s'.dflt = s.dflt ∧ s'.dtype = s.dtype ∧
      ∀ k, s'.getI k = if k ∈ s.keys then (g k (s.getI k)).map (Elem.cast s.dtype) else s.dflt := by
  rw [contents_rows]
  obtain ⟨s', h1, h2, h3, h4, h5, h6⟩ := build_ok s.dflt s.dtype hs.dfltTyped (sortKeys s.keys)
    (fun k => g k (s.getI k)) ((sortKeys_nodup _).2 hs.nodup)
    (fun k hk => hs.valid k ((mem_sortKeys _ _).1 hk))
    (fun k _ => by rw [hg, hs.getI_length])
  exact ⟨s', h1, h2, h3, h4, h5, by simpa using h6⟩

theorem copy_spec {s : Coefs α} (hs : s.WF) :
    ∃ s', copy s = .ok s' ∧ s'.WF ∧ s'.keys = sortKeys s.keys ∧ s'.dflt = s.dflt ∧ s'.dtype = s.dtype ∧
      ∀ k, s'.getI k = s.getI k := by
  obtain ⟨s', h1, h2, h3, h4, h5, h6⟩ := rebuild_ok hs (fun _ xs => xs) (fun _ _ => rfl)
  refine ⟨s', h1, h2, h3, h4, h5, fun k => ?_⟩
  rw [h6]
  split_ifs with h
  · exact map_cast_of_typed (hs.getI_typed k)
  · rw [getI_of_not_mem s k h]

theorem zerosLike_spec {s : Coefs α} (hs : s.WF) :
    ∃ s', zerosLike s = .ok s' ∧ s'.WF ∧ s'.keys = sortKeys s.keys ∧ s'.dflt = s.dflt ∧
      s'.dtype = s.dtype ∧ ∀ k, s'.getI k = s.dflt := by
  have e : (s.contents.map fun kv => intRow kv.1 s.dflt)
      = (sortKeys s.keys).map fun k => intRow k s.dflt := by simp [contents, Function.comp_def]
  rw [zerosLike, e]
  obtain ⟨s', h1, h2, h3, h4, h5, h6⟩ := build_ok s.dflt s.dtype hs.dfltTyped (sortKeys s.keys)
    (fun _ => s.dflt) ((sortKeys_nodup _).2 hs.nodup)
    (fun k hk => hs.valid k ((mem_sortKeys _ _).1 hk)) (fun _ _ => rfl)
  refine ⟨s', h1, h2, h3, h4, h5, fun k => ?_⟩
  rw [h6, map_cast_of_typed hs.dfltTyped]
  simp

theorem truncated_spec {s : Coefs α} (hs : s.WF) (n : ℤ) :
    ∃ s', truncated s n = .ok s' ∧ s'.WF ∧ (∀ k, k ∈ s'.keys ↔ k ∈ s.keys ∧ k.1 ≤ n) ∧
      s'.dflt = s.dflt ∧ s'.dtype = s.dtype ∧ ∀ k, k.1 ≤ n → s'.getI k = s.getI k := by
  have e : ((s.contents.filter fun kv => decide (kv.1.1 ≤ n)).map fun kv => intRow kv.1 kv.2)
      = ((sortKeys s.keys).filter fun k => decide (k.1 ≤ n)).map fun k => intRow k (s.getI k) := by
    rw [contents, List.filter_map, List.map_map]; rfl
  rw [truncated, e]
  obtain ⟨s', h1, h2, h3, h4, h5, h6⟩ := build_ok s.dflt s.dtype hs.dfltTyped
    ((sortKeys s.keys).filter fun k => decide (k.1 ≤ n)) s.getI
    (((sortKeys_nodup _).2 hs.nodup).filter _)
    (fun k hk => hs.valid k ((mem_sortKeys _ _).1 (List.mem_of_mem_filter hk)))
    (fun k _ => hs.getI_length k)
  refine ⟨s', h1, h2, ?_, h4, h5, fun k hk => ?_⟩
  · intro k; rw [h3]; simp
  · rw [h6, map_cast_of_typed (hs.getI_typed k)]
    by_cases h : k ∈ s.keys
    · simp [h, hk]
    · simp [h, getI_of_not_mem s k h]

theorem pow_spec {α : Type} [DivisionRing α] [Elem α] {s : Coefs α} (hs : s.WF) (p : ℤ) :
    ∃ s', pow s p = .ok s' ∧ s'.WF ∧ s'.keys = sortKeys s.keys ∧ s'.dflt = s.dflt ∧ s'.dtype = s.dtype ∧
      ∀ k, s'.getI k = if k ∈ s.keys then (s.getI k).map (fun x => Elem.cast s.dtype (x ^ p)) else s.dflt := by
  obtain ⟨s', h1, h2, h3, h4, h5, h6⟩ := rebuild_ok hs (fun _ xs => xs.map (· ^ p)) (by simp)
  refine ⟨s', h1, h2, h3, h4, h5, fun k => ?_⟩
  rw [h6]; simp [Function.comp_def]

theorem combineLoop_eq (f : α → α → α) (a b acc : Coefs α) (ks : List Key)
    (h : ∀ k ∈ ks, (a.getI k).length = (b.getI k).length) :
    combineLoop f a b acc ks
      = appendAll acc (ks.map fun k => intRow k (List.zipWith f (a.getI k) (b.getI k))) := by
  induction ks generalizing acc with
  | nil => rfl
  | cons k ks ih =>
    have hk := h k List.mem_cons_self
    rw [combineLoop, bcast_eq_length f hk, List.map_cons, intRow, appendAll]
    change (match append (.int k.1) (.int k.2) _ acc with | .ok () s => _ | .error e _ => _) = _
    rcases append (.int k.1) (.int k.2) (List.zipWith f (a.getI k) (b.getI k)) acc with ⟨⟨⟩, s⟩ | ⟨e, s⟩
    · exact ih s (fun k' h' => h k' (List.mem_cons_of_mem _ h'))
    · rfl

theorem combine_spec (f : α → α → α) {a b : Coefs α} (ha : a.WF) (hb : b.WF)
    (hl : a.dflt.length = b.dflt.length) {ks : List Key} (hk : IsSetIter ks (a.keys ++ b.keys)) :
    ∃ s', combineLoop f a b a.emptyLike ks = .ok s' ∧ s'.WF ∧ s'.keys = ks ∧ s'.dflt = a.dflt ∧
      s'.dtype = a.dtype ∧
      ∀ k, s'.getI k = if k ∈ ks then (List.zipWith f (a.getI k) (b.getI k)).map (Elem.cast a.dtype)
        else a.dflt := by
  have hlen : ∀ k, (a.getI k).length = (b.getI k).length := fun k => by
    rw [ha.getI_length, hb.getI_length, hl]
  rw [combineLoop_eq f a b _ ks (fun k _ => hlen k)]
  refine build_ok a.dflt a.dtype ha.dfltTyped ks _ hk.1 ?_ ?_
  · intro k h
    rcases List.mem_append.1 ((hk.2 k).1 h) with h | h
    · exact ha.valid k h
    · exact hb.valid k h
  · intro k _
    rw [List.length_zipWith, hlen, min_self, hb.getI_length, hl]

theorem mulArray_go_eq [Mul α] (value : List α) (v : List α → List α)
    (rows : List (Key × List α)) (hv : ∀ kv ∈ rows, bcast (· * ·) kv.2 value = .ok (v kv.2)) (acc : Coefs α) :
    mulArray.go value acc rows = appendAll acc (rows.map fun kv => intRow kv.1 (v kv.2)) := by
  induction rows generalizing acc with
  | nil => rfl
  | cons kv rows ih =>
    obtain ⟨k, c⟩ := kv
    rw [mulArray.go, hv (k, c) List.mem_cons_self, List.map_cons, intRow, appendAll]
    change (match append (.int k.1) (.int k.2) _ acc with | .ok () s => _ | .error e _ => _) = _
    rcases append (.int k.1) (.int k.2) (v c) acc with ⟨⟨⟩, s⟩ | ⟨e, s⟩
    · exact ih (fun kv' h' => hv kv' (List.mem_cons_of_mem _ h')) s
    · rfl

theorem mulScalar_spec [Mul α] {s : Coefs α} (hs : s.WF) (x : α) :
    ∃ s', mulScalar s x = .ok s' ∧ s'.WF ∧ s'.keys = sortKeys s.keys ∧ s'.dflt = s.dflt ∧
      s'.dtype = s.dtype ∧
      ∀ k, s'.getI k
        = if k ∈ s.keys then (s.getI k).map (fun c => Elem.cast s.dtype (c * x)) else s.dflt := by
  have e : mulScalar s x = appendAll s.emptyLike
      (s.contents.map fun kv => intRow kv.1 (kv.2.map (· * x))) :=
    mulArray_go_eq [x] (fun c => c.map (· * x)) s.contents (fun kv _ => bcast_singleton _ _ _) _
  rw [e]
  obtain ⟨s', h1, h2, h3, h4, h5, h6⟩ := rebuild_ok hs (fun _ xs => xs.map (· * x)) (by simp)
  refine ⟨s', h1, h2, h3, h4, h5, fun k => ?_⟩
  rw [h6]; simp [Function.comp_def]

theorem mulArray_spec [Mul α] {s : Coefs α} (hs : s.WF) (xs : List α) (hx : xs.length = s.dflt.length) :
    ∃ s', mulArray s xs = .ok s' ∧ s'.WF ∧ s'.keys = sortKeys s.keys ∧ s'.dflt = s.dflt ∧
      s'.dtype = s.dtype ∧
      ∀ k, s'.getI k
        = if k ∈ s.keys then (List.zipWith (· * ·) (s.getI k) xs).map (Elem.cast s.dtype) else s.dflt := by
  have e : mulArray s xs = appendAll s.emptyLike
      (s.contents.map fun kv => intRow kv.1 (List.zipWith (· * ·) kv.2 xs)) :=
    mulArray_go_eq xs (fun c => List.zipWith (· * ·) c xs) s.contents (fun kv h => by
      refine bcast_eq_length _ ?_
      rw [((mem_contents s kv).1 h).2, hs.getI_length, hx]) _
  have e2 : (s.contents.map fun kv => intRow kv.1 (List.zipWith (· * ·) kv.2 xs))
      = (sortKeys s.keys).map fun k => intRow k (List.zipWith (· * ·) (s.getI k) xs) :=
    contents_rows s (fun _ c => List.zipWith (· * ·) c xs)
  rw [e, e2]
  obtain ⟨s', h1, h2, h3, h4, h5, h6⟩ := build_ok s.dflt s.dtype hs.dfltTyped (sortKeys s.keys)
    (fun k => List.zipWith (· * ·) (s.getI k) xs) ((sortKeys_nodup _).2 hs.nodup)
    (fun k hk => hs.valid k ((mem_sortKeys _ _).1 hk))
    (fun k _ => by rw [List.length_zipWith, hs.getI_length, hx, min_self])
  exact ⟨s', h1, h2, h3, h4, h5, by simpa using h6⟩

/-! ### scale -/

theorem imulAt_ok [Mul α] {s : Coefs α} (hs : s.WF) {k : Key} (hk : k ∈ s.keys) (x : α) :
    ∃ s', imulAt s k x = .ok s' ∧ s'.WF ∧ s'.keys = s.keys ∧ s'.dflt = s.dflt ∧ s'.dtype = s.dtype ∧
      ∀ k', s'.getI k'
        = if k' = k then (s.getI k).map (fun c => Elem.cast s.dtype (c * x)) else s.getI k' := by
  have hg : dictGet s.dict k = some (s.getI k) := by rw [dictGet_eq, if_pos hk]
  have hkeys : (dictSet s.dict k ((s.getI k).map fun c => Elem.cast s.dtype (c * x))).map Prod.fst
      = s.keys := dictSet_keys_of_mem _ _ _ hk
  have hkeys' : keys { s with dict := dictSet s.dict k ((s.getI k).map fun c => Elem.cast s.dtype (c * x)) }
      = s.keys := hkeys
  refine ⟨{ s with dict := dictSet s.dict k ((s.getI k).map fun c => Elem.cast s.dtype (c * x)) },
    by rw [imulAt, hg], ?_, hkeys, rfl, rfl, ?_⟩
  · constructor
    · rw [hkeys']; exact hs.nodup
    · intro k' h; exact hs.valid k' (hkeys' ▸ h)
    · intro kv h
      rcases mem_dictSet _ _ _ _ h with rfl | h
      · simpa using hs.getI_length k
      · exact hs.shape kv h
    · intro kv h
      rcases mem_dictSet _ _ _ _ h with rfl | h
      · intro y hy
        simp only [List.mem_map] at hy
        obtain ⟨z, _, rfl⟩ := hy
        exact Elem.cast_idem _ _
      · exact hs.dtyped kv h
    · exact hs.dfltTyped
    · intro k' h; exact hs.degUpper k' (hkeys' ▸ h)
    · rw [hkeys']; exact hs.degAttained
    · intro k' h; exact hs.ordLower k' (hkeys' ▸ h)
    · rw [hkeys']; exact hs.ordAttained
    · exact hs.ordNonpos
  · intro k'
    simp only [getI, dictGet_dictSet]
    by_cases h : k = k'
    · subst h; simp
    · have h' : k' ≠ k := fun e => h e.symm
      simp [h, h']

theorem imul_fold [DivisionRing α] {dt : DType} (fdt : DType) (hf : fdt.promote dt = dt)
    (f : ℤ → ℤ → α) (p : ℤ) (ks : List Key) (hn : ks.Nodup) {o : Coefs α} (ho : o.WF) (hdt : o.dtype = dt)
    (hsub : ∀ k ∈ ks, k ∈ o.keys) :
    ∃ s', ks.foldlM (fun o k => if (fdt.promote dt) = dt then imulAt o k (f k.1 k.2 ^ p)
        else (.error .type : Res (Coefs α))) o = .ok s' ∧ s'.WF ∧ s'.keys = o.keys ∧ s'.dflt = o.dflt ∧
      s'.dtype = o.dtype ∧
      ∀ k, s'.getI k = if k ∈ ks then (o.getI k).map (fun c => Elem.cast dt (c * f k.1 k.2 ^ p))
        else o.getI k := by
  induction ks generalizing o with
  | nil => exact ⟨o, rfl, ho, rfl, rfl, rfl, by simp⟩
  | cons k ks ih =>
    obtain ⟨o1, e1, w1, k1, d1, t1, g1⟩ := imulAt_ok ho (hsub k List.mem_cons_self) (f k.1 k.2 ^ p)
    rw [List.nodup_cons] at hn
    obtain ⟨s', e2, w2, k2, d2, t2, g2⟩ := ih hn.2 w1 (t1.trans hdt)
      (fun k' h => by rw [k1]; exact hsub k' (List.mem_cons_of_mem _ h))
    refine ⟨s', ?_, w2, k2.trans k1, d2.trans d1, t2.trans t1, fun k' => ?_⟩
    · rw [List.foldlM_cons, if_pos hf, e1]; exact e2
    · rw [g2, g1, hdt]
      by_cases h1 : k' = k
      · subst h1; simp [hn.1]
      · simp [h1]

theorem scale_spec [DivisionRing α] {s : Coefs α} (hs : s.WF) (f : ℤ → ℤ → α) (p : ℤ) (fdt : DType)
    (hf : fdt.promote s.dtype = s.dtype) :
    ∃ s', scale s f p fdt = .ok s' ∧ s'.WF ∧ s'.keys = sortKeys s.keys ∧ s'.dflt = s.dflt ∧
      s'.dtype = s.dtype ∧
      ∀ k, s'.getI k = if k ∈ s.keys then (s.getI k).map (fun c => Elem.cast s.dtype (c * f k.1 k.2 ^ p))
        else s.dflt := by
  obtain ⟨o, e1, w1, k1, d1, t1, g1⟩ := copy_spec hs
  obtain ⟨s', e2, w2, k2, d2, t2, g2⟩ := imul_fold fdt hf f p s.keys hs.nodup w1 t1
    (fun k h => by rw [k1]; simpa using h)
  refine ⟨s', ?_, w2, k2.trans k1, d2.trans d1, t2.trans t1, fun k => ?_⟩
  · rw [scale, e1]; exact e2
  · rw [g2, g1]
    split_ifs with h
    · rfl
    · exact getI_of_not_mem s k h

/-! ### hstack -/

theorem promote_rank_left (a b : DType) : a.rank ≤ (a.promote b).rank := by
  unfold DType.promote; split_ifs <;> omega

theorem promote_rank_right (a b : DType) : b.rank ≤ (a.promote b).rank := by
  unfold DType.promote; split_ifs <;> omega

omit [Elem α] in
theorem foldl_promote_ge (ss : List (Coefs α)) (d : DType) :
    d.rank ≤ (ss.foldl (fun d s => d.promote s.dtype) d).rank ∧
    ∀ s ∈ ss, s.dtype.rank ≤ (ss.foldl (fun d s => d.promote s.dtype) d).rank := by
  induction ss generalizing d with
  | nil => simp
  | cons s ss ih =>
    rw [List.foldl_cons]
    obtain ⟨h1, h2⟩ := ih (d.promote s.dtype)
    refine ⟨le_trans (promote_rank_left _ _) h1, ?_⟩
    intro t ht
    rcases List.mem_cons.1 ht with rfl | ht
    · exact le_trans (promote_rank_right _ _) h1
    · exact h2 t ht

theorem hstack_spec {s0 : Coefs α} {rest : List (Coefs α)} (hw : ∀ s ∈ s0 :: rest, s.WF) {ks : List Key}
    (hk : IsSetIter ks ((s0 :: rest).flatMap keys)) :
    ∃ s', hstack ks (s0 :: rest) = .ok s' ∧ s'.WF ∧ s'.keys = ks ∧
      s'.dflt = (s0 :: rest).flatMap (fun s => s.dflt) ∧
      s'.dtype = rest.foldl (fun d s => d.promote s.dtype) s0.dtype ∧
      ∀ k, s'.getI k = (s0 :: rest).flatMap fun s => s.getI k := by
  have hr := foldl_promote_ge rest s0.dtype
  have hrank : ∀ s ∈ s0 :: rest,
      s.dtype.rank ≤ (rest.foldl (fun d s => d.promote s.dtype) s0.dtype).rank := by
    intro s hs
    rcases List.mem_cons.1 hs with rfl | hs
    · exact hr.1
    · exact hr.2 s hs
  generalize hdt : rest.foldl (fun d s => d.promote s.dtype) s0.dtype = dt at hrank
  have hd : ((s0 :: rest).flatMap fun s => s.dflt).map (Elem.cast dt)
      = (s0 :: rest).flatMap fun s => s.dflt := by
    refine map_cast_of_typed ?_
    intro x hx
    obtain ⟨s, hs, hx⟩ := List.mem_flatMap.1 hx
    exact Elem.cast_mono _ _ _ (hrank s hs) ((hw s hs).dfltTyped x hx)
  have hv : ∀ k, ((s0 :: rest).flatMap fun s => s.getI k).map (Elem.cast dt)
      = (s0 :: rest).flatMap fun s => s.getI k := by
    intro k
    refine map_cast_of_typed ?_
    intro x hx
    obtain ⟨s, hs, hx⟩ := List.mem_flatMap.1 hx
    exact Elem.cast_mono _ _ _ (hrank s hs) ((hw s hs).getI_typed k x hx)
  have hlen : ∀ k, ((s0 :: rest).flatMap fun s => s.getI k).length
      = ((s0 :: rest).flatMap fun s => s.dflt).length := by
    intro k
    rw [List.length_flatMap, List.length_flatMap]
    congr 1
    exact List.map_congr_left fun s hs => (hw s hs).getI_length k
  obtain ⟨s', h1, h2, h3, h4, h5, h6⟩ := build_ok ((s0 :: rest).flatMap fun s => s.dflt) dt
    (by
      intro x hx
      obtain ⟨s, hs, hx⟩ := List.mem_flatMap.1 hx
      exact Elem.cast_mono _ _ _ (hrank s hs) ((hw s hs).dfltTyped x hx))
    ks (fun k => (s0 :: rest).flatMap fun s => s.getI k) hk.1
    (by
      intro k h
      obtain ⟨s, hs, hx⟩ := List.mem_flatMap.1 ((hk.2 k).1 h)
      exact (hw s hs).valid k hx)
    (fun k _ => hlen k)
  refine ⟨s', ?_, h2, h3, h4, h5, fun k => ?_⟩
  · rw [hstack, hdt, hd]; exact h1
  · rw [h6, hv]
    split_ifs with h
    · rfl
    · refine (List.flatMap_congr ?_).symm
      intro s hs
      refine getI_of_not_mem s k (fun hmem => h ((hk.2 k).2 ?_))
      exact List.mem_flatMap.2 ⟨s, hs, hmem⟩

/-! ### hsplit -/

/-- Section `i` of `n` equal sections. -/
def sect {β : Type} (xs : List β) (n i : ℕ) : List β :=
  (xs.drop (i * (xs.length / n))).take (xs.length / n)

omit [Elem α] in
theorem npSplit_ok (xs : List α) (n : ℕ) (h0 : n ≠ 0) (h : xs.length % n = 0) :
    npSplit xs n = .ok ((List.range n).map (sect xs n)) := by
  simp only [npSplit, if_neg h0, if_pos h]; rfl

theorem sect_length {β : Type} (xs : List β) (n i : ℕ) (h : xs.length % n = 0) (hi : i < n) :
    (sect xs n i).length = xs.length / n := by
  have h1 : n * (xs.length / n) = xs.length := Nat.mul_div_cancel' (Nat.dvd_of_mod_eq_zero h)
  have h2 : (i + 1) * (xs.length / n) ≤ n * (xs.length / n) := Nat.mul_le_mul_right _ hi
  rw [sect, List.length_take, List.length_drop]
  rw [Nat.add_mul, one_mul] at h2
  omega

theorem hsplitRow_ok (k : Key) (is : List ℕ) (S S' : ℕ → Coefs α) (V : ℕ → List α)
    (h : ∀ i ∈ is, append (.int k.1) (.int k.2) (V i) (S i) = .ok () (S' i)) :
    hsplitRow k (is.map S) (is.map V) = .ok (is.map S') := by
  induction is with
  | nil => rfl
  | cons i is ih =>
    rw [List.map_cons, List.map_cons, List.map_cons, hsplitRow, h i List.mem_cons_self]
    change (do let r ← hsplitRow k (is.map S) (is.map V); pure (S' i :: r)) = _
    rw [ih (fun j hj => h j (List.mem_cons_of_mem _ hj))]
    rfl

theorem hsplit_fold (n : ℕ) (h0 : n ≠ 0) (rows : List (Key × List α)) (S T : ℕ → Coefs α)
    (hm : ∀ kv ∈ rows, kv.2.length % n = 0)
    (h : ∀ i < n, appendAll (S i) (rows.map fun kv => intRow kv.1 (sect kv.2 n i)) = .ok (T i)) :
    rows.foldlM (fun shcs kv => do
      let vs ← npSplit kv.2 n
      hsplitRow kv.1 shcs vs) ((List.range n).map S) = (.ok ((List.range n).map T) : Res _) := by
  induction rows generalizing S with
  | nil =>
    have : ∀ i < n, S i = T i := fun i hi => by
      have := h i hi
      simpa [appendAll] using this
    rw [List.foldlM_nil]
    change Except.ok _ = _
    congr 1
    exact List.map_congr_left fun i hi => this i (List.mem_range.1 hi)
  | cons kv rows ih =>
    obtain ⟨k, v⟩ := kv
    have hstep : ∀ i, i < n → ∃ s1, append (.int k.1) (.int k.2) (sect v n i) (S i) = .ok () s1 ∧
        appendAll s1 (rows.map fun kv => intRow kv.1 (sect kv.2 n i)) = .ok (T i) := by
      intro i hi
      have := h i hi
      rw [List.map_cons, intRow, appendAll] at this
      rcases hr : append (.int k.1) (.int k.2) (sect v n i) (S i) with ⟨⟨⟩, s1⟩ | ⟨e, s1⟩
      · rw [hr] at this; exact ⟨s1, rfl, this⟩
      · rw [hr] at this; cases this
    choose S1 hS1 using hstep
    let S1' : ℕ → Coefs α := fun i => if hi : i < n then S1 i hi else S i
    have hS1' : ∀ i (hi : i < n), S1' i = S1 i hi := fun i hi => dif_pos hi
    rw [List.foldlM_cons, npSplit_ok v n h0 (hm (k, v) List.mem_cons_self)]
    change ((hsplitRow k ((List.range n).map S) ((List.range n).map (sect v n))) >>= _) = _
    rw [hsplitRow_ok k (List.range n) S S1' (sect v n) (fun i hi => by
      rw [hS1' i (List.mem_range.1 hi)]; exact (hS1 i (List.mem_range.1 hi)).1)]
    exact ih S1' (fun kv h => hm kv (List.mem_cons_of_mem _ h)) (fun i hi => by
      rw [hS1' i hi]; exact (hS1 i hi).2)

theorem mem_sect {β : Type} {xs : List β} {n i : ℕ} {x : β} (h : x ∈ sect xs n i) : x ∈ xs :=
  List.mem_of_mem_drop (List.mem_of_mem_take h)

theorem hsplit_spec {s : Coefs α} (hs : s.WF) (n : ℕ) (h0 : n ≠ 0) (hn : s.dflt.length % n = 0) :
    ∃ T : ℕ → Coefs α, hsplit s (some n) = .ok ((List.range n).map T) ∧
      ∀ i < n, (T i).WF ∧ (T i).keys = sortKeys s.keys ∧ (T i).dflt = sect s.dflt n i ∧
        (T i).dtype = s.dtype ∧ ∀ k, (T i).getI k = sect (s.getI k) n i := by
  have hb : ∀ i, i < n → ∃ t, appendAll (new (sect s.dflt n i) s.dtype)
      ((sortKeys s.keys).map fun k => intRow k (sect (s.getI k) n i)) = .ok t ∧ t.WF ∧
      t.keys = sortKeys s.keys ∧ t.dflt = sect s.dflt n i ∧ t.dtype = s.dtype ∧
      ∀ k, t.getI k = if k ∈ sortKeys s.keys then (sect (s.getI k) n i).map (Elem.cast s.dtype)
        else sect s.dflt n i := by
    intro i hi
    refine build_ok _ _ (fun x hx => hs.dfltTyped x (mem_sect hx)) _ _ ((sortKeys_nodup _).2 hs.nodup)
      (fun k hk => hs.valid k ((mem_sortKeys _ _).1 hk)) (fun k _ => ?_)
    rw [sect_length _ _ _ hn hi, sect_length _ _ _ (by rw [hs.getI_length]; exact hn) hi, hs.getI_length]
  choose T hT using hb
  let T' : ℕ → Coefs α := fun i => if hi : i < n then T i hi else s
  have hT' : ∀ i (hi : i < n), T' i = T i hi := fun i hi => dif_pos hi
  refine ⟨T', ?_, fun i hi => ?_⟩
  · rw [hsplit]
    simp only [Option.getD_some, npSplit_ok s.dflt n h0 hn]
    change s.contents.foldlM _ (((List.range n).map (sect s.dflt n)).map fun d => new d s.dtype) = _
    rw [List.map_map]
    refine hsplit_fold n h0 s.contents (fun i => new (sect s.dflt n i) s.dtype) T' ?_ ?_
    · intro kv h
      rw [((mem_contents s kv).1 h).2, hs.getI_length]; exact hn
    · intro i hi
      rw [hT' i hi, ← (hT i hi).1]
      rw [contents_rows s (fun _ v => sect v n i)]
  · rw [hT' i hi]
    obtain ⟨_, h2, h3, h4, h5, h6⟩ := hT i hi
    refine ⟨h2, h3, h4, h5, fun k => ?_⟩
    rw [h6, map_cast_of_typed (fun x hx => hs.getI_typed k x (mem_sect hx))]
    by_cases h : k ∈ s.keys
    · simp [h]
    · simp [h, getI_of_not_mem s k h]

/-! ### Splitting at positions -/

theorem slicePos_eq (n : ℕ) : slicePos n = Spec.cutPos n := by
  funext i
  unfold slicePos Spec.cutPos
  split_ifs <;> omega

theorem slicePos_le (n : ℕ) (i : ℤ) : slicePos n i ≤ n := by
  unfold slicePos
  split_ifs
  · omega
  · exact min_le_right _ _

theorem slicePos_zero (n : ℕ) : slicePos n 0 = 0 := by simp [slicePos]

theorem slicePos_self (n : ℕ) : slicePos n n = n := by
  unfold slicePos
  split_ifs <;> omega

theorem pySlice_length {β : Type} (xs : List β) (a b : ℤ) :
    (pySlice xs a b).length = slicePos xs.length b - slicePos xs.length a := by
  rw [pySlice, List.length_drop, List.length_take, min_eq_left (slicePos_le _ _)]

theorem mem_pySlice {β : Type} {xs : List β} {a b : ℤ} {x : β} (h : x ∈ pySlice xs a b) : x ∈ xs :=
  List.mem_of_mem_take (List.mem_of_mem_drop h)

/-- The pairs of consecutive positions. -/
def cuts (n : ℕ) (idx : List ℤ) : List (ℤ × ℤ) := (0 :: idx).zip (idx ++ [(n : ℤ)])

theorem npSplitAt_eq {β : Type} (xs : List β) (idx : List ℤ) :
    npSplitAt xs idx = (cuts xs.length idx).map fun c => pySlice xs c.1 c.2 := by
  rw [npSplitAt, cuts, List.zip, List.map_zipWith]

theorem hsplitRow_map {ι : Type} (k : Key) (is : List ι) (S S' : ι → Coefs α) (V : ι → List α)
    (h : ∀ i ∈ is, append (.int k.1) (.int k.2) (V i) (S i) = .ok () (S' i)) :
    hsplitRow k (is.map S) (is.map V) = .ok (is.map S') := by
  induction is with
  | nil => rfl
  | cons i is ih =>
    rw [List.map_cons, List.map_cons, List.map_cons, hsplitRow, h i List.mem_cons_self]
    change (do let r ← hsplitRow k (is.map S) (is.map V); pure (S' i :: r)) = _
    rw [ih (fun j hj => h j (List.mem_cons_of_mem _ hj))]
    rfl

theorem hsplitAt_fold (n : ℕ) (idx : List ℤ) (rows : List (Key × List α)) (S T : ℤ × ℤ → Coefs α)
    (hm : ∀ kv ∈ rows, kv.2.length = n)
    (h : ∀ c, appendAll (S c) (rows.map fun kv => intRow kv.1 (pySlice kv.2 c.1 c.2)) = .ok (T c)) :
    rows.foldlM (fun shcs kv => hsplitRow kv.1 shcs (npSplitAt kv.2 idx)) ((cuts n idx).map S) =
      (.ok ((cuts n idx).map T) : Res _) := by
  induction rows generalizing S with
  | nil =>
    have : ∀ c, S c = T c := fun c => by
      have := h c
      simpa [appendAll] using this
    rw [List.foldlM_nil]
    change Except.ok _ = _
    congr 1
    exact List.map_congr_left fun c _ => this c
  | cons kv rows ih =>
    obtain ⟨k, v⟩ := kv
    have hstep : ∀ c, ∃ s1, append (.int k.1) (.int k.2) (pySlice v c.1 c.2) (S c) = .ok () s1 ∧
        appendAll s1 (rows.map fun kv => intRow kv.1 (pySlice kv.2 c.1 c.2)) = .ok (T c) := by
      intro c
      have := h c
      rw [List.map_cons, intRow, appendAll] at this
      rcases hr : append (.int k.1) (.int k.2) (pySlice v c.1 c.2) (S c) with ⟨⟨⟩, s1⟩ | ⟨e, s1⟩
      · rw [hr] at this; exact ⟨s1, rfl, this⟩
      · rw [hr] at this; cases this
    choose S1 hS1 using hstep
    rw [List.foldlM_cons, npSplitAt_eq, hm (k, v) List.mem_cons_self, hsplitRow_map k _ S S1 _ (fun c _ => (hS1 c).1)]
    exact ih S1 (fun kv h => hm kv (List.mem_cons_of_mem _ h)) (fun c => (hS1 c).2)

theorem hsplitAt_spec {s : Coefs α} (hs : s.WF) (idx : List ℤ) :
    ∃ T : ℤ × ℤ → Coefs α, hsplitAt s idx = .ok ((cuts s.dflt.length idx).map T) ∧
      ∀ c, (T c).WF ∧ (T c).keys = sortKeys s.keys ∧ (T c).dflt = pySlice s.dflt c.1 c.2 ∧
        (T c).dtype = s.dtype ∧ ∀ k, (T c).getI k = pySlice (s.getI k) c.1 c.2 := by
  have hb : ∀ c : ℤ × ℤ, ∃ t, appendAll (new (pySlice s.dflt c.1 c.2) s.dtype)
      ((sortKeys s.keys).map fun k => intRow k (pySlice (s.getI k) c.1 c.2)) = .ok t ∧ t.WF ∧
      t.keys = sortKeys s.keys ∧ t.dflt = pySlice s.dflt c.1 c.2 ∧ t.dtype = s.dtype ∧
      ∀ k, t.getI k = if k ∈ sortKeys s.keys then (pySlice (s.getI k) c.1 c.2).map (Elem.cast s.dtype)
        else pySlice s.dflt c.1 c.2 := by
    intro c
    refine build_ok _ _ (fun x hx => hs.dfltTyped x (mem_pySlice hx)) _ _ ((sortKeys_nodup _).2 hs.nodup)
      (fun k hk => hs.valid k ((mem_sortKeys _ _).1 hk)) (fun k _ => ?_)
    rw [pySlice_length, pySlice_length, hs.getI_length]
  choose T hT using hb
  refine ⟨T, ?_, fun c => ?_⟩
  · rw [hsplitAt, npSplitAt_eq, List.map_map]
    refine hsplitAt_fold s.dflt.length idx s.contents (fun c => new (pySlice s.dflt c.1 c.2) s.dtype) T ?_ ?_
    · intro kv h
      rw [((mem_contents s kv).1 h).2, hs.getI_length]
    · intro c
      rw [← (hT c).1]
      rw [contents_rows s (fun _ v => pySlice v c.1 c.2)]
  · obtain ⟨_, h2, h3, h4, h5, h6⟩ := hT c
    refine ⟨h2, h3, h4, h5, fun k => ?_⟩
    rw [h6, map_cast_of_typed (fun x hx => hs.getI_typed k x (mem_pySlice hx))]
    by_cases h : k ∈ s.keys
    · simp [h]
    · simp [h, getI_of_not_mem s k h]

theorem cuts_cons (n : ℕ) (a b : ℤ) (idx : List ℤ) :
    (a :: b :: idx).zip ((b :: idx) ++ [(n : ℤ)]) = (a, b) :: (b :: idx).zip (idx ++ [(n : ℤ)]) := rfl

/-- Pieces between increasing positions make up the whole. -/
theorem flatMap_cuts {β : Type} (xs : List β) (idx : List ℤ) (a : ℤ)
    (h : ((a :: idx).map (slicePos xs.length)).Pairwise (· ≤ ·)) :
    ((a :: idx).zip (idx ++ [(xs.length : ℤ)])).flatMap (fun c => pySlice xs c.1 c.2) = xs.drop (slicePos xs.length a) := by
  induction idx generalizing a with
  | nil => simp [pySlice, slicePos_self]
  | cons b idx ih =>
    rw [List.map_cons, List.pairwise_cons] at h
    rw [cuts_cons, List.flatMap_cons, ih b h.2, pySlice]
    have hab := h.1 (slicePos xs.length b) (by simp)
    have hl : slicePos xs.length a ≤ (xs.take (slicePos xs.length b)).length := by
      rw [List.length_take, min_eq_left (slicePos_le _ _)]; exact hab
    rw [← List.drop_append_of_le_length hl, List.take_append_drop]

/-- Together the pieces are at least as long as the whole, and longer unless the positions increase. -/
theorem length_cuts {β : Type} (xs : List β) (idx : List ℤ) (a : ℤ) :
    xs.length - slicePos xs.length a ≤
      (((a :: idx).zip (idx ++ [(xs.length : ℤ)])).flatMap (fun c => pySlice xs c.1 c.2)).length ∧
    ((((a :: idx).zip (idx ++ [(xs.length : ℤ)])).flatMap (fun c => pySlice xs c.1 c.2)).length =
      xs.length - slicePos xs.length a → ((a :: idx).map (slicePos xs.length)).Pairwise (· ≤ ·)) := by
  induction idx generalizing a with
  | nil => simp [pySlice_length, slicePos_self]
  | cons b idx ih =>
    obtain ⟨i1, i2⟩ := ih b
    have ha := slicePos_le xs.length a
    have hb := slicePos_le xs.length b
    rw [cuts_cons, List.flatMap_cons, List.length_append, pySlice_length]
    refine ⟨by simp only; omega, fun h => ?_⟩
    simp only at h
    have hp := i2 (by omega)
    have hab : slicePos xs.length a ≤ slicePos xs.length b := by omega
    rw [List.map_cons, List.pairwise_cons]
    refine ⟨fun x hx => ?_, hp⟩
    rw [List.map_cons, List.pairwise_cons] at hp
    rw [List.map_cons] at hx
    rcases List.mem_cons.1 hx with rfl | hx
    · exact hab
    · exact hab.trans (hp.1 x hx)

end
end Coefs
end Verif
