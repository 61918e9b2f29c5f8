import Verif.Props.Container
import Mathlib.Analysis.Complex.Basic

/-!
# Properties C13, C14, C16, C65: truncation, copying, stacking and comparison
-/

namespace Verif
open Spec Coefs

variable {α : Type} [Field α] [DecidableEq α] [ElemField α]

omit [Field α] [DecidableEq α] [ElemField α] in
private theorem valueAt_eq' (s : Coefs α) (l m : ℤ) : valueAt s l m = s.getI (l, m) := rfl

/-! ## C13 -/

/-- **C13.** `truncated(n)` keeps exactly the stored pairs with l ≤ n, with their values; nothing else changes. -/
theorem C13_truncated {s : Coefs α} (hr : Reach s) (n : ℤ) :
    ∃ t, truncated s n = .ok t ∧ Reach t ∧ t.dflt = s.dflt ∧ t.dtype = s.dtype ∧
      (∀ l m, stores t l m ↔ stores s l m ∧ l ≤ n) ∧
      (∀ l m, valueAt t l m = if l ≤ n then valueAt s l m else s.dflt) := by
  obtain ⟨t, e, w, k, df, dt, g⟩ := truncated_spec hr.WF n
  refine ⟨t, e, Reach.truncated n hr e, df, dt, fun l m => ?_, fun l m => ?_⟩
  · rw [stores, stores, has_int, has_int, k]
  · rw [valueAt_eq']
    by_cases h : l ≤ n
    · rw [if_pos h, g (l, m) h]; rfl
    · rw [if_neg h, getI_of_not_mem, df]
      rw [k]; exact fun hh => h hh.2

/-- **C13.** Truncating at n and then at k is truncating at min n k. -/
theorem C13_truncated_truncated {s t u v : Coefs α} (hr : Reach s) (n k : ℤ) (h1 : truncated s n = .ok t)
    (h2 : truncated t k = .ok u) (h3 : truncated s (min n k) = .ok v) : Same u v := by
  obtain ⟨_, e, rt, df, dt, hs, hv⟩ := C13_truncated hr n; rw [h1] at e; cases e
  obtain ⟨_, e, _, df2, dt2, hs2, hv2⟩ := C13_truncated rt k; rw [h2] at e; cases e
  obtain ⟨_, e, _, df3, dt3, hs3, hv3⟩ := C13_truncated hr (min n k); rw [h3] at e; cases e
  refine ⟨by rw [df2, df, df3], by rw [dt2, dt, dt3], fun l m => ?_, fun l m => ?_⟩
  · have a := hs l m; have b := hs2 l m; have c := hs3 l m
    unfold stores at a b c
    rw [Bool.eq_iff_iff, b, a, c, le_min_iff]; tauto
  · rw [get_int, get_int, ← valueAt_eq', ← valueAt_eq', hv2, hv3, hv, df]
    by_cases h : l ≤ n <;> by_cases h' : l ≤ k <;> simp [h, h']

/-- **C13.** Truncating at or above degree_max changes nothing. -/
theorem C13_truncated_noop {s t : Coefs α} (hr : Reach s) (n : ℤ) (hn : s.degreeMax ≤ n)
    (h : truncated s n = .ok t) : Same t s := by
  obtain ⟨_, e, _, df, dt, hs, hv⟩ := C13_truncated hr n; rw [h] at e; cases e
  have hle : ∀ l m, stores s l m → l ≤ n := fun l m h =>
    le_trans ((C03_reachable_wellFormed hr).degMaxUpper l m h) hn
  refine ⟨df, dt, fun l m => ?_, fun l m => ?_⟩
  · have a := hs l m
    have b := hle l m
    unfold stores at a b
    rw [Bool.eq_iff_iff, a]; exact ⟨fun h => h.1, fun h => ⟨h, b h⟩⟩
  · rw [get_int, get_int, ← valueAt_eq', ← valueAt_eq', hv]
    by_cases h : l ≤ n
    · rw [if_pos h]
    · rw [if_neg h, valueAt_eq', getI_of_not_mem]
      exact fun hh => h (hle l m ((has_int s l m).2 hh))

/-! ## C65 -/

/-- **C65.** `copy` cannot be told apart from the original. -/
theorem C65_copy {s : Coefs α} (hr : Reach s) : ∃ t, copy s = .ok t ∧ Reach t ∧ Same t s ∧
    t.size = s.size ∧ t.degreeMax = s.degreeMax ∧ t.orderMin = s.orderMin := by
  obtain ⟨t, e, w, k, df, dt, g⟩ := copy_spec hr.WF
  have hrt := Reach.copy hr e
  have hs : Same t s := by
    refine ⟨df, dt, fun l m => ?_, fun l m => ?_⟩
    · rw [Bool.eq_iff_iff, has_int, has_int, k, mem_sortKeys]
    · rw [get_int, get_int, g]
  have wt := C03_reachable_wellFormed hrt
  have ws := C03_reachable_wellFormed hr
  have hsz : t.size = s.size := by rw [wt.size, ws.size]; simp only [hs.has]
  refine ⟨t, e, hrt, hs, hsz, ?_, ?_⟩
  · rcases ws.degMaxAttained with ⟨z, h0⟩ | ⟨m, hm⟩
    · rcases wt.degMaxAttained with ⟨_, h1⟩ | ⟨m, hm⟩
      · rw [h0, h1]
      · rw [hs.has] at hm
        exact le_antisymm (ws.degMaxUpper _ _ hm) (by
          rw [h0]
          exact le_trans (abs_nonneg _) (wt.pairs _ _ (by rw [hs.has]; exact hm)))
    · rcases wt.degMaxAttained with ⟨z, h1⟩ | ⟨m', hm'⟩
      · rw [← hs.has] at hm
        exact le_antisymm (by rw [h1]; exact le_trans (abs_nonneg _) (wt.pairs _ _ hm)) (wt.degMaxUpper _ _ hm)
      · exact le_antisymm (ws.degMaxUpper _ _ (by rw [← hs.has]; exact hm'))
          (wt.degMaxUpper _ _ (by rw [hs.has]; exact hm))
  · have key : ∀ {a b : Coefs α}, WellFormed a → WellFormed b → Same a b → a.orderMin ≤ b.orderMin := by
      intro a b wa wb hab
      rcases wb.ordMinAttained with h0 | ⟨l, hl⟩
      · rw [h0]; exact wa.ordMinNonpos
      · exact wa.ordMinLower l _ (by rw [hab.has]; exact hl)
    exact le_antisymm (key wt ws hs) (key ws wt ⟨hs.dflt.symm, hs.dtype.symm, fun l m => (hs.has l m).symm,
      fun l m => (hs.get l m).symm⟩)

/-- **C65.** `empty_like` stores nothing and keeps default and dtype. -/
theorem C65_emptyLike (s : Coefs α) : s.emptyLike.size = 0 ∧ s.emptyLike.dflt = s.dflt ∧
    s.emptyLike.dtype = s.dtype ∧ ∀ l m, ¬ stores s.emptyLike l m ∧ valueAt s.emptyLike l m = s.dflt := by
  refine ⟨rfl, rfl, rfl, fun l m => ⟨?_, rfl⟩⟩
  simp [stores, has_int, emptyLike, Coefs.new, Coefs.keys]

/-- **C65.** `zeros_like` stores the same pairs, each holding the default. -/
theorem C65_zerosLike {s : Coefs α} (hr : Reach s) : ∃ t, zerosLike s = .ok t ∧ Reach t ∧ t.dflt = s.dflt ∧
    t.dtype = s.dtype ∧ (∀ l m, stores t l m ↔ stores s l m) ∧ ∀ l m, valueAt t l m = s.dflt := by
  obtain ⟨t, e, w, k, df, dt, g⟩ := zerosLike_spec hr.WF
  refine ⟨t, e, Reach.zerosLike hr e, df, dt, fun l m => ?_, fun l m => ?_⟩
  · rw [stores, stores, has_int, has_int, k, mem_sortKeys]
  · rw [valueAt_eq', g]

/-! ## C14 -/

omit [Field α] [DecidableEq α] [ElemField α] in
private theorem flatMap_sect {β : Type} (xs : List β) (n : ℕ) (h : xs.length % n = 0) :
    (List.range n).flatMap (fun i => sect xs n i) = xs := by
  have key : ∀ j ≤ n, (List.range j).flatMap (fun i => sect xs n i) = xs.take (j * (xs.length / n)) := by
    intro j hj
    induction j with
    | zero => simp
    | succ j ih =>
      rw [List.range_succ, List.flatMap_append, ih (by omega)]
      simp only [List.flatMap_cons, List.flatMap_nil, List.append_nil, sect]
      rw [Nat.add_mul, one_mul, ← List.take_add]
  rw [key n le_rfl, Nat.mul_div_cancel' (Nat.dvd_of_mod_eq_zero h), List.take_length]

omit [Field α] [DecidableEq α] [ElemField α] in
private theorem sect_flatMap {β γ : Type} (ss : List β) (g : β → List γ) (c : ℕ) (hc : ∀ s ∈ ss, (g s).length = c)
    (i : ℕ) (hi : i < ss.length) : sect (ss.flatMap g) ss.length i = g ss[i] := by
  have hlen : (ss.flatMap g).length = ss.length * c := by
    rw [List.length_flatMap, List.map_congr_left (g := fun _ => c) hc]; simp
  have hpos : 0 < ss.length := by omega
  have key : ∀ (ts : List β), (∀ s ∈ ts, (g s).length = c) → ∀ j (hj : j < ts.length),
      ((ts.flatMap g).drop (j * c)).take c = g ts[j] := by
    intro ts
    induction ts with
    | nil => intro _ j hj; exact absurd hj (by simp)
    | cons t ts ih =>
      intro ht j hj
      have h0 := ht t List.mem_cons_self
      cases j with
      | zero => simp [← h0]
      | succ j =>
        rw [List.flatMap_cons, Nat.add_mul, one_mul, Nat.add_comm, ← List.drop_drop]
        rw [show (g t ++ ts.flatMap g).drop c = ts.flatMap g by rw [← h0]; simp]
        exact ih (fun s hs => ht s (List.mem_cons_of_mem _ hs)) j (by simpa using hj)
  rw [sect, hlen, Nat.mul_div_cancel_left c hpos]
  exact key ss hc i hi

private theorem promote_self (d : DType) : d.promote d = d := by simp [DType.promote]

omit [Field α] [DecidableEq α] [ElemField α] in
private theorem foldl_promote_same (ss : List (Coefs α)) (d : DType) (h : ∀ s ∈ ss, s.dtype = d) :
    ss.foldl (fun d s => d.promote s.dtype) d = d := by
  induction ss with
  | nil => rfl
  | cons s ss ih =>
    rw [List.foldl_cons, h s List.mem_cons_self, promote_self]
    exact ih fun t ht => h t (List.mem_cons_of_mem _ ht)

/-- **C14.** Splitting a set into `n` equal groups of columns and stacking the pieces gives the set back, for
every number of sections that divides the columns and every iteration order of the key set. -/
theorem C14_hstack_hsplit {s : Coefs α} (hr : Reach s) (n : ℕ) (h0 : n ≠ 0) (hn : s.dflt.length % n = 0) :
    ∃ ts, hsplit s (some n) = .ok ts ∧ ts.length = n ∧
      ∀ ks, IsSetIter ks (ts.flatMap Coefs.keys) → ∃ u, hstack ks ts = .ok u ∧ Same u s := by
  obtain ⟨T, e, hT⟩ := hsplit_spec hr.WF n h0 hn
  refine ⟨_, e, by simp, fun ks hk => ?_⟩
  obtain ⟨k, rfl⟩ : ∃ k, n = k + 1 := ⟨n - 1, by omega⟩
  have hts : (List.range (k + 1)).map T = T 0 :: (List.range k).map (fun i => T (i + 1)) := by
    rw [List.range_succ_eq_map, List.map_cons, List.map_map]; rfl
  have hflat : ∀ g : Coefs α → List α, (T 0 :: (List.range k).map (fun i => T (i + 1))).flatMap g
      = (List.range (k + 1)).flatMap fun i => g (T i) := by
    intro g; rw [← hts, List.flatMap_map]
  rw [hts] at hk ⊢
  obtain ⟨u, eu, wu, ku, du, tu, gu⟩ := hstack_spec (s0 := T 0) (rest := (List.range k).map fun i => T (i + 1))
    (by
      intro t ht
      rw [← hts] at ht
      obtain ⟨i, hi, rfl⟩ := List.mem_map.1 ht
      exact (hT i (List.mem_range.1 hi)).1) hk
  have hmem : ∀ q, q ∈ ks ↔ q ∈ s.keys := by
    intro q
    rw [hk.2, ← hts, List.mem_flatMap]
    constructor
    · rintro ⟨t, ht, hq⟩
      obtain ⟨i, hi, rfl⟩ := List.mem_map.1 ht
      rw [(hT i (List.mem_range.1 hi)).2.1, mem_sortKeys] at hq
      exact hq
    · intro hq
      refine ⟨T 0, List.mem_map_of_mem (List.mem_range.2 (by omega)), ?_⟩
      rw [(hT 0 (by omega)).2.1, mem_sortKeys]; exact hq
  refine ⟨u, eu, ?_, ?_, fun l m => ?_, fun l m => ?_⟩
  · rw [du, hflat]
    conv_rhs => rw [← flatMap_sect s.dflt (k + 1) hn]
    refine List.flatMap_congr fun i hi => ?_
    exact (hT i (List.mem_range.1 hi)).2.2.1
  · rw [tu, (hT 0 (by omega)).2.2.2.1]
    refine foldl_promote_same _ _ fun t ht => ?_
    obtain ⟨i, hi, rfl⟩ := List.mem_map.1 ht
    exact (hT (i + 1) (by have := List.mem_range.1 hi; omega)).2.2.2.1
  · rw [Bool.eq_iff_iff, has_int, has_int, ku, hmem]
  · rw [get_int, get_int, gu, hflat]
    congr 1
    have hl : (s.getI (l, m)).length % (k + 1) = 0 := by rw [hr.WF.getI_length]; exact hn
    conv_rhs => rw [← flatMap_sect (s.getI (l, m)) (k + 1) hl]
    refine List.flatMap_congr fun i hi => ?_
    exact (hT i (List.mem_range.1 hi)).2.2.2.2 _

/-- **C14.** Stacking `k` sets with equally many columns and splitting the result into `k` sections returns `k`
sets; the i-th reads like the i-th input at every pair. -/
theorem C14_hsplit_hstack {ss : List (Coefs α)} (hne : ss ≠ []) (hr : ∀ s ∈ ss, Reach s) (c : ℕ)
    (hc : ∀ s ∈ ss, s.dflt.length = c) {ks : List Key} (hk : IsSetIter ks (ss.flatMap Coefs.keys)) :
    ∃ u ts, hstack ks ss = .ok u ∧ hsplit u (some ss.length) = .ok ts ∧
      ∃ hl : ts.length = ss.length, ∀ i (hi : i < ss.length),
        SameValues (ts[i]'(hl ▸ hi)) ss[i] ∧ (ts[i]'(hl ▸ hi)).dflt = ss[i].dflt ∧
        ∀ l m, stores (ts[i]'(hl ▸ hi)) l m ↔ ∃ s ∈ ss, stores s l m := by
  obtain ⟨s0, rest, rfl⟩ := List.exists_cons_of_ne_nil hne
  obtain ⟨u, eu, wu, ku, du, tu, gu⟩ := hstack_spec (s0 := s0) (rest := rest) (fun s hs => (hr s hs).WF) hk
  have hlen : u.dflt.length = (s0 :: rest).length * c := by
    rw [du, List.length_flatMap, List.map_congr_left (g := fun _ => c) hc]; simp; ring
  obtain ⟨T, e, hT⟩ := hsplit_spec wu (s0 :: rest).length (by simp) (by rw [hlen, Nat.mul_mod_right])
  refine ⟨u, _, eu, e, by simp, fun i hi => ?_⟩
  obtain ⟨wT, kT, dT, tT, gT⟩ := hT i hi
  have hget : ((List.range (s0 :: rest).length).map T)[i]'(by simpa using hi) = T i := by simp
  rw [hget]
  refine ⟨fun l m => ?_, ?_, fun l m => ?_⟩
  · rw [get_int, get_int, gT, gu]
    congr 1
    refine sect_flatMap (s0 :: rest) (fun s => s.getI (l, m)) c (fun s hs => ?_) i hi
    rw [(hr s hs).WF.getI_length, hc s hs]
  · rw [dT, du]
    exact sect_flatMap (s0 :: rest) (fun s => s.dflt) c hc i hi
  · rw [stores, has_int, kT, mem_sortKeys, ku, hk.2, List.mem_flatMap]
    simp only [stores, has_int]

/-- **C14.** With single-column sets `hsplit` needs no argument. -/
theorem C14_hsplit_hstack_single {ss : List (Coefs α)} (hne : ss ≠ []) (hr : ∀ s ∈ ss, Reach s)
    (hc : ∀ s ∈ ss, s.dflt.length = 1) {ks : List Key} (hk : IsSetIter ks (ss.flatMap Coefs.keys)) :
    ∃ u ts, hstack ks ss = .ok u ∧ hsplit u = .ok ts ∧
      ∃ hl : ts.length = ss.length, ∀ i (hi : i < ss.length), SameValues (ts[i]'(hl ▸ hi)) ss[i] := by
  obtain ⟨u, ts, e1, e2, hl, h⟩ := C14_hsplit_hstack hne hr 1 hc hk
  refine ⟨u, ts, e1, ?_, hl, fun i hi => (h i hi).1⟩
  obtain ⟨s0, rest, rfl⟩ := List.exists_cons_of_ne_nil hne
  obtain ⟨u', eu, _, _, du, _, _⟩ := hstack_spec (s0 := s0) (rest := rest) (fun s hs => (hr s hs).WF) hk
  rw [e1] at eu; cases eu
  have hlen : u.dflt.length = (s0 :: rest).length := by
    rw [du, List.length_flatMap, List.map_congr_left (g := fun _ => 1) hc]; simp; omega
  rw [← e2, hsplit, hsplit, Option.getD_none, Option.getD_some, hlen]

/-- Non-vacuity of C13, C14: a two-column set, truncated, split and stacked. -/
private def exTwo : Coefs ℚ := ⟨[0, 0], .real, [((1, 0), [1, 2]), ((2, -1), [3, 4])], 2, -1⟩

private theorem exTwo_reach : Reach exTwo := by
  refine Reach.append (s := ⟨[0, 0], .real, [((1, 0), [1, 2])], 1, 0⟩) (.int 2) (.int (-1)) [3, 4] ?_ rfl
  refine Reach.append (s := Coefs.new [0, 0] .real) (.int 1) (.int 0) [1, 2] ?_ rfl
  exact Reach.new _ _ (by simp [Elem.cast, castQ])

example : ∃ ts, hsplit exTwo (some 2) = .ok ts ∧ ts.length = 2 := by
  obtain ⟨ts, h, h', _⟩ := C14_hstack_hsplit exTwo_reach 2 (by decide) rfl
  exact ⟨ts, h, h'⟩

example : ∃ t, truncated exTwo 1 = .ok t ∧ stores t 1 0 ∧ ¬ stores t 2 (-1) := by
  obtain ⟨t, e, _, _, _, h, _⟩ := C13_truncated exTwo_reach 1
  refine ⟨t, e, (h 1 0).2 ⟨?_, le_rfl⟩, fun hh => ?_⟩
  · rw [stores, has_int]; simp [exTwo, Coefs.keys]
  · have := ((h 2 (-1)).1 hh).2; omega

/-! ## C16 -/

section C16

/-- `np.isclose(x, y, rtol, atol)` on finite complex numbers. -/
noncomputable def npClose (rtol atol : ℝ) (x y : ℂ) : Bool :=
  open Classical in decide (‖x - y‖ ≤ atol + rtol * ‖y‖)

variable {β : Type}

private theorem mapM_ok (ks : List Key) (f : Key → Res (List Bool)) (g : Key → List Bool)
    (h : ∀ k ∈ ks, f k = .ok (g k)) :
    ks.mapM (fun k => do let v ← f k; pure (intRow k v)) = (.ok (ks.map fun k => intRow k (g k)) : Res _) := by
  induction ks with
  | nil => rfl
  | cons k ks ih =>
    rw [List.mapM_cons, h k List.mem_cons_self, ih fun q hq => h q (List.mem_cons_of_mem _ hq)]
    rfl

theorem allclose_eq [Elem β] (close : β → β → Bool) {a b : Coefs β} (ha : a.WF) (hb : b.WF)
    (hl : a.dflt.length = b.dflt.length) {ks : List Key} (hk : IsSetIter ks (a.keys ++ b.keys)) (hne : ks ≠ [])
    (junk : List Bool) (hj : junk.length = a.dflt.length) :
    allclose close ks junk a b = .ok (ks.all fun k => (List.zipWith close (a.getI k) (b.getI k)).all id) := by
  have hlen : ∀ k, (a.getI k).length = (b.getI k).length := fun k => by
    rw [ha.getI_length, hb.getI_length, hl]
  rw [allclose, if_neg (by simpa using hl), isclose, if_neg hne,
    mapM_ok ks _ (fun k => List.zipWith close (a.getI k) (b.getI k)) (fun k _ => bcast_eq_length _ (hlen k))]
  obtain ⟨c, e, w, kc, df, dt, g⟩ := build_ok junk .bool (by intro x _; rfl) ks
    (fun k => List.zipWith close (a.getI k) (b.getI k)) hk.1
    (by
      intro k hkm
      rcases List.mem_append.1 ((hk.2 k).1 hkm) with h | h
      · exact ha.valid k h
      · exact hb.valid k h)
    (by intro k _; rw [List.length_zipWith, ← hlen, min_self, ha.getI_length, hj])
  change (do let c ← appendAll (Coefs.new junk .bool) _; pure _) = _
  rw [e]
  change Except.ok _ = Except.ok _
  congr 1
  rw [Bool.eq_iff_iff, List.all_eq_true, List.all_eq_true]
  have hid : ∀ xs : List Bool, xs.map (Elem.cast DType.bool) = xs := fun xs => by
    conv_rhs => rw [← List.map_id xs]
    rfl
  constructor
  · intro h k hkm
    have := h (k, c.getI k) ((mem_contents c _).2 ⟨by rw [kc]; exact hkm, rfl⟩)
    simp only [g, if_pos hkm, hid] at this
    exact this
  · intro h kv hkv
    obtain ⟨h1, h2⟩ := (mem_contents c kv).1 hkv
    rw [kc] at h1
    rw [h2, g, if_pos h1, hid]
    exact h _ h1

/-- **C16.** `allclose` is true exactly when every pair of entries is within tolerance, for every iteration
order and whatever garbage the uninitialised default holds. -/
theorem C16_allclose_iff {a b : Coefs ℂ} (ha : Reach a) (hb : Reach b) (rtol atol : ℝ) {ks : List Key}
    (hk : IsSetIter ks (a.keys ++ b.keys)) (hne : ∃ l m, stores a l m ∨ stores b l m)
    (junk : List Bool) (hj : junk.length = a.dflt.length) :
    ∃ r, allclose (npClose rtol atol) ks junk a b = .ok r ∧
      (r = true ↔ a.dflt.length = b.dflt.length ∧ ∀ l m, (stores a l m ∨ stores b l m) →
        ∀ (i : ℕ) (x y : ℂ), (valueAt a l m)[i]? = some x → (valueAt b l m)[i]? = some y →
          ‖x - y‖ ≤ atol + rtol * ‖y‖) := by
  have hmem : ∀ l m, (l, m) ∈ ks ↔ stores a l m ∨ stores b l m := by
    intro l m; rw [hk.2, List.mem_append, stores, stores, has_int, has_int]
  by_cases hl : a.dflt.length = b.dflt.length
  · have hks : ks ≠ [] := by
      obtain ⟨l, m, h⟩ := hne
      intro h'; have := (hmem l m).2 h; rw [h'] at this; cases this
    refine ⟨_, allclose_eq _ ha.WF hb.WF hl hk hks junk hj, ?_⟩
    rw [List.all_eq_true]
    simp only [List.all_eq_true, id_eq, hl, true_and]
    constructor
    · intro h l m hs i x y hx hy
      have := h (l, m) ((hmem l m).2 hs) (npClose rtol atol x y) (by
        rw [List.mem_iff_getElem?]
        exact ⟨i, by rw [List.getElem?_zipWith]; rw [valueAt_eq'] at hx hy; rw [hx, hy]⟩)
      simpa [npClose] using this
    · intro h k hkm z hz
      rw [List.mem_iff_getElem?] at hz
      obtain ⟨i, hi⟩ := hz
      rw [List.getElem?_zipWith] at hi
      rcases hx : (a.getI k)[i]? with _ | x
      · rw [hx] at hi; simp at hi
      · rcases hy : (b.getI k)[i]? with _ | y
        · rw [hx, hy] at hi; simp at hi
        · rw [hx, hy] at hi
          simp only [Option.some.injEq] at hi
          rw [← hi]
          simpa [npClose] using h k.1 k.2 ((hmem k.1 k.2).1 hkm) i x y hx hy
  · exact ⟨false, by rw [allclose, if_pos hl], by simp [hl]⟩

/-- **C16.** It is reflexive for non-negative tolerances. -/
theorem C16_allclose_refl {a : Coefs ℂ} (ha : Reach a) (rtol atol : ℝ) (h1 : 0 ≤ rtol) (h2 : 0 ≤ atol)
    {ks : List Key} (hk : IsSetIter ks (a.keys ++ a.keys)) (hne : ∃ l m, stores a l m)
    (junk : List Bool) (hj : junk.length = a.dflt.length) :
    allclose (npClose rtol atol) ks junk a a = .ok true := by
  obtain ⟨r, e, h⟩ := C16_allclose_iff ha ha rtol atol hk
    (by obtain ⟨l, m, h⟩ := hne; exact ⟨l, m, Or.inl h⟩) junk hj
  rw [e, h.2]
  refine ⟨rfl, fun l m _ i x y hx hy => ?_⟩
  rw [hx] at hy
  cases hy
  rw [sub_self, norm_zero]
  positivity

/-- **C16, limit.** Two sets without entries make `allclose` raise ValueError. -/
theorem C16_allclose_empty_raises {a b : Coefs ℂ} (rtol atol : ℝ) (junk : List Bool)
    (hl : a.dflt.length = b.dflt.length) :
    allclose (npClose rtol atol) [] junk a b = .error .value := by
  rw [allclose, if_neg (by simpa using hl), isclose, if_pos rfl]
  rfl

/-- One-column complex set with a single value at (1, 0). -/
private def one (x : ℂ) : Coefs ℂ := ⟨[0], .cplx, [((1, 0), [x])], 1, 0⟩

private theorem one_reach (x : ℂ) : Reach (one x) := by
  refine Reach.append (s := Coefs.new [0] .cplx) (.int 1) (.int 0) [x] ?_ rfl
  exact Reach.new _ _ (by intro x _; rfl)

private theorem one_iter (x y : ℂ) : IsSetIter [((1, 0) : Key)] ((one x).keys ++ (one y).keys) := by
  refine ⟨by simp, fun k => ?_⟩
  simp [one, Coefs.keys]

private theorem one_stores (x : ℂ) (l m : ℤ) : stores (one x) l m ↔ l = 1 ∧ m = 0 := by
  rw [stores, has_int]; simp [one, Coefs.keys]

private theorem one_val (x : ℂ) : valueAt (one x) 1 0 = [x] := rfl

/-- **C16, limit.** `allclose` is not symmetric: with rtol = 1/2, atol = 0, 1 is close to 2 but 2 is not close
to 1. -/
theorem C16_allclose_not_symmetric :
    ∃ (a b : Coefs ℂ) (ks : List Key), Reach a ∧ Reach b ∧ IsSetIter ks (a.keys ++ b.keys) ∧
      allclose (npClose (1 / 2) 0) ks [false] a b = .ok true ∧
      allclose (npClose (1 / 2) 0) ks [false] b a = .ok false := by
  refine ⟨one 1, one 2, [(1, 0)], one_reach 1, one_reach 2, one_iter 1 2, ?_, ?_⟩
  · obtain ⟨r, e, h⟩ := C16_allclose_iff (one_reach 1) (one_reach 2) (1 / 2) 0 (one_iter 1 2)
      ⟨1, 0, Or.inl ((one_stores 1 1 0).2 ⟨rfl, rfl⟩)⟩ [false] rfl
    rw [e, h.2]
    refine ⟨rfl, fun l m hs i x y hx hy => ?_⟩
    have : l = 1 ∧ m = 0 := by rcases hs with hs | hs <;> exact (one_stores _ l m).1 hs
    obtain ⟨rfl, rfl⟩ := this
    rw [one_val] at hx hy
    cases i with
    | succ i => simp at hx
    | zero =>
      simp only [List.length_cons, List.length_nil, zero_add, zero_lt_one, getElem?_pos, List.getElem_cons_zero,
        Option.some.injEq] at hx hy
      subst hx hy
      rw [show (1 : ℂ) - 2 = -1 by norm_num, norm_neg]
      simp
  · obtain ⟨r, e, h⟩ := C16_allclose_iff (one_reach 2) (one_reach 1) (1 / 2) 0 (one_iter 2 1)
      ⟨1, 0, Or.inl ((one_stores 2 1 0).2 ⟨rfl, rfl⟩)⟩ [false] rfl
    rw [e]
    congr 1
    rw [← Bool.not_eq_true, h]
    rintro ⟨_, h'⟩
    have := h' 1 0 (Or.inl ((one_stores 2 1 0).2 ⟨rfl, rfl⟩)) 0 2 1 rfl rfl
    norm_num at this

end C16

end Verif
