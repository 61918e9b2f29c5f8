import Verif.Spec.Coefficients
import Verif.Lemmas.CoefOps
import Mathlib.Tactic.Zify

/-!
# Properties C01 - C07: the coefficient container as a data structure
-/

namespace Verif
open Spec Coefs

variable {α : Type}

/-! ## C01 -/

section C01
variable [Elem α]

/-- The abstract state represented by a set. -/
private def abs (s : Coefs α) : PMap α := fun k => dictGet s.dict k

omit [Elem α] in
private theorem abs_isSome (s : Coefs α) (k : Key) : (abs s k).isSome ↔ k ∈ s.keys :=
  dictGet_isSome_iff s.dict k

omit [Elem α] in
private theorem keyIn_iff (s : Coefs α) (l m : Idx) :
    s.keyIn l m = true ↔ ∃ k : ℤ × ℤ, (abs s k).isSome ∧ (k.1 : ℚ) = l.val ∧ (k.2 : ℚ) = m.val := by
  simp only [keyIn, List.any_eq_true, Bool.and_eq_true, decide_eq_true_eq]
  constructor
  · rintro ⟨kv, h, h1, h2⟩
    exact ⟨kv.1, (abs_isSome _ _).2 (List.mem_map_of_mem h), h1, h2⟩
  · rintro ⟨k, h, h1, h2⟩
    exact ⟨(k, s.getI k), getI_of_mem s k ((abs_isSome _ _).1 h), h1, h2⟩

private theorem abs_stored (s : Coefs α) (l m : ℤ) (data : List α) :
    abs (s.stored l m data) = Function.update (abs s) (l, m) (some (data.map (Elem.cast s.dtype))) := by
  funext k
  simp only [abs, stored, dictGet_dictSet, Function.update_apply]
  by_cases h : (l, m) = k
  · simp [h]
  · have : k ≠ (l, m) := fun e => h e.symm
    simp [h, this]

private theorem call_run (s : Coefs α) (c : Call α) :
    c.run s = match raises s.dflt.length (abs s) c with
      | some e => .error e s
      | none => .ok () (s.stored c.deg.toInt c.ord.toInt c.data) := by
  cases c with
  | set l m data =>
    simp only [Call.run, raises, set_run, Call.deg, Call.ord, Call.data]
    by_cases h : |m.val| ≤ l.val ∧ data.length = s.dflt.length
    · simp [h]
    · simp only [h, if_false]
  | append l m data =>
    simp only [Call.run, raises, append_run, set_run, Call.deg, Call.ord, Call.data]
    by_cases h' : ∃ k : ℤ × ℤ, (abs s k).isSome ∧ (k.1 : ℚ) = l.val ∧ (k.2 : ℚ) = m.val
    · rw [if_pos h', if_pos ((keyIn_iff s l m).2 h')]
    · rw [if_neg h', if_neg (fun h => h' ((keyIn_iff s l m).1 h))]
      by_cases h : |m.val| ≤ l.val ∧ data.length = s.dflt.length
      · simp [h]
      · simp only [h, if_false]

private theorem runCalls_abs (s : Coefs α) (cs : List (Call α)) :
    abs (runCalls s cs) = Spec.run s.dflt.length s.dtype (abs s) cs ∧
      (runCalls s cs).dflt = s.dflt ∧ (runCalls s cs).dtype = s.dtype := by
  induction cs generalizing s with
  | nil => exact ⟨rfl, rfl, rfl⟩
  | cons c cs ih =>
    rw [runCalls, Spec.run, step, call_run]
    rcases h : raises s.dflt.length (abs s) c with _ | e
    · simp only
      obtain ⟨h1, h2, h3⟩ := ih (s.stored c.deg.toInt c.ord.toInt c.data)
      exact ⟨by rw [h1, abs_stored]; rfl, h2, h3⟩
    · exact ih s

private theorem runCalls_WF {s : Coefs α} (hs : s.WF) (cs : List (Call α)) : (runCalls s cs).WF := by
  induction cs generalizing s with
  | nil => exact hs
  | cons c cs ih =>
    rw [runCalls]
    have hw : match c.run s with
        | .ok _ s' => s'.WF
        | .error _ s' => s' = s := by
      cases c with
      | set l m data => exact hs.set l m data
      | append l m data => exact hs.append l m data
    rcases h : c.run s with ⟨u, s'⟩ | ⟨e, s'⟩
    · rw [h] at hw; exact ih hw
    · rw [h] at hw; simp only at hw ⊢; rw [hw]; exact ih hs

omit [Elem α] in
private theorem size_eq_ncard {s : Coefs α} (hn : s.keys.Nodup) :
    s.size = Set.ncard {k : ℤ × ℤ | k ∈ s.keys} := by
  classical
  have : {k : ℤ × ℤ | k ∈ s.keys} = (s.keys.toFinset : Set (ℤ × ℤ)) := by ext k; simp
  rw [this, Set.ncard_coe_finset, List.toFinset_card_of_nodup hn]
  simp [size, keys]

/-- **C01.** After any history of set/append calls (exceptions caught), lookups agree with the abstract map:
the value of the last accepted store, cast to the dtype, or the default; `size` counts the stored pairs. -/
theorem C01_history_refines_map (d : List α) (dt : DType) (hd : ∀ x ∈ d, Elem.cast dt x = x)
    (calls : List (Call α)) :
    let s := runCalls (Coefs.new d dt) calls
    let σ : PMap α := Spec.run d.length dt (fun _ => none) calls
    (∀ l m : ℤ, s.has (.int l) (.int m) = (σ (l, m)).isSome ∧
      s.get (.int l) (.int m) = .ok ((σ (l, m)).getD d)) ∧
    s.size = Set.ncard {k : ℤ × ℤ | (σ k).isSome} := by
  intro s σ
  obtain ⟨h1, h2, _⟩ := runCalls_abs (Coefs.new d dt) calls
  have hσ : abs s = σ := h1
  have hw : s.WF := runCalls_WF (new_WF d dt hd) calls
  refine ⟨fun l m => ⟨?_, ?_⟩, ?_⟩
  · rw [← hσ, has_int_eq]; rfl
  · rw [← hσ, get_int, getI, show s.dflt = d from h2]; rfl
  · rw [size_eq_ncard hw.nodup]
    congr 1; ext k
    rw [Set.mem_ofPred_eq, Set.mem_ofPred_eq, ← hσ, abs_isSome]

/-- **C01.** Each call raises exactly the exception the abstract map prescribes (or none). -/
theorem C01_calls_raise_as_specified (d : List α) (dt : DType) (before : List (Call α)) (c : Call α) :
    let s := runCalls (Coefs.new d dt) before
    let σ : PMap α := Spec.run d.length dt (fun _ => none) before
    (∀ e, raises d.length σ c = some e ↔ ∃ s', c.run s = .error e s') := by
  intro s σ e
  obtain ⟨h1, h2, _⟩ := runCalls_abs (Coefs.new d dt) before
  have hσ : abs s = σ := h1
  have hl : s.dflt.length = d.length := by rw [show s.dflt = d from h2]
  rw [call_run, hl, hσ]
  rcases raises d.length σ c with _ | e'
  · simp
  · simp

/-- **C01.** A successful store is what `get` returns, however many later calls address other pairs. -/
theorem C01_last_store_wins (s s' : Coefs α) (l m : Idx) (data : List α)
    (hset : Coefs.set l m data s = .ok () s') (after : List (Call α))
    (hafter : ∀ c ∈ after, (c.deg.toInt, c.ord.toInt) ≠ (l.toInt, m.toInt)) :
    (runCalls s' after).get (.int l.toInt) (.int m.toInt) = .ok (data.map (Elem.cast s.dtype)) := by
  have key : ∀ (cs : List (Call α)) (t : Coefs α), (∀ c ∈ cs, (c.deg.toInt, c.ord.toInt) ≠ (l.toInt, m.toInt)) →
      abs (runCalls t cs) (l.toInt, m.toInt) = abs t (l.toInt, m.toInt) := by
    intro cs
    induction cs with
    | nil => intro t _; rfl
    | cons c cs ih =>
      intro t h
      rw [runCalls, call_run]
      rcases raises t.dflt.length (abs t) c with _ | e
      · simp only
        rw [ih _ (fun c' h' => h c' (List.mem_cons_of_mem _ h')), abs_stored,
          Function.update_of_ne (h c List.mem_cons_self).symm]
      · exact ih t (fun c' h' => h c' (List.mem_cons_of_mem _ h'))
  rw [set_run] at hset
  split_ifs at hset
  cases hset
  have := key after (s.stored l.toInt m.toInt data) hafter
  rw [abs_stored, Function.update_self] at this
  rw [get_int, getI, show dictGet _ _ = _ from this]; rfl

end C01

/-- Non-vacuity of C01: a history with a successful store, an overwrite, a refused append and a bad order. -/
example :
    (runCalls (Coefs.new [(0 : ℚ)] .real)
      [.set (.int 2) (.int (-1)) [3], .append (.int 2) (.int (-1)) [4], .set (.int 2) (.int (-1)) [5],
       .set (.int 1) (.int 2) [7], .append (.flt (3 / 2)) (.int 0) [6]]).dict
      = [((2, -1), [5]), ((1, 0), [6])] := by
  have h : (Idx.flt (3 / 2)).toInt = 1 := by
    rw [Idx.toInt_of_nonneg _ (by norm_num [Idx.val])]; norm_num [Idx.val]
  norm_num [runCalls, Call.run, append_run, set_run, Coefs.new, keyIn, stored, dictSet, Elem.cast, castQ,
    Idx.val, h]

/-! ## C02 -/

section C02
variable [Elem α]

/-- **C02.** With integer indices `append` raises IndexError exactly on stored pairs and never changes the
value of a stored pair. -/
theorem C02_append_never_overwrites (s : Coefs α) (l m : ℤ) (data : List α) :
    ((∃ s', Coefs.append (.int l) (.int m) data s = .error .index s') ↔ s.has (.int l) (.int m) = true) ∧
    (∀ r, Coefs.append (.int l) (.int m) data s = r →
      ∀ l' m' : ℤ, s.has (.int l') (.int m') = true →
        (match r with | .ok _ s' => s' | .error _ s' => s').get (.int l') (.int m')
          = s.get (.int l') (.int m')) := by
  constructor
  · rw [append_run, set_run]
    by_cases h : s.keyIn (.int l) (.int m) = true
    · simp [h, has]
    · rw [if_neg h]
      simp only [has, h]
      split_ifs <;> simp
  · intro r hr l' m' hm
    subst hr
    rw [append_run, set_run]
    by_cases h : s.keyIn (.int l) (.int m) = true
    · simp only [h, if_true]
    · rw [if_neg h]
      split_ifs
      case neg => rfl
      have hne : (l, m) ≠ (l', m') := by
        rintro ⟨rfl, rfl⟩; exact h hm
      simp only [get_int, getI, stored, dictGet_dictSet, Idx.toInt_int, if_neg hne]

end C02

/-- **C02, violation.** With a fractional degree the duplicate check is made before truncation and `append`
overwrites the value stored at (1, 0). -/
theorem C02_fractional_append_overwrites :
    ∃ s s' : Coefs ℚ, s.has (.int 1) (.int 0) = true ∧
      Coefs.append (.flt (3 / 2)) (.int 0) [7] s = .ok () s' ∧
      s.get (.int 1) (.int 0) = .ok [5] ∧ s'.get (.int 1) (.int 0) = .ok [7] :=
  ⟨⟨[0], .real, [((1, 0), [5])], 1, 0⟩, ⟨[0], .real, [((1, 0), [7])], 1, 0⟩, rfl, by
    have h : (Idx.flt (3 / 2)).toInt = 1 := by
      rw [Idx.toInt_of_nonneg _ (by norm_num [Idx.val])]; norm_num [Idx.val]
    norm_num [append_run, set_run, keyIn, stored, dictSet, Elem.cast, castQ, Idx.val, h], rfl, rfl⟩

/-- Non-vacuity of C02: both outcomes occur. -/
example : Coefs.append (.int 1) (.int 0) [7] (⟨[0], .real, [((1, 0), [5])], 1, 0⟩ : Coefs ℚ)
    = .error .index ⟨[0], .real, [((1, 0), [5])], 1, 0⟩ := rfl
example : Coefs.append (.int 1) (.int 1) [7] (⟨[0], .real, [((1, 0), [5])], 1, 0⟩ : Coefs ℚ)
    = .ok () ⟨[0], .real, [((1, 0), [5]), ((1, 1), [7])], 1, 0⟩ := rfl

/-! ## C03 -/

section C03

theorem wellFormed_of_WF [Elem α] {s : Coefs α} (h : s.WF) : WellFormed s where
  pairs l m hm := h.valid (l, m) ((has_int s l m).1 hm)
  values l m v hv := by
    rw [get_int] at hv
    cases hv
    exact ⟨h.getI_length _, h.getI_typed _⟩
  size := by
    rw [size_eq_ncard h.nodup]
    congr 1; ext k
    rw [Set.mem_ofPred_eq, Set.mem_ofPred_eq, has_int]
  degMaxUpper l m hm := h.degUpper (l, m) ((has_int s l m).1 hm)
  degMaxAttained := by
    rcases h.degAttained with ⟨h1, h2⟩ | ⟨k, hk, e⟩
    · left
      refine ⟨?_, h2⟩
      simpa [Coefs.size, Coefs.keys] using h1
    · right
      exact ⟨k.2, (has_int _ _ _).2 (by rw [← e]; exact hk)⟩
  ordMinLower l m hm := h.ordLower (l, m) ((has_int s l m).1 hm)
  ordMinNonpos := h.ordNonpos
  ordMinAttained := by
    rcases h.ordAttained with h1 | ⟨k, hk, e⟩
    · exact Or.inl h1
    · right
      exact ⟨k.1, (has_int _ _ _).2 (by rw [← e]; exact hk)⟩

private theorem WF_combineLoop [Elem α] (f : α → α → α) (a b : Coefs α) {acc s' : Coefs α} (h : acc.WF)
    (ks : List Key) (e : combineLoop f a b acc ks = .ok s') : s'.WF := by
  induction ks generalizing acc with
  | nil => cases e; exact h
  | cons k ks ih =>
    rw [combineLoop] at e
    rcases hb : bcast f (a.getI k) (b.getI k) with er | v
    · rw [hb] at e; cases e
    · rw [hb] at e
      change (match Coefs.append (.int k.1) (.int k.2) v acc with
        | .ok () s => combineLoop f a b s ks | .error e _ => .error e) = _ at e
      have w := h.append (.int k.1) (.int k.2) v
      rcases hr : Coefs.append (.int k.1) (.int k.2) v acc with ⟨⟨⟩, s1⟩ | ⟨er, s1⟩
      · rw [hr] at e w; exact ih w e
      · rw [hr] at e; cases e

private theorem WF_mulGo [Elem α] [Mul α] (value : List α) {acc s' : Coefs α} (h : acc.WF)
    (rows : List (Key × List α)) (e : mulArray.go value acc rows = .ok s') : s'.WF := by
  induction rows generalizing acc with
  | nil => cases e; exact h
  | cons kv rows ih =>
    obtain ⟨k, c⟩ := kv
    rw [mulArray.go] at e
    rcases hb : bcast (· * ·) c value with er | v
    · rw [hb] at e; cases e
    · rw [hb] at e
      change (match Coefs.append (.int k.1) (.int k.2) v acc with
        | .ok () s => mulArray.go value s rows | .error e _ => .error e) = _ at e
      have w := h.append (.int k.1) (.int k.2) v
      rcases hr : Coefs.append (.int k.1) (.int k.2) v acc with ⟨⟨⟩, s1⟩ | ⟨er, s1⟩
      · rw [hr] at e w; exact ih w e
      · rw [hr] at e; cases e

private theorem WF_emptyLike [Elem α] {s : Coefs α} (h : s.WF) : s.emptyLike.WF := new_WF _ _ h.dfltTyped

private theorem WF_scaleFold [Elem α] [DivisionRing α] (b : Prop) [Decidable b] (f : ℤ → ℤ → α) (p : ℤ)
    (ks : List Key) {o s' : Coefs α} (ho : o.WF)
    (e : ks.foldlM (fun o k => if b then imulAt o k (f k.1 k.2 ^ p) else (.error .type : Res (Coefs α))) o
      = .ok s') : s'.WF := by
  induction ks generalizing o with
  | nil => cases e; exact ho
  | cons k ks ih =>
    rw [List.foldlM_cons] at e
    by_cases hb : b
    · rw [if_pos hb] at e
      by_cases hk : k ∈ o.keys
      · obtain ⟨o1, e1, w1, _⟩ := imulAt_ok ho hk (f k.1 k.2 ^ p)
        rw [e1] at e
        exact ih w1 e
      · rw [imulAt, (dictGet_eq_none_iff o.dict k).2 hk] at e
        cases e
    · rw [if_neg hb] at e; cases e

/-- The invariant, by induction on the way a set was built. -/
theorem Spec.Reach.WF [Field α] [DecidableEq α] [ElemField α] {s : Coefs α} (h : Reach s) : s.WF := by
  induction h with
  | new d dt hd => exact new_WF d dt hd
  | set l m data _ e ih => have := ih.set l m data; rw [e] at this; exact this
  | setFail l m data er _ e ih => have := ih.set l m data; rw [e] at this; rw [this]; exact ih
  | append l m data _ e ih => have := ih.append l m data; rw [e] at this; exact this
  | appendFail l m data er _ e ih => have := ih.append l m data; rw [e] at this; rw [this]; exact ih
  | emptyLike _ ih => exact WF_emptyLike ih
  | copy _ e ih => exact ((WF_emptyLike ih).appendAll _ e).1
  | zerosLike _ e ih => exact ((WF_emptyLike ih).appendAll _ e).1
  | truncated n _ e ih => exact ((WF_emptyLike ih).appendAll _ e).1
  | scale f p fdt _ e ih =>
    rename_i s1 s2 _
    obtain ⟨o, e1, w1, _⟩ := copy_spec ih
    rw [Coefs.scale, e1] at e
    exact WF_scaleFold _ f p s1.keys w1 e
  | add ks _ _ _ e iha ihb =>
    rw [Coefs.add] at e
    split_ifs at e
    exact WF_combineLoop _ _ _ (WF_emptyLike iha) ks e
  | sub ks _ _ _ e iha ihb =>
    rename_i a b s' _ _ _
    rw [Coefs.sub] at e
    obtain ⟨nb, e1, w1, _⟩ := mulScalar_spec ihb (-1)
    rw [e1] at e
    change Coefs.add ks a nb = _ at e
    rw [Coefs.add] at e
    split_ifs at e
    exact WF_combineLoop _ _ _ (WF_emptyLike iha) ks e
  | mulArray xs _ e ih => exact WF_mulGo xs (WF_emptyLike ih) _ e
  | mulScalar x _ e ih => exact WF_mulGo [x] (WF_emptyLike ih) _ e
  | mulCoefs ks _ _ _ e iha ihb =>
    rw [Coefs.mulCoefs] at e
    split_ifs at e
    exact WF_combineLoop _ _ _ (WF_emptyLike iha) ks e
  | pow p _ e ih => exact ((WF_emptyLike ih).appendAll _ e).1
  | divScalar x _ e ih =>
    rw [Coefs.divScalar] at e
    split_ifs at e
    exact WF_mulGo _ (WF_emptyLike ih) _ e
  | divCoefs ks _ _ _ e iha ihb =>
    rename_i a b s' _ _ _
    rw [Coefs.divCoefs] at e
    obtain ⟨ib, e1, w1, _⟩ := pow_spec ihb (-1)
    rw [e1] at e
    change Coefs.mulCoefs ks a ib = _ at e
    rw [Coefs.mulCoefs] at e
    split_ifs at e
    exact WF_combineLoop _ _ _ (WF_emptyLike iha) ks e
  | hstack ks ss _ hk e ih =>
    cases ss with
    | nil => cases e
    | cons s0 rest =>
      obtain ⟨s', e1, w1, _⟩ := hstack_spec (s0 := s0) (rest := rest) ih hk
      rw [e1] at e
      cases e; exact w1
  | hsplit n ts _ e ht ih =>
    rename_i s t _
    have hn : s.dflt.length % n.getD s.dflt.length = 0 ∧ n.getD s.dflt.length ≠ 0 := by
      by_contra hcon
      rw [Coefs.hsplit] at e
      have : ∃ x, npSplit s.dflt (n.getD s.dflt.length) = .error x := by
        unfold npSplit
        by_cases h0 : n.getD s.dflt.length = 0
        · exact ⟨_, if_pos h0⟩
        · rw [if_neg h0, if_neg (fun h => hcon ⟨h, h0⟩)]; exact ⟨_, rfl⟩
      obtain ⟨x, this⟩ := this
      simp only [this] at e
      cases e
    obtain ⟨T, e1, hT⟩ := hsplit_spec ih (n.getD s.dflt.length) hn.2 hn.1
    have e2 : Coefs.hsplit s n = Coefs.hsplit s (some (n.getD s.dflt.length)) := by
      cases n <;> rfl
    rw [e2, e1] at e
    cases e
    obtain ⟨i, hi, rfl⟩ := List.mem_map.1 ht
    exact (hT i (List.mem_range.1 hi)).1
  | hsplitAt idx ts _ e ht ih =>
    obtain ⟨T, e1, hT⟩ := hsplitAt_spec ih idx
    rw [e1] at e
    cases e
    obtain ⟨c, _, rfl⟩ := List.mem_map.1 ht
    exact (hT c).1
  | fromArrays dt ls ms rows e =>
    unfold Coefs.fromArrays at e
    split_ifs at e
    cases rows with
    | nil => cases e
    | cons r0 rows =>
      refine ((new_WF _ dt ?_).appendAll _ e).1
      intro x hx
      obtain ⟨y, _, rfl⟩ := List.mem_map.1 hx
      rw [zero_mul]; exact ElemRing.cast_zero dt

/-- **C03.** Every set that any program over the public operations can build is well formed. -/
theorem C03_reachable_wellFormed [Field α] [DecidableEq α] [ElemField α] {s : Coefs α} (h : Reach s) :
    WellFormed s := wellFormed_of_WF h.WF

end C03

/-- Non-vacuity of C03: a set built by a constructor, a store with negative order and a truncation. -/
example : ∃ s : Coefs ℚ, Reach s ∧ s.degreeMax = 2 ∧ s.orderMin = -2 ∧ s.size = 1 := by
  refine ⟨⟨[0], .real, [((2, -2), [3])], 2, -2⟩, ?_, rfl, rfl, rfl⟩
  refine Reach.truncated (s := ⟨[0], .real, [((2, -2), [3]), ((4, 1), [1])], 4, -2⟩) 3 ?_ ?_
  · refine Reach.append (s := ⟨[0], .real, [((2, -2), [3])], 2, -2⟩) (.int 4) (.int 1) [1] ?_ rfl
    refine Reach.set (s := Coefs.new [0] .real) (.int 2) (.int (-2)) [3] ?_ rfl
    exact Reach.new _ _ (by simp [Elem.cast, castQ])
  · simp [Coefs.truncated, Coefs.contents, Coefs.keys, sortKeys, keyLe, List.mergeSort, List.MergeSort.Internal.splitInTwo, Coefs.getI, dictGet, Coefs.emptyLike,
      Coefs.new, appendAll, intRow, append_run, set_run, keyIn, stored, dictSet, Elem.cast, castQ]

/-! ## C04 -/

/-- **C04.** A store that raises leaves every observable unchanged. -/
theorem C04_failed_store_changes_nothing [Elem α] (s s' : Coefs α) (l m : Idx) (data : List α) (e : Err)
    (h : Coefs.set l m data s = .error e s' ∨ Coefs.append l m data s = .error e s') :
    Same s' s ∧ s'.size = s.size ∧ s'.degreeMax = s.degreeMax ∧ s'.orderMin = s.orderMin ∧
      s'.contents = s.contents := by
  have : s' = s := by
    rcases h with h | h
    · rw [set_run] at h; split_ifs at h; cases h; rfl
    · rw [append_run, set_run] at h; split_ifs at h <;> cases h <;> rfl
  subst this
  exact ⟨⟨rfl, rfl, fun _ _ => rfl, fun _ _ => rfl⟩, rfl, rfl, rfl, rfl⟩

/-- Non-vacuity of C04: a store that raises because of its shape, on a non-empty set. -/
example : Coefs.set (.int 1) (.int 1) [1, 2] (⟨[0], .real, [((1, 0), [5])], 1, 0⟩ : Coefs ℚ)
    = .error .assertion ⟨[0], .real, [((1, 0), [5])], 1, 0⟩ := rfl

/-! ## C05 -/

section C05
variable [Field α] [DecidableEq α] [ElemField α]

omit [DecidableEq α] in
private theorem keys_perm_of_same {a b : Coefs α} (ha : a.WF) (hb : b.WF)
    (h : ∀ l m : ℤ, a.has (.int l) (.int m) = b.has (.int l) (.int m)) : a.keys.Perm b.keys := by
  refine perm_of_nodup_mem_iff ha.nodup hb.nodup ?_
  rintro ⟨l, m⟩
  rw [← has_int, ← has_int, h]

omit [DecidableEq α] in
private theorem contents_eq_of_same {a b : Coefs α} (ha : a.WF) (hb : b.WF) (h : Same a b) :
    a.contents = b.contents := by
  have hp := keys_perm_of_same ha hb h.has
  rw [contents, contents, sortKeys_congr hp]
  refine List.map_congr_left fun k _ => ?_
  have := h.get k.1 k.2
  rw [get_int, get_int] at this
  simp only [Except.ok.injEq] at this
  exact congrArg (Prod.mk k) this

/-- **C05.** `contents` lists every stored pair once, in increasing order, with the value `get` returns. -/
theorem C05_contents_sorted {s : Coefs α} (hr : Reach s) :
    (s.contents.map Prod.fst).Pairwise (fun a b => a.1 < b.1 ∨ (a.1 = b.1 ∧ a.2 < b.2)) ∧
    (∀ (l m : ℤ) (v : List α), ((l, m), v) ∈ s.contents ↔
      s.has (.int l) (.int m) = true ∧ s.get (.int l) (.int m) = .ok v) := by
  have h := hr.WF
  constructor
  · rw [contents_keys]
    have h1 := sortKeys_sorted s.keys
    have h2 : (sortKeys s.keys).Pairwise (· ≠ ·) := (sortKeys_nodup _).2 h.nodup
    refine (h1.and h2).imp ?_
    rintro ⟨a1, a2⟩ ⟨b1, b2⟩ ⟨hle, hne⟩
    rw [keyLe_iff] at hle
    simp only [ne_eq, Prod.mk.injEq, not_and] at hne
    simp only at hle ⊢
    omega
  · intro l m v
    rw [mem_contents, has_int, get_int]
    simp only [Except.ok.injEq]
    exact and_congr_right fun _ => eq_comm

/-- **C05.** Two sets that agree on `has` and `get` have identical `contents`, whatever their histories. -/
theorem C05_contents_history_independent {a b : Coefs α} (ra : Reach a) (rb : Reach b)
    (h : Same a b) : a.contents = b.contents :=
  contents_eq_of_same ra.WF rb.WF h

omit [DecidableEq α] in
/-- **C05.** Inserting the same values in any two orders gives indistinguishable sets. -/
theorem C05_insertion_order_irrelevant (d : List α) (dt : DType) (hd : ∀ x ∈ d, Elem.cast dt x = x)
    (rows rows' : List (Key × List α)) (hp : rows.Perm rows') (hn : (rows.map Prod.fst).Nodup)
    (hv : ∀ kv ∈ rows, |kv.1.2| ≤ kv.1.1 ∧ kv.2.length = d.length) :
    ∃ a b, appendAll (Coefs.new d dt) (rows.map fun kv => intRow kv.1 kv.2) = .ok a ∧
      appendAll (Coefs.new d dt) (rows'.map fun kv => intRow kv.1 kv.2) = .ok b ∧
      Same a b ∧ a.contents = b.contents := by
  obtain ⟨a, e1, d1, f1, t1⟩ := appendAll_ok (Coefs.new d dt) rows hn (by simp [Coefs.new, Coefs.keys])
    (fun kv h => (hv kv h).1) (fun kv h => (hv kv h).2)
  have hn' : (rows'.map Prod.fst).Nodup := ((hp.map _).nodup_iff).1 hn
  obtain ⟨b, e2, d2, f2, t2⟩ := appendAll_ok (Coefs.new d dt) rows' hn' (by simp [Coefs.new, Coefs.keys])
    (fun kv h => (hv kv (hp.mem_iff.2 h)).1) (fun kv h => (hv kv (hp.mem_iff.2 h)).2)
  have wa := ((new_WF d dt hd).appendAll _ e1).1
  have wb := ((new_WF d dt hd).appendAll _ e2).1
  have hdict : a.dict.Perm b.dict := by
    rw [d1, d2]; exact (hp.map _).append_left _
  have hget : ∀ k, dictGet a.dict k = dictGet b.dict k := by
    intro k
    rw [dictGet_eq, dictGet_eq]
    have hk : k ∈ a.keys ↔ k ∈ b.keys := (hdict.map Prod.fst).mem_iff
    by_cases h : k ∈ a.keys
    · have h' := hk.1 h
      rw [if_pos h, if_pos h']
      have m1 := getI_of_mem a k h
      have := dictGet_of_mem b.dict wb.nodup _ (hdict.mem_iff.1 m1)
      rw [dictGet_eq, if_pos h'] at this
      exact this.symm
    · rw [if_neg h, if_neg (fun h' => h (hk.2 h'))]
  have hsame : Same a b := by
    refine ⟨f1.trans f2.symm, t1.trans t2.symm, fun l m => ?_, fun l m => ?_⟩
    · rw [has_int_eq, has_int_eq, hget]
    · rw [get_int, get_int, getI, getI, hget, f1, f2]
  exact ⟨a, b, e1, e2, hsame, contents_eq_of_same wa wb hsame⟩

end C05

/-- Non-vacuity of C05: two different insertion orders. -/
example : (runCalls (Coefs.new [(0 : ℚ)] .real) [.set (.int 2) (.int 1) [3], .set (.int 1) (.int 0) [4]]).contents
    = (runCalls (Coefs.new [(0 : ℚ)] .real) [.set (.int 1) (.int 0) [4], .set (.int 2) (.int 1) [3]]).contents := by
  simp [runCalls, Call.run, Coefs.new, set_run, stored, dictSet, Coefs.contents, Coefs.keys, sortKeys, keyLe,
    List.mergeSort, List.MergeSort.Internal.splitInTwo, Coefs.getI, dictGet, Elem.cast, castQ]

end Verif
