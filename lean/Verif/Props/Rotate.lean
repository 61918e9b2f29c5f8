import Verif.Model.Rotate
import Verif.Lemmas.ZdiSet
import Verif.Props.ContainerAlgebra
import Mathlib.Algebra.BigOperators.Intervals
import Mathlib.Order.Interval.Finset.Defs
import Mathlib.Data.Int.Interval
import Mathlib.Algebra.Group.TypeTags.Basic

/-!
# C54, C55: rotation of coefficient sets
-/

namespace Verif
open Spec Coefs Rotate

/-- A family of matrices, one for each rotation and degree, that represents the group of rotations by unitary
matrices. -/
structure Spec.UnitaryRep {G : Type} [Group G] (D : G → ℤ → ℤ → ℤ → ℂ) : Prop where
  one : ∀ l m m' : ℤ, |m| ≤ l → |m'| ≤ l → D 1 l m m' = if m = m' then 1 else 0
  mul : ∀ (R S : G) (l m m' : ℤ), |m| ≤ l → |m'| ≤ l →
    D (R * S) l m m' = ∑ k ∈ Finset.Icc (-l) l, D R l m k * D S l k m'
  unitary : ∀ (R : G) (l m m' : ℤ), |m| ≤ l → |m'| ≤ l →
    ∑ k ∈ Finset.Icc (-l) l, D R l m k * (starRingEnd ℂ) (D R l m' k) = if m = m' then 1 else 0

namespace Rotate

theorem mem_loopKeys (L : ℤ) (k : Key) : k ∈ loopKeys L ↔ |k.2| ≤ k.1 ∧ k.1 ≤ L := by
  obtain ⟨l, m⟩ := k
  simp only [loopKeys, List.mem_flatMap, List.mem_map, mem_pyRange, Prod.mk.injEq]
  constructor
  · rintro ⟨a, h1, b, h2, rfl, rfl⟩
    exact ⟨abs_le.2 ⟨by omega, by omega⟩, by omega⟩
  · rintro ⟨h1, h2⟩
    have := abs_le.1 h1
    have := abs_nonneg m
    exact ⟨l, by omega, m, by omega, rfl, rfl⟩

theorem loopKeys_nodup (L : ℤ) : (loopKeys L).Nodup := by
  rw [loopKeys, List.nodup_flatMap]
  refine ⟨fun l _ => (pyRange_nodup _ _).map fun a b h => (Prod.mk.inj h).2, ?_⟩
  refine (pyRange_nodup 0 (L + 1)).imp fun {a b} hab => ?_
  intro k hk hk'
  obtain ⟨_, _, rfl⟩ := List.mem_map.1 hk
  obtain ⟨_, _, h⟩ := List.mem_map.1 hk'
  exact hab (Prod.mk.inj h).1.symm

theorem pyRange_toFinset (l : ℤ) : (pyRange (-l) (l + 1)).toFinset = Finset.Icc (-l) l := by
  ext m; simp only [List.mem_toFinset, mem_pyRange, Finset.mem_Icc]; omega

private theorem fold_spec (n : ℕ) (ms : List ℤ) (g : ℤ → List ℂ) (hg : ∀ m, (g m).length = n) (acc : List ℂ)
    (ha : acc.length = n) :
    (ms.foldl (fun acc m => List.zipWith (· + ·) acc (g m)) acc).length = n ∧
    ∀ i, (ms.foldl (fun acc m => List.zipWith (· + ·) acc (g m)) acc).getD i 0
      = acc.getD i 0 + (ms.map fun m => (g m).getD i 0).sum := by
  induction ms generalizing acc with
  | nil => simp [ha]
  | cons m ms ih =>
    have hl : (List.zipWith (· + ·) acc (g m)).length = n := by simp [ha, hg]
    obtain ⟨h1, h2⟩ := ih _ hl
    refine ⟨h1, fun i => ?_⟩
    rw [List.foldl_cons, h2, List.map_cons, List.sum_cons, ← add_assoc]
    congr 1
    simp only [List.getD_eq_getElem?_getD, List.getElem?_zipWith]
    by_cases hi : i < n
    · simp [List.getElem?_eq_getElem (ha.symm ▸ hi : i < acc.length),
        List.getElem?_eq_getElem ((hg m).symm ▸ hi : i < (g m).length)]
    · simp [List.getElem?_eq_none (ha.symm ▸ not_lt.1 hi : acc.length ≤ i),
        List.getElem?_eq_none ((hg m).symm ▸ not_lt.1 hi : (g m).length ≤ i)]

private theorem getD_map_mul (xs : List ℂ) (x : ℂ) (i : ℕ) : (xs.map (x * ·)).getD i 0 = x * xs.getD i 0 := by
  simp only [List.getD_eq_getElem?_getD, List.getElem?_map]
  rcases xs[i]? with _ | c <;> simp

theorem coefOut_spec {s : Coefs ℂ} (hs : s.WF) (D : ℤ → ℤ → ℤ → ℂ) (l m : ℤ) :
    (coefOut D s l m).length = s.dflt.length ∧
    ∀ i, (coefOut D s l m).getD i 0
      = s.dflt.getD i 0 + ∑ k ∈ Finset.Icc (-l) l, D l k m * coefCol i s l k := by
  obtain ⟨h1, h2⟩ := fold_spec s.dflt.length (pyRange (-l) (l + 1))
    (fun mIn => (s.getI (l, mIn)).map (D l mIn m * ·)) (fun k => by simp [hs.getI_length]) s.dflt rfl
  refine ⟨h1, fun i => (h2 i).trans ?_⟩
  rw [← pyRange_toFinset, List.sum_toFinset _ (pyRange_nodup _ _)]
  simp only [getD_map_mul]
  rfl

/-- What rotation returns. -/
theorem rotate_spec {s : Coefs ℂ} (hs : s.WF) (hd : s.dtype = .cplx) (D : ℤ → ℤ → ℤ → ℂ) :
    ∃ t, rotate D s = .ok t ∧ t.WF ∧ t.dflt = s.dflt ∧ t.dtype = .cplx ∧ t.degreeMax = s.degreeMax ∧
      (∀ l m, stores t l m ↔ |m| ≤ l ∧ l ≤ s.degreeMax) ∧
      ∀ i l m, coefCol i t l m = if |m| ≤ l ∧ l ≤ s.degreeMax then
        s.dflt.getD i 0 + ∑ k ∈ Finset.Icc (-l) l, D l k m * coefCol i s l k else s.dflt.getD i 0 := by
  obtain ⟨t, h1, h2, h3, h4, h5, h6⟩ := build_ok s.dflt s.dtype hs.dfltTyped (loopKeys s.degreeMax)
    (fun k => coefOut D s k.1 k.2) (loopKeys_nodup _) (fun k hk => ((mem_loopKeys _ k).1 hk).1)
    (fun k _ => (coefOut_spec hs D k.1 k.2).1)
  have h0 : 0 ≤ s.degreeMax := by
    rcases hs.degAttained with h | ⟨k, hk, e⟩
    · exact h.2.ge
    · rw [← e]; exact (abs_nonneg _).trans (hs.valid k hk)
  have hmem : ∀ l m, (l, m) ∈ t.keys ↔ |m| ≤ l ∧ l ≤ s.degreeMax := fun l m => by rw [h3, mem_loopKeys]
  refine ⟨t, by rw [rotate, if_pos hd]; exact h1, h2, h4, h5.trans hd, ?_, ?_, ?_⟩
  · refine le_antisymm ?_ (h2.degUpper _ ((hmem s.degreeMax 0).2 ⟨by simpa using h0, le_rfl⟩))
    rcases h2.degAttained with h | ⟨k, hk, e⟩
    · rw [h.2]; exact h0
    · rw [← e]; exact ((hmem k.1 k.2).1 hk).2
  · intro l m; rw [stores, has_int, hmem]
  · intro i l m
    rw [coefCol, valueAt_eq, h6]
    by_cases hk : |m| ≤ l ∧ l ≤ s.degreeMax
    · rw [if_pos ((mem_loopKeys _ (l, m)).2 hk), if_pos hk, hd]
      have e : (coefOut D s l m).map (Elem.cast DType.cplx) = coefOut D s l m :=
        map_cast_of_typed fun x _ => rfl
      rw [e, (coefOut_spec hs D l m).2]
    · rw [if_neg (fun h => hk ((mem_loopKeys _ (l, m)).1 h)), if_neg hk]

end Rotate

private theorem getD_zero {s : Coefs ℂ} (hz : ZeroDefault s) (i : ℕ) : s.dflt.getD i 0 = 0 := by
  rw [List.getD_eq_getElem?_getD]
  rcases h : s.dflt[i]? with _ | c
  · rfl
  · exact hz c (List.mem_of_getElem? h)

/-- Beyond the highest degree (and at invalid orders) nothing is stored. -/
private theorem coefCol_outside {s : Coefs ℂ} (hs : s.WF) (i : ℕ) (l m : ℤ) (h : ¬ (|m| ≤ l ∧ l ≤ s.degreeMax)) :
    coefCol i s l m = s.dflt.getD i 0 := by
  rw [coefCol, valueAt_eq, getI_of_not_mem s (l, m) fun hk => h ⟨hs.valid _ hk, hs.degUpper _ hk⟩]

private theorem val_ext {s t : Coefs ℂ} (hs : s.WF) (ht : t.WF) (hd : s.dflt.length = t.dflt.length)
    (h : ∀ i l m, coefCol i s l m = coefCol i t l m) (l m : ℤ) :
    s.get (.int l) (.int m) = t.get (.int l) (.int m) := by
  rw [get_int, get_int]
  congr 1
  apply List.ext_getElem (by rw [hs.getI_length, ht.getI_length, hd])
  intro i h1 h2
  have := h i l m
  simpa [coefCol, valueAt_eq, List.getD_eq_getElem?_getD, List.getElem?_eq_getElem h1, List.getElem?_eq_getElem h2]
    using this

/-! ## C54 -/

/-- **C54.** Rotation of a complex set never raises. It stores all pairs up to the highest degree and no other, keeps
the default, and returns the sums over the orders, to which the default is added. -/
theorem C54_values (D : ℤ → ℤ → ℤ → ℂ) (s : Coefs ℂ) (hr : Reach s) (hd : s.dtype = .cplx) :
    ∃ t, rotate D s = .ok t ∧ WellFormed t ∧ t.dflt = s.dflt ∧ t.dtype = .cplx ∧ t.degreeMax = s.degreeMax ∧
      (∀ l m, stores t l m ↔ |m| ≤ l ∧ l ≤ s.degreeMax) ∧
      ∀ i l m, coefCol i t l m = s.dflt.getD i 0 + if |m| ≤ l ∧ l ≤ s.degreeMax then
        ∑ k ∈ Finset.Icc (-l) l, D l k m * coefCol i s l k else 0 := by
  obtain ⟨t, h1, h2, h3, h4, h5, h6, h7⟩ := rotate_spec hr.WF hd D
  refine ⟨t, h1, wellFormed_of_WF h2, h3, h4, h5, h6, fun i l m => ?_⟩
  rw [h7]; split_ifs <;> simp

/-- **C54.** Sets of any other dtype are refused. -/
theorem C54_real_raises (D : ℤ → ℤ → ℤ → ℂ) (s : Coefs ℂ) (hd : s.dtype ≠ .cplx) : rotate D s = .error .type := by
  rw [rotate, if_neg hd]

namespace Rotate

/-- Values for sets with zero default: the formula holds at every pair. -/
theorem values_zero {n : ℕ} {D : ℤ → ℤ → ℤ → ℂ} {s t : Coefs ℂ} (hs : Operand .cplx n s) (ht : rotate D s = .ok t) :
    t.WF ∧ t.dflt = s.dflt ∧ t.dtype = .cplx ∧ t.degreeMax = s.degreeMax ∧
    (∀ l m, stores t l m ↔ |m| ≤ l ∧ l ≤ s.degreeMax) ∧
    ∀ i l m, |m| ≤ l → coefCol i t l m = ∑ k ∈ Finset.Icc (-l) l, D l k m * coefCol i s l k := by
  obtain ⟨t', h1, h2, h3, h4, h5, h6, h7⟩ := rotate_spec hs.reach.WF hs.dtype D
  rw [ht] at h1; cases h1
  refine ⟨h2, h3, h4, h5, h6, fun i l m hm => ?_⟩
  rw [h7]
  split_ifs with h
  · rw [getD_zero hs.zero, zero_add]
  · rw [getD_zero hs.zero, Finset.sum_eq_zero]
    intro k _
    rw [coefCol_outside hs.reach.WF i l k fun h' => h ⟨hm, h'.2⟩, getD_zero hs.zero, mul_zero]

theorem reach_of_rotate {D : ℤ → ℤ → ℤ → ℂ} {s t : Coefs ℂ} (hr : Reach s) (ht : rotate D s = .ok t) : Reach t := by
  rw [rotate] at ht
  split_ifs at ht
  have key : ∀ (rows : List (Idx × Idx × List ℂ)) (s t : Coefs ℂ), Reach s → appendAll s rows = .ok t → Reach t := by
    intro rows
    induction rows with
    | nil => intro s t hs h; cases h; exact hs
    | cons r rows ih =>
      intro s t hs h
      obtain ⟨l, m, d⟩ := r
      rw [appendAll] at h
      rcases ha : append l m d s with ⟨⟨⟩, s'⟩ | ⟨e, s'⟩
      · rw [ha] at h; exact ih s' t (Reach.append l m d hs ha) h
      · rw [ha] at h; cases h
  exact key _ _ _ (Reach.emptyLike hr) ht

theorem operand_of_rotate {n : ℕ} {D : ℤ → ℤ → ℤ → ℂ} {s t : Coefs ℂ} (hs : Operand .cplx n s)
    (ht : rotate D s = .ok t) : Operand .cplx n t := by
  obtain ⟨_, h2, h3, _⟩ := values_zero hs ht
  exact ⟨reach_of_rotate hs.reach ht, fun x hx => hs.zero x (h2 ▸ hx), h3, by rw [h2]; exact hs.cols⟩

end Rotate

/-- **C54.** Rotation is linear: whenever the values of `c` are those of `x a + y b`, so are they after rotation. -/
theorem C54_linear {n : ℕ} (D : ℤ → ℤ → ℤ → ℂ) (a b c ra rb rc : Coefs ℂ) (x y : ℂ) (ha : Operand .cplx n a)
    (hb : Operand .cplx n b) (hc : Operand .cplx n c)
    (hv : ∀ i l m, coefCol i c l m = x * coefCol i a l m + y * coefCol i b l m)
    (ea : rotate D a = .ok ra) (eb : rotate D b = .ok rb) (ec : rotate D c = .ok rc) (i : ℕ) (l m : ℤ) :
    coefCol i rc l m = x * coefCol i ra l m + y * coefCol i rb l m := by
  obtain ⟨wa, da, _, _, _, va⟩ := values_zero ha ea
  obtain ⟨wb, db, _, _, _, vb⟩ := values_zero hb eb
  obtain ⟨wc, dc, _, _, _, vc⟩ := values_zero hc ec
  by_cases hm : |m| ≤ l
  · rw [va i l m hm, vb i l m hm, vc i l m hm, Finset.mul_sum, Finset.mul_sum, ← Finset.sum_add_distrib]
    refine Finset.sum_congr rfl fun k _ => ?_
    rw [hv]; ring
  · rw [coefCol_outside wa i l m fun h => hm h.1, coefCol_outside wb i l m fun h => hm h.1,
      coefCol_outside wc i l m fun h => hm h.1, da, db, dc, getD_zero ha.zero, getD_zero hb.zero, getD_zero hc.zero]
    simp

variable {G : Type} [Group G] {D : G → ℤ → ℤ → ℤ → ℂ}

/-- **C54.** Rotation by the identity changes no value. -/
theorem C54_identity {n : ℕ} (hD : UnitaryRep D) (s t : Coefs ℂ) (hs : Operand .cplx n s)
    (ht : rotate (D 1) s = .ok t) : SameValues t s := by
  obtain ⟨w, d, _, _, _, v⟩ := values_zero hs ht
  refine val_ext w hs.reach.WF (by rw [d]) fun i l m => ?_
  by_cases hm : |m| ≤ l
  · have hmem : m ∈ Finset.Icc (-l) l := Finset.mem_Icc.2 (abs_le.1 hm)
    rw [v i l m hm, Finset.sum_eq_single_of_mem m hmem, hD.one l m m hm hm, if_pos rfl, one_mul]
    intro k hk hkm
    rw [hD.one l k m (abs_le.2 (Finset.mem_Icc.1 hk)) hm, if_neg hkm, zero_mul]
  · rw [coefCol_outside w i l m fun h => hm h.1, coefCol_outside hs.reach.WF i l m fun h => hm h.1, d]

/-- **C54.** Rotating by `R` and then by `S` is rotating by `R * S`. -/
theorem C54_compose {n : ℕ} (hD : UnitaryRep D) (R S : G) (s t u v : Coefs ℂ) (hs : Operand .cplx n s)
    (ht : rotate (D R) s = .ok t) (hu : rotate (D S) t = .ok u) (hv : rotate (D (R * S)) s = .ok v) : Same u v := by
  have ot := operand_of_rotate hs ht
  obtain ⟨wt, dt, _, lt, _, vt⟩ := values_zero hs ht
  obtain ⟨wu, du, tu, lu, su, vu⟩ := values_zero ot hu
  obtain ⟨wv, dv, tv, lv, sv, vv⟩ := values_zero hs hv
  refine ⟨by rw [du, dt, dv], by rw [tu, tv], fun l m => ?_, val_ext wu wv (by rw [du, dt, dv]) fun i l m => ?_⟩
  · rw [Bool.eq_iff_iff]
    exact (su l m).trans (by rw [lt]; exact (sv l m).symm)
  · by_cases hm : |m| ≤ l
    · rw [vu i l m hm, vv i l m hm]
      have h1 : ∀ k ∈ Finset.Icc (-l) l, D S l k m * coefCol i t l k
          = ∑ j ∈ Finset.Icc (-l) l, D R l j k * D S l k m * coefCol i s l j := by
        intro k hk
        rw [vt i l k (abs_le.2 (Finset.mem_Icc.1 hk)), Finset.mul_sum]
        exact Finset.sum_congr rfl fun j _ => by ring
      rw [Finset.sum_congr rfl h1, Finset.sum_comm]
      refine Finset.sum_congr rfl fun j hj => ?_
      rw [hD.mul R S l j m (abs_le.2 (Finset.mem_Icc.1 hj)) hm, Finset.sum_mul]
    · rw [coefCol_outside wu i l m fun h => hm h.1, coefCol_outside wv i l m fun h => hm h.1, du, dt, dv]

/-- **C54.** Rotating back restores every value. -/
theorem C54_inverse {n : ℕ} (hD : UnitaryRep D) (R : G) (s t u : Coefs ℂ) (hs : Operand .cplx n s)
    (ht : rotate (D R) s = .ok t) (hu : rotate (D R⁻¹) t = .ok u) : SameValues u s := by
  obtain ⟨v, hv, _⟩ := rotate_spec hs.reach.WF hs.dtype (D (R * R⁻¹))
  have h1 := C54_compose hD R R⁻¹ s t u v hs ht hu hv
  rw [mul_inv_cancel] at hv
  intro l m
  exact (h1.get l m).trans (C54_identity hD s v hs hv l m)

/-- **C54.** The power in every degree is conserved, column by column. -/
theorem C54_power {n : ℕ} (hD : UnitaryRep D) (R : G) (s t : Coefs ℂ) (hs : Operand .cplx n s)
    (ht : rotate (D R) s = .ok t) (i : ℕ) (l : ℤ) :
    ∑ m ∈ Finset.Icc (-l) l, ‖coefCol i t l m‖ ^ 2 = ∑ m ∈ Finset.Icc (-l) l, ‖coefCol i s l m‖ ^ 2 := by
  obtain ⟨_, _, _, _, _, v⟩ := values_zero hs ht
  have hab : ∀ m ∈ Finset.Icc (-l) l, |m| ≤ l := fun m hm => abs_le.2 (Finset.mem_Icc.1 hm)
  have key : ∑ m ∈ Finset.Icc (-l) l, coefCol i t l m * (starRingEnd ℂ) (coefCol i t l m)
      = ∑ m ∈ Finset.Icc (-l) l, coefCol i s l m * (starRingEnd ℂ) (coefCol i s l m) := by
    have h1 : ∀ m ∈ Finset.Icc (-l) l, coefCol i t l m * (starRingEnd ℂ) (coefCol i t l m)
        = ∑ j ∈ Finset.Icc (-l) l, ∑ k ∈ Finset.Icc (-l) l, coefCol i s l j * (starRingEnd ℂ) (coefCol i s l k)
          * (D R l j m * (starRingEnd ℂ) (D R l k m)) := by
      intro m hm
      rw [v i l m (hab m hm), map_sum, Finset.sum_mul_sum]
      refine Finset.sum_congr rfl fun j _ => Finset.sum_congr rfl fun k _ => ?_
      rw [map_mul]; ring
    rw [Finset.sum_congr rfl h1, Finset.sum_comm]
    refine Finset.sum_congr rfl fun j hj => ?_
    rw [Finset.sum_comm]
    have h2 : ∀ k ∈ Finset.Icc (-l) l, ∑ m ∈ Finset.Icc (-l) l, coefCol i s l j * (starRingEnd ℂ) (coefCol i s l k)
          * (D R l j m * (starRingEnd ℂ) (D R l k m))
        = if j = k then coefCol i s l j * (starRingEnd ℂ) (coefCol i s l k) else 0 := by
      intro k hk
      rw [← Finset.mul_sum, hD.unitary R l j k (hab j hj) (hab k hk)]
      split_ifs <;> simp
    rw [Finset.sum_congr rfl h2, Finset.sum_ite_eq, if_pos hj]
  have h3 : ∀ z : ℂ, z * (starRingEnd ℂ) z = ((‖z‖ ^ 2 : ℝ) : ℂ) := fun z => by
    rw [Complex.mul_conj, Complex.normSq_eq_norm_sq]
  simp only [h3] at key
  exact_mod_cast key

/-- **C54.** The exception: a default other than zero is added to every value, even by the identity. -/
theorem C54_default_added (hD : UnitaryRep D) (s t : Coefs ℂ) (hr : Reach s) (hd : s.dtype = .cplx)
    (ht : rotate (D 1) s = .ok t) (i : ℕ) (l m : ℤ) (hm : |m| ≤ l) (hl : l ≤ s.degreeMax) :
    coefCol i t l m = coefCol i s l m + s.dflt.getD i 0 := by
  obtain ⟨t', h1, _, _, _, _, _, h7⟩ := rotate_spec hr.WF hd (D 1)
  rw [ht] at h1; cases h1
  have hmem : m ∈ Finset.Icc (-l) l := Finset.mem_Icc.2 (abs_le.1 hm)
  rw [h7, if_pos ⟨hm, hl⟩, Finset.sum_eq_single_of_mem m hmem, hD.one l m m hm hm, if_pos rfl, one_mul, add_comm]
  intro k hk hkm
  rw [hD.one l k m (abs_le.2 (Finset.mem_Icc.1 hk)) hm, if_neg hkm, zero_mul]

/-! ## C55 -/

/-- The Wigner matrices of rotations about the z axis: those of the quaternion `cos(γ/2) + k sin(γ/2)`. -/
noncomputable def Spec.zRotation (γ : ℝ) (l m m' : ℤ) : ℂ :=
  if m = m' ∧ |m| ≤ l then Complex.exp (Complex.I * m * γ) else 0

/-- They satisfy the hypothesis of C54. -/
theorem C55_unitaryRep : UnitaryRep (G := Multiplicative ℝ) fun γ => zRotation γ.toAdd where
  one l m m' hm hm' := by simp [zRotation, hm]
  mul R S l m m' hm hm' := by
    rw [Finset.sum_eq_single_of_mem m (Finset.mem_Icc.2 (abs_le.1 hm))]
    · simp only [zRotation, hm, and_true, true_and, if_true, toAdd_mul]
      split_ifs
      · rw [← Complex.exp_add]; congr 1; push_cast; ring
      · simp
    · intro k _ hk
      simp [zRotation, hk.symm]
  unitary R l m m' hm hm' := by
    rw [Finset.sum_eq_single_of_mem m (Finset.mem_Icc.2 (abs_le.1 hm))]
    · simp only [zRotation, hm, hm', and_true, if_true]
      by_cases h : m = m'
      · subst h
        rw [if_pos rfl, if_pos rfl, ← Complex.exp_conj, ← Complex.exp_add]
        simp
      · rw [if_neg (Ne.symm h), if_neg h]; simp
    · intro k _ hk
      simp [zRotation, hk.symm]

/-- **C55.** A rotation about the z axis turns the phase of every coefficient. -/
theorem C55_phase {n : ℕ} (γ : ℝ) (s t : Coefs ℂ) (hs : Operand .cplx n s) (ht : rotate (zRotation γ) s = .ok t)
    (i : ℕ) (l m : ℤ) : coefCol i t l m = Complex.exp (Complex.I * m * γ) * coefCol i s l m := by
  obtain ⟨w, d, _, _, _, v⟩ := values_zero hs ht
  by_cases hm : |m| ≤ l
  · rw [v i l m hm, Finset.sum_eq_single_of_mem m (Finset.mem_Icc.2 (abs_le.1 hm))]
    · simp [zRotation, hm]
    · intro k _ hk
      simp [zRotation, hk]
  · rw [coefCol_outside w i l m fun h => hm h.1, coefCol_outside hs.reach.WF i l m fun h => hm h.1, d,
      getD_zero hs.zero, mul_zero]

/-- **C55.** The radial field of the rotated set is the original one at a shifted azimuth; so are the two tangential
components computed without table lookup. -/
theorem C55_field {n : ℕ} (γ : ℝ) (s t : Coefs ℂ) (hs : Operand .cplx n s) (hn : n = 1 ∨ n = 2 ∨ n = 3)
    (hne : ∃ l m, stores s l m) (ht : rotate (zRotation γ) s = .ok t) :
    ∃ z z', Zdi.fromCoefficients s = .ok z ∧ Zdi.fromCoefficients t = .ok z' ∧ ∀ θ φ,
      Zdi.radial z' θ φ = Zdi.radial z θ (φ + γ) ∧
      Zdi.azimuthalPoloidal z' θ φ = Zdi.azimuthalPoloidal z θ (φ + γ) ∧
      Zdi.polarToroidal z' θ φ = Zdi.polarToroidal z θ (φ + γ) := by
  obtain ⟨w, d, _, _, st, _⟩ := values_zero hs ht
  have zs : ZdiSet s := ⟨wellFormed_of_WF hs.reach.WF, by rw [hs.cols]; exact hn, hne⟩
  have hsub : pairs s ⊆ pairs t := by
    intro k hk
    rw [mem_pairs] at hk ⊢
    rw [stores, has_int] at hk
    exact (st _ _).2 ⟨hs.reach.WF.valid _ hk, hs.reach.WF.degUpper _ hk⟩
  have zt : ZdiSet t := by
    obtain ⟨l, m, hk⟩ := hne
    exact ⟨wellFormed_of_WF w, by rw [d, hs.cols]; exact hn, l, m, (mem_pairs t (l, m)).1 (hsub ((mem_pairs s (l, m)).2 hk))⟩
  have hexp : ∀ (m : ℤ) (φ : ℝ), Complex.exp (Complex.I * m * γ) * Zdi.expi m φ = Zdi.expi m (φ + γ) := by
    intro m φ
    rw [Zdi.expi, Zdi.expi, ← Complex.exp_add]; congr 1; push_cast; ring
  refine ⟨_, _, zs.fromCoefficients, zt.fromCoefficients, fun θ φ => ?_⟩
  have key : ∀ (i : ℕ) (f g : ZRow → ℂ) (F : ℤ × ℤ → ℝ → ℂ → ℂ), (∀ k ψ, F k ψ 0 = 0) →
      (∀ k, f (zrow t k) = F k φ (coefCol i t k.1 k.2)) → (∀ k, g (zrow s k) = F k (φ + γ) (coefCol i s k.1 k.2)) →
      (∀ k c, F k φ (Complex.exp (Complex.I * k.2 * γ) * c) = F k (φ + γ) c) →
      ((t.rowKeys.map (zrow t)).map f).sum = ((s.rowKeys.map (zrow s)).map g).sum := by
    intro i f g F h0 hf hg hF
    rw [Zdi.sum_rows zt, Zdi.sum_rows zs]
    simp only [hf, hg]
    rw [sum_pairs_extend hs.reach.WF hs.zero i hsub (fun k c => F k (φ + γ) c) (fun k => h0 k _)]
    refine Finset.sum_congr rfl fun k _ => ?_
    rw [C55_phase γ s t hs ht, hF]
  refine ⟨?_, ?_, ?_⟩
  · simp only [Zdi.radial, Zdi.radialToroidal, Zdi.radialPoloidal]
    congr 2
    refine key 0 _ _ (fun k ψ c => c * cLm k.1 k.2 * lpmv k.2 k.1 (Real.cos θ) * Zdi.expi k.2 ψ) (by simp)
      (fun k => rfl) (fun k => rfl) fun k c => ?_
    rw [← hexp]; ring
  · simp only [Zdi.azimuthalPoloidal]
    congr 1
    refine key 1 _ _ (fun k ψ c => -(c * cLm k.1 k.2 * lpmv k.2 k.1 (Real.cos θ) * Complex.I * k.2 * Zdi.expi k.2 ψ
      / (k.1 + 1) / (Real.sin θ : ℂ))) (by simp) (fun k => rfl) (fun k => rfl) fun k c => ?_
    rw [← hexp]; ring
  · simp only [Zdi.polarToroidal]
    congr 1
    refine key 2 _ _ (fun k ψ c => c * cLm k.1 k.2 * lpmv k.2 k.1 (Real.cos θ) * Complex.I * k.2 * Zdi.expi k.2 ψ
      / (k.1 + 1) / (Real.sin θ : ℂ)) (by simp) (fun k => rfl) (fun k => rfl) fun k c => ?_
    rw [← hexp]; ring

/-! ### Non-vacuity -/

/-- The set with `i` at (1, 1). -/
private noncomputable def ex : Coefs ℂ := ⟨[0], .cplx, [((1, 1), [Complex.I])], 1, 0⟩

private theorem ex_operand : Operand .cplx 1 ex := by
  refine ⟨?_, by simp [ex, ZeroDefault], rfl, rfl⟩
  refine Reach.append (s := Coefs.new [0] .cplx) (.int 1) (.int 1) [Complex.I] ?_ rfl
  exact Reach.new _ _ (by simp)

/-- A quarter turn makes it -1. -/
example : ∃ t, rotate (zRotation (Real.pi / 2)) ex = .ok t ∧ coefCol 0 t 1 1 = -1 ∧ stores t 1 (-1) := by
  obtain ⟨t, h1, _, _, _, _, h6, _⟩ := rotate_spec ex_operand.reach.WF ex_operand.dtype (zRotation (Real.pi / 2))
  refine ⟨t, h1, ?_, (h6 1 (-1)).2 ⟨by norm_num, le_rfl⟩⟩
  rw [C55_phase _ _ _ ex_operand h1]
  have e : coefCol 0 ex 1 1 = Complex.I := rfl
  have e2 : Complex.I * ((1 : ℤ) : ℂ) * ((Real.pi / 2 : ℝ) : ℂ) = Real.pi / 2 * Complex.I := by push_cast; ring
  rw [e, e2, Complex.exp_pi_div_two_mul_I, Complex.I_mul_I]

/-- A set with default 1: the identity makes 2 of the 1 stored at (0, 0). -/
example : ∃ t, rotate (zRotation 0) ⟨[1], .cplx, [((0, 0), [1])], 0, 0⟩ = .ok t ∧ coefCol 0 t 0 0 = 2 := by
  have hr : Reach (⟨[1], .cplx, [((0, 0), [1])], 0, 0⟩ : Coefs ℂ) :=
    Reach.append (s := Coefs.new [1] .cplx) (.int 0) (.int 0) [1] (Reach.new _ _ (by simp)) rfl
  obtain ⟨t, h1, _⟩ := rotate_spec hr.WF rfl (zRotation 0)
  refine ⟨t, h1, ?_⟩
  have := C54_default_added C55_unitaryRep _ t hr rfl (show rotate (zRotation (Multiplicative.toAdd 1)) _ = _ from h1)
    0 0 0 (by simp) le_rfl
  rw [this]
  show (1 : ℂ) + 1 = 2
  norm_num

end Verif
