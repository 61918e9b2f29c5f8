import Verif.Model.Spectrum
import Verif.Props.Plots
import Verif.Lemmas.Zdi
import Mathlib.Tactic.Linarith
import Mathlib.Tactic.FieldSimp
import Mathlib.Algebra.Order.Floor.Ring
import Mathlib.Data.List.GetD

/-!
# C79: spectra
-/

namespace Verif
open Spectrum Plots

/-- Sample `i` of column `c`. -/
def Spec.sample (rows : List (List ℚ)) (c i : ℕ) : ℚ := (rows.getD i []).getD c 0

/-- The points of a panel, in the order of drawing. -/
def Spec.points (p : Panel) : List (ℚ × ℚ) := p.scatters.flatMap fun s => s.x.zip s.y

/-- The colour runs from 0 to 1 in equal steps along the points of each call. -/
def Spec.Coloured (s : Scatter) : Prop := s.x.length = s.y.length ∧ s.colour.length = s.y.length ∧
  ∀ (k : ℕ) (c : ℚ), s.colour[k]? = some c → c * ((s.y.length : ℚ) - 1) = k ∧ (k = 0 → c = 0)

/-- The number of samples of a column that are below (above) a value. -/
def Spec.below (rows : List (List ℚ)) (c : ℕ) (v : ℚ) : ℕ := (List.range rows.length).countP fun i => sample rows c i < v
def Spec.above (rows : List (List ℚ)) (c : ℕ) (v : ℚ) : ℕ := (List.range rows.length).countP fun i => v < sample rows c i

open Spec

namespace Spectrum

theorem column_ok {rows : List (List ℚ)} {c : ℕ} (h : ∀ r ∈ rows, c < r.length) :
    column rows c = .ok ((List.range rows.length).map (sample rows c)) := by
  have : column rows c = .ok (rows.map fun r => r.getD c 0) := by
    rw [column]
    apply mapM_pure_ok
    intro r hr
    have := h r hr
    rw [List.getElem?_eq_getElem this, List.getD_eq_getElem _ _ this]
    rfl
  rw [this]
  congr 1
  apply List.ext_getElem (by simp)
  intro i h1 h2
  simp only [List.length_map] at h1
  simp [sample, h1]

theorem column_inv {rows : List (List ℚ)} {c : ℕ} {v : List ℚ} (h : column rows c = .ok v) : ∀ r ∈ rows, c < r.length := by
  rw [column] at h
  induction rows generalizing v with
  | nil => simp
  | cons r rs ih =>
    rw [List.mapM_cons] at h
    rcases hr : r[c]? with _ | x
    · rw [hr] at h; cases h
    · rw [hr] at h
      rcases hm : (rs.mapM fun r => r[c]?.elim (.error Err.index) .ok : Res (List ℚ)) with e | w
      · rw [hm] at h; cases h
      · intro r' hr'
        rcases List.mem_cons.1 hr' with rfl | hr'
        · exact (List.getElem?_eq_some_iff.1 hr).1
        · exact ih hm r' hr'

theorem linspace_ok {m : ℤ} (h : 0 ≤ m) : linspace01 m = .ok ((List.range m.toNat).map fun (k : ℕ) => (k : ℚ) / (m - 1)) := by
  rw [linspace01, if_neg (by omega)]

/-- The intervals of a spectrum that is not empty. -/
theorem intervals (w : List ℚ) (t : ℚ) (hw : w ≠ []) (p : ℤ × ℤ) (hp : p ∈ wlIntervals w t) :
    0 ≤ p.1 ∧ p.1 ≤ p.2 ∧ p.2 ≤ w.length := by
  obtain ⟨s, hs, hj, h1, h2⟩ := C62_values w t
  have hb : ∀ i ∈ s, i + 1 < w.length := fun i hi => by
    obtain ⟨-, y, -, h, -⟩ := (hj i).1 hi
    exact (List.getElem?_eq_some_iff.1 h).1
  have hz : wlIntervals w t = (0 :: s.map fun (i : ℕ) => (i : ℤ)).zip (s.map (fun (i : ℕ) => (i : ℤ) + 1) ++ [(w.length : ℤ) - 1]) := by
    rw [← h1, ← h2]; exact (List.zip_of_prod rfl rfl)
  have hl := List.length_pos_of_ne_nil hw
  have key : ∀ (s : List ℕ) (a e : ℤ), 0 ≤ a → a ≤ e → e < w.length → (∀ i ∈ s, a ≤ (i : ℤ) ∧ (i : ℤ) + 1 ≤ e) → s.Pairwise (· < ·) →
      ∀ p ∈ (a :: s.map fun (i : ℕ) => (i : ℤ)).zip (s.map (fun (i : ℕ) => (i : ℤ) + 1) ++ [e]),
        0 ≤ p.1 ∧ p.1 ≤ p.2 ∧ p.2 ≤ w.length := by
    intro s
    induction s with
    | nil =>
      intro a e h0 h1 h2 _ _ p hp
      simp only [List.map_nil, List.nil_append, List.zip_cons_cons, List.zip_nil_left, List.mem_singleton] at hp
      subst hp
      exact ⟨h0, h1, by simp only; omega⟩
    | cons b s ih =>
      intro a e h0 h1 h2 h3 h4 p hp
      rw [List.pairwise_cons] at h4
      have hb := h3 b (by simp)
      simp only [List.map_cons, List.cons_append, List.zip_cons_cons, List.mem_cons] at hp
      rcases hp with rfl | hp
      · exact ⟨h0, by simp only; omega, by simp only; omega⟩
      · exact ih b e (by omega) (by omega) h2 (fun i hi => ⟨by exact_mod_cast (h4.1 i hi).le, (h3 i (by simp [hi])).2⟩) h4.2 p hp
  rw [hz] at hp
  exact key s 0 _ le_rfl (by omega) (by omega) (fun i hi => ⟨by omega, by have := hb i hi; omega⟩) hs p hp

theorem slice_eq (n : ℕ) (f : ℕ → ℚ) (p : ℤ × ℤ) (h0 : 0 ≤ p.1) (h1 : p.1 ≤ p.2) (h2 : p.2 ≤ n) :
    slice ((List.range n).map f) p = (List.range' p.1.toNat (p.2 - p.1).toNat).map f := by
  rw [slice, ← List.map_take, ← List.map_drop]
  congr 1
  apply List.ext_getElem (by simp; omega)
  intro i h3 h4
  simp

theorem count_range' (a b i : ℤ) (h0 : 0 ≤ a) (h1 : a ≤ b) (hi : 0 ≤ i) : (List.range' a.toNat (b - a).toNat).count i.toNat
    = if a ≤ i ∧ i < b then 1 else 0 := by
  by_cases h : a ≤ i ∧ i < b
  · rw [if_pos h]
    apply List.count_eq_one_of_mem List.nodup_range'
    rw [List.mem_range'_1]
    omega
  · rw [if_neg h]
    apply List.count_eq_zero_of_not_mem
    rw [List.mem_range'_1]
    omega

/-- The indices of the samples drawn. -/
def drawnIdx (ps : List (ℤ × ℤ)) : List ℕ := ps.flatMap fun p => List.range' p.1.toNat (p.2 - p.1).toNat

theorem count_drawn (ps : List (ℤ × ℤ)) (h : ∀ p ∈ ps, 0 ≤ p.1 ∧ p.1 ≤ p.2) (i : ℕ) :
    (drawnIdx ps).count i = times ps i := by
  induction ps with
  | nil => rfl
  | cons p ps ih =>
    have hp := h p (by simp)
    have := count_range' p.1 p.2 i hp.1 hp.2 (by omega)
    rw [Int.toNat_natCast] at this
    rw [drawnIdx, List.flatMap_cons, List.count_append, this, times, List.countP_cons]
    have ih := ih fun p hp => h p (by simp [hp])
    rw [drawnIdx, times] at ih
    rw [ih, add_comm]
    simp

theorem mem_drawn (ps : List (ℤ × ℤ)) (n : ℕ) (h : ∀ p ∈ ps, 0 ≤ p.1 ∧ p.1 ≤ p.2 ∧ p.2 ≤ n) (i : ℕ) (hi : i ∈ drawnIdx ps) : i < n := by
  rw [drawnIdx, List.mem_flatMap] at hi
  obtain ⟨p, hp, hi⟩ := hi
  have := h p hp
  rw [List.mem_range'_1] at hi
  omega

/-- The panel of a column. -/
theorem panel_ok {rows : List (List ℚ)} (hne : rows ≠ []) (k : ℕ) (name : Text) (h : ∀ r ∈ rows, k + 1 < r.length) :
    panel rows k name = .ok ⟨name, (wlIntervals ((List.range rows.length).map (sample rows 0)) (1 / 5)).map fun p =>
        ⟨(List.range' p.1.toNat (p.2 - p.1).toNat).map (sample rows 0), (List.range' p.1.toNat (p.2 - p.1).toNat).map (sample rows (k + 1)),
          (List.range (p.2 - p.1).toNat).map fun (k : ℕ) => (k : ℚ) / ((p.2 - p.1 : ℤ) - 1)⟩,
      percentile ((List.range rows.length).map (sample rows (k + 1))) 3, percentile ((List.range rows.length).map (sample rows (k + 1))) 97⟩ := by
  rw [panel, column_ok fun r hr => by have := h r hr; omega, column_ok h]
  simp only [bind, Except.bind]
  rw [mapM_pure_ok (g := fun p => ⟨(List.range' p.1.toNat (p.2 - p.1).toNat).map (sample rows 0),
      (List.range' p.1.toNat (p.2 - p.1).toNat).map (sample rows (k + 1)),
      (List.range (p.2 - p.1).toNat).map fun (k : ℕ) => (k : ℚ) / ((p.2 - p.1 : ℤ) - 1)⟩)]
  · rfl
  · intro p hp
    obtain ⟨h0, h1, h2⟩ := intervals _ _ (by simpa using hne) p hp
    rw [List.length_map, List.length_range] at h2
    rw [scatter, linspace_ok (by omega), slice_eq _ _ _ h0 h1 h2, slice_eq _ _ _ h0 h1 h2]
    rfl

/-! ### Percentiles -/

/-- The interpolated value at position `v` of a sequence. -/
def interp (s : ℕ → ℚ) (v : ℚ) : ℚ := s ⌊v⌋.toNat + (v - ⌊v⌋.toNat) * (s (⌊v⌋.toNat + 1) - s ⌊v⌋.toNat)

theorem floor_parts {v : ℚ} (h : 0 ≤ v) : ((⌊v⌋.toNat : ℕ) : ℚ) ≤ v ∧ v < (⌊v⌋.toNat : ℕ) + 1 := by
  have h0 := Int.floor_nonneg.2 h
  have e : ((⌊v⌋.toNat : ℕ) : ℚ) = (⌊v⌋ : ℚ) := by
    have : ((⌊v⌋.toNat : ℕ) : ℤ) = ⌊v⌋ := Int.toNat_of_nonneg h0
    exact_mod_cast congrArg (Int.cast : ℤ → ℚ) this
  rw [e]
  exact ⟨Int.floor_le v, Int.lt_floor_add_one v⟩

theorem interp_lower {s : ℕ → ℚ} (hs : Monotone s) {v : ℚ} (h : 0 ≤ v) {i : ℕ} (hi : (i : ℚ) ≤ v) : s i ≤ interp s v := by
  obtain ⟨h1, h2⟩ := floor_parts h
  have hi' : i ≤ ⌊v⌋.toNat := by
    have : (i : ℚ) < (⌊v⌋.toNat : ℕ) + 1 := lt_of_le_of_lt hi h2
    have : i < ⌊v⌋.toNat + 1 := by exact_mod_cast this
    omega
  have a := hs hi'
  have b := hs (Nat.le_succ ⌊v⌋.toNat)
  rw [Nat.succ_eq_add_one] at b
  have := mul_nonneg (sub_nonneg.2 h1) (sub_nonneg.2 b)
  rw [interp]
  linarith

theorem interp_upper {s : ℕ → ℚ} (hs : Monotone s) {v : ℚ} (h : 0 ≤ v) {i : ℕ} (hi : v ≤ (i : ℚ)) : interp s v ≤ s i := by
  obtain ⟨h1, h2⟩ := floor_parts h
  rw [interp]
  by_cases he : v = (⌊v⌋.toNat : ℕ)
  · have : ⌊v⌋.toNat ≤ i := by
      have : ((⌊v⌋.toNat : ℕ) : ℚ) ≤ i := h1.trans hi
      exact_mod_cast this
    have a := hs this
    have : v - (⌊v⌋.toNat : ℕ) = 0 := sub_eq_zero.2 he
    rw [this]
    linarith
  · have hlt : ((⌊v⌋.toNat : ℕ) : ℚ) < v := lt_of_le_of_ne h1 (Ne.symm he)
    have : ⌊v⌋.toNat < i := by
      have : ((⌊v⌋.toNat : ℕ) : ℚ) < i := lt_of_lt_of_le hlt hi
      exact_mod_cast this
    have a := hs (show ⌊v⌋.toNat + 1 ≤ i from this)
    have b := hs (Nat.le_succ ⌊v⌋.toNat)
    rw [Nat.succ_eq_add_one] at b
    have := mul_le_mul_of_nonneg_right (show v - (⌊v⌋.toNat : ℕ) ≤ 1 by linarith) (sub_nonneg.2 b)
    linarith

theorem interp_mono {s : ℕ → ℚ} (hs : Monotone s) {u v : ℚ} (h : 0 ≤ u) (huv : u ≤ v) : interp s u ≤ interp s v := by
  obtain ⟨h1, h2⟩ := floor_parts h
  obtain ⟨h3, h4⟩ := floor_parts (h.trans huv)
  by_cases he : ⌊u⌋.toNat = ⌊v⌋.toNat
  · rw [interp, interp, he]
    have b := hs (Nat.le_succ ⌊v⌋.toNat)
    rw [Nat.succ_eq_add_one] at b
    have := mul_le_mul_of_nonneg_right (show u - (⌊v⌋.toNat : ℕ) ≤ v - (⌊v⌋.toNat : ℕ) by linarith) (sub_nonneg.2 b)
    linarith
  · have hle : ⌊u⌋.toNat ≤ ⌊v⌋.toNat := Int.toNat_le_toNat (Int.floor_mono huv)
    have hlt : ⌊u⌋.toNat + 1 ≤ ⌊v⌋.toNat := by omega
    have e : ((⌊u⌋.toNat + 1 : ℕ) : ℚ) ≤ v := by
      have : ((⌊u⌋.toNat + 1 : ℕ) : ℚ) ≤ (⌊v⌋.toNat : ℕ) := by exact_mod_cast hlt
      linarith
    exact (interp_upper hs h (i := ⌊u⌋.toNat + 1) (by push_cast; linarith)).trans (interp_lower hs (h.trans huv) e)

/-- The sorted numbers, continued with the last. -/
def sortedAt (x : List ℚ) (i : ℕ) : ℚ := (x.mergeSort (· ≤ ·)).getD (min i (x.length - 1)) 0

theorem sortedAt_mono (x : List ℚ) (hx : x ≠ []) : Monotone (sortedAt x) := by
  intro i j hij
  have hl := List.length_pos_of_ne_nil hx
  have hp : (x.mergeSort (· ≤ ·)).Pairwise (· ≤ ·) := by simpa using List.pairwise_mergeSort' (· ≤ ·) x
  have hn : (x.mergeSort (· ≤ ·)).length = x.length := List.length_mergeSort _
  rw [sortedAt, sortedAt, List.getD_eq_getElem _ _ (by omega), List.getD_eq_getElem _ _ (by omega)]
  rcases eq_or_lt_of_le (min_le_min_right (x.length - 1) hij) with h | h
  · simp only [h, le_refl]
  · exact List.pairwise_iff_getElem.1 hp _ _ _ _ h

theorem percentile_eq (x : List ℚ) (hx : x ≠ []) (q : ℚ) (h0 : 0 ≤ q) (h1 : q ≤ 100) :
    percentile x q = interp (sortedAt x) (q / 100 * ((x.length : ℚ) - 1)) := by
  have hl := List.length_pos_of_ne_nil hx
  have hl' : (1 : ℚ) ≤ x.length := by exact_mod_cast hl
  have hv : 0 ≤ q / 100 * ((x.length : ℚ) - 1) := mul_nonneg (by positivity) (by linarith)
  have hle : q / 100 * ((x.length : ℚ) - 1) ≤ (x.length : ℚ) - 1 := by
    have : q / 100 ≤ 1 := by rw [div_le_one (by norm_num)]; exact h1
    nlinarith
  obtain ⟨f1, -⟩ := floor_parts hv
  have hj : ⌊q / 100 * ((x.length : ℚ) - 1)⌋.toNat ≤ x.length - 1 := by
    have : ((⌊q / 100 * ((x.length : ℚ) - 1)⌋.toNat : ℕ) : ℚ) ≤ (x.length - 1 : ℕ) := by
      rw [Nat.cast_sub (by omega)]
      push_cast
      linarith
    exact_mod_cast this
  rw [percentile, interp, sortedAt, sortedAt, min_eq_left hj]

theorem countP_le_of_tail {α : Type} (s : List α) (p : α → Bool) (m : ℕ) (h : ∀ (i : ℕ) (hi : i < s.length), m ≤ i → p s[i] = false) :
    s.countP p ≤ m := by
  rw [← List.take_append_drop m s, List.countP_append]
  have h1 : (s.drop m).countP p = 0 := by
    rw [List.countP_eq_zero]
    intro a ha
    obtain ⟨i, hi, rfl⟩ := List.getElem_of_mem ha
    rw [List.getElem_drop, h _ _ (by omega)]
    simp
  have h2 := List.countP_le_length (p := p) (l := s.take m)
  rw [List.length_take] at h2
  omega

theorem countP_le_of_head {α : Type} (s : List α) (p : α → Bool) (m : ℕ) (hm : m ≤ s.length)
    (h : ∀ (i : ℕ) (hi : i < s.length), i < m → p s[i] = false) : s.countP p ≤ s.length - m := by
  rw [← List.take_append_drop m s, List.countP_append]
  have h1 : (s.take m).countP p = 0 := by
    rw [List.countP_eq_zero]
    intro a ha
    obtain ⟨i, hi, rfl⟩ := List.getElem_of_mem ha
    rw [List.length_take] at hi
    rw [List.getElem_take, h _ _ (by omega)]
    simp
  have h2 := List.countP_le_length (p := p) (l := s.drop m)
  rw [List.length_drop] at h2
  rw [List.take_append_drop]
  omega

theorem sorted_getElem (x : List ℚ) (i : ℕ) (hi : i < (x.mergeSort (· ≤ ·)).length) : (x.mergeSort (· ≤ ·))[i] = sortedAt x i := by
  have hn : (x.mergeSort (· ≤ ·)).length = x.length := List.length_mergeSort _
  rw [sortedAt, min_eq_left (by omega), List.getD_eq_getElem _ _ hi]

/-- At most `⌈v⌉` numbers are below the interpolated value at position `v`, and at most `n - 1 - ⌊v⌋` above. -/
theorem count_percentile (x : List ℚ) (hx : x ≠ []) (v : ℚ) (hv : 0 ≤ v) (m : ℕ) :
    (v ≤ m → x.countP (· < interp (sortedAt x) v) ≤ m) ∧
    ((m : ℚ) ≤ v → m < x.length → x.countP (interp (sortedAt x) v < ·) ≤ x.length - (m + 1)) := by
  have hs := sortedAt_mono x hx
  have hn : (x.mergeSort (· ≤ ·)).length = x.length := List.length_mergeSort _
  refine ⟨fun h => ?_, fun h hm => ?_⟩
  · rw [← (List.mergeSort_perm x _).countP_eq]
    apply countP_le_of_tail
    intro i hi hmi
    rw [sorted_getElem]
    simp only [decide_eq_false_iff_not, not_lt]
    exact (interp_upper hs hv h).trans (hs hmi)
  · rw [← (List.mergeSort_perm x _).countP_eq, ← hn]
    apply countP_le_of_head _ _ _ (by omega)
    intro i hi hmi
    rw [sorted_getElem]
    simp only [decide_eq_false_iff_not, not_lt]
    exact (hs (by omega)).trans (interp_lower hs hv h)

theorem interp_strict_lower {s : ℕ → ℚ} (hs : Monotone s) {v : ℚ} (hv : 0 < v) (h : s 0 < s 1) : s 0 < interp s v := by
  by_cases h1 : 1 ≤ v
  · exact lt_of_lt_of_le h (interp_lower hs hv.le (by exact_mod_cast h1))
  · have hf : ⌊v⌋ = 0 := Int.floor_eq_zero_iff.2 ⟨hv.le, not_le.1 h1⟩
    rw [interp, hf]
    have := mul_pos hv (sub_pos.2 h)
    simp
    exact this

theorem interp_strict_upper {s : ℕ → ℚ} (hs : Monotone s) {v : ℚ} (hv : 0 ≤ v) (m : ℕ) (hm : v < (m + 1 : ℕ)) (h : s m < s (m + 1)) :
    interp s v < s (m + 1) := by
  obtain ⟨h1, h2⟩ := floor_parts hv
  by_cases h3 : v ≤ m
  · exact lt_of_le_of_lt (interp_upper hs hv h3) h
  · have hf : ⌊v⌋ = m := Int.floor_eq_iff.2 ⟨by exact_mod_cast (not_le.1 h3).le, by push_cast at hm ⊢; exact hm⟩
    rw [interp, hf, Int.toNat_natCast]
    have := mul_pos (show 0 < 1 - (v - m) by push_cast at hm; linarith) (sub_pos.2 h)
    linarith

theorem below_eq (rows : List (List ℚ)) (c : ℕ) (v : ℚ) :
    below rows c v = ((List.range rows.length).map (sample rows c)).countP (· < v) := by
  rw [List.countP_map]; rfl

theorem above_eq (rows : List (List ℚ)) (c : ℕ) (v : ℚ) :
    above rows c v = ((List.range rows.length).map (sample rows c)).countP (v < ·) := by
  rw [List.countP_map]; rfl

theorem plotSpectrum_ok {rows : List (List ℚ)} (hne : rows ≠ []) (h : ∀ r ∈ rows, 6 ≤ r.length) :
    plotSpectrum rows = .ok (names.zipIdx.map fun n =>
      ⟨n.1, (wlIntervals ((List.range rows.length).map (sample rows 0)) (1 / 5)).map fun p =>
        ⟨(List.range' p.1.toNat (p.2 - p.1).toNat).map (sample rows 0), (List.range' p.1.toNat (p.2 - p.1).toNat).map (sample rows (n.2 + 1)),
          (List.range (p.2 - p.1).toNat).map fun (k : ℕ) => (k : ℚ) / ((p.2 - p.1 : ℤ) - 1)⟩,
      percentile ((List.range rows.length).map (sample rows (n.2 + 1))) 3, percentile ((List.range rows.length).map (sample rows (n.2 + 1))) 97⟩) := by
  rw [plotSpectrum, column_ok fun r hr => by have := h r hr; omega]
  simp only [bind, Except.bind]
  rw [mapM_pure_ok (g := fun p => (List.range (p.2 - p.1).toNat).map fun (k : ℕ) => (k : ℚ) / ((p.2 - p.1 : ℤ) - 1))]
  · simp only
    apply mapM_pure_ok
    intro n hn
    apply panel_ok hne
    intro r hr
    have := h r hr
    have : n.2 < 5 := by
      have := List.snd_lt_of_mem_zipIdx hn
      simpa [names] using this
    omega
  · intro p hp
    obtain ⟨h0, h1, h2⟩ := intervals _ _ (by simpa using hne) p hp
    exact linspace_ok (by omega)

end Spectrum

/-! ## C79 -/

/-- **C79.** A spectrum is drawn exactly if it has at least one sample and each sample has the wavelength and five
values. -/
theorem C79_iff (rows : List (List ℚ)) :
    (∃ ps, plotSpectrum rows = .ok ps) ↔ rows ≠ [] ∧ ∀ r ∈ rows, 6 ≤ r.length := by
  constructor
  · rintro ⟨ps, h⟩
    constructor
    · rintro rfl
      cases h
    · rw [plotSpectrum] at h
      rcases h1 : column rows 0 with e | x
      · rw [h1] at h; cases h
      rw [h1] at h
      simp only [bind, Except.bind] at h
      rcases h2 : (wlIntervals x (1 / 5)).mapM (fun p => linspace01 (p.2 - p.1)) with e | y
      · rw [h2] at h; cases h
      rw [h2] at h
      simp only at h
      rcases h5 : column rows 5 with e | z
      · exfalso
        have hp : ∀ n, panel rows 4 n = .error e := by
          intro n
          rw [panel, h1]
          simp only [bind, Except.bind]
          rw [h5]
        have hl : (names.zipIdx.mapM fun n => panel rows n.2 n.1 : Res (List Panel)) = (names.take 4).zipIdx.mapM (fun n => panel rows n.2 n.1) >>= fun l =>
            panel rows 4 "error bar".toList >>= fun p => pure (l ++ [p]) := by
          rw [show names.zipIdx = (names.take 4).zipIdx ++ [("error bar".toList, 4)] from rfl, List.mapM_append]
          simp
        rw [hl, hp] at h
        rcases hq : ((names.take 4).zipIdx.mapM (fun n => panel rows n.2 n.1) : Res (List Panel)) with e | l <;> rw [hq] at h <;> cases h
      · intro r hr
        have := column_inv h5 r hr
        omega
  · rintro ⟨hne, h⟩
    exact ⟨_, plotSpectrum_ok hne h⟩

open Classical in
/-- **C79, partly.** There are five panels; panel `k` shows column `k + 1` against the wavelength under the name of the
quantity. Of its samples every one but the last is drawn, the one before a jump of the wavelength twice. Within each
call the colour runs evenly from 0 to 1. (A user expects every sample exactly once: missing, since the intervals are
wrong, see C62.) -/
theorem C79_panels_partial (rows : List (List ℚ)) (ps : List Panel) (h : plotSpectrum rows = .ok ps) :
    ps.map Panel.name = ["normalised flux I/Ic".toList, "circular V".toList, "1st null ".toList, "2nd null ".toList, "error bar".toList] ∧
    ∀ (k : ℕ) (p : Panel), ps[k]? = some p →
      (∃ idx : List ℕ, points p = idx.map (fun i => (sample rows 0 i, sample rows (k + 1) i)) ∧ (∀ i ∈ idx, i < rows.length) ∧
        ∀ i < rows.length, idx.count i = if i + 1 = rows.length then 0
          else if Jump ((List.range rows.length).map (sample rows 0)) (1 / 5) i then 2 else 1) ∧
      ∀ s ∈ p.scatters, Coloured s := by
  obtain ⟨hne, h6⟩ := (C79_iff rows).1 ⟨ps, h⟩
  rw [plotSpectrum_ok hne h6] at h
  cases h
  refine ⟨by rw [List.map_map]; rfl, fun k p hk => ?_⟩
  rw [List.getElem?_map, List.getElem?_zipIdx] at hk
  rcases hn : names[k]? with _ | n
  · rw [hn] at hk; cases hk
  rw [hn] at hk
  simp only [Option.map_some, Nat.zero_add, Option.some.injEq] at hk
  subst hk
  have hI := intervals ((List.range rows.length).map (sample rows 0)) (1 / 5) (by simpa using hne)
  rw [List.length_map, List.length_range] at hI
  refine ⟨⟨drawnIdx (wlIntervals ((List.range rows.length).map (sample rows 0)) (1 / 5)), ?_, ?_, ?_⟩, ?_⟩
  · simp only [points, drawnIdx, List.flatMap_map, List.map_flatMap]
    congr 1
    funext p
    rw [List.zip_map', ]
  · exact mem_drawn _ _ hI
  · intro i hi
    rw [count_drawn _ fun p hp => ⟨(hI p hp).1, (hI p hp).2.1⟩, C62_times _ _ _ (by simpa using hi), List.length_map, List.length_range]
  · intro s hs
    obtain ⟨p, hp, rfl⟩ := List.mem_map.1 hs
    obtain ⟨h0, h1, h2⟩ := hI p hp
    refine ⟨by simp, by simp, fun j c hc => ?_⟩
    simp only [List.getElem?_map, Option.map_eq_some_iff] at hc
    obtain ⟨j', hj', rfl⟩ := hc
    obtain ⟨hl, e⟩ := List.getElem?_eq_some_iff.1 hj'
    rw [List.length_range] at hl
    rw [List.getElem_range] at e
    subst e
    have e : (((p.2 - p.1).toNat : ℕ) : ℚ) = ((p.2 - p.1 : ℤ) : ℚ) := by
      have : (((p.2 - p.1).toNat : ℕ) : ℤ) = p.2 - p.1 := Int.toNat_of_nonneg (by omega)
      exact_mod_cast congrArg (Int.cast : ℤ → ℚ) this
    simp only [List.length_map, List.length_range']
    refine ⟨?_, by rintro rfl; simp⟩
    rw [e]
    by_cases hz : (p.2 - p.1 : ℤ) = 1
    · have : j = 0 := by omega
      subst this; simp
    · have : ((p.2 - p.1 : ℤ) : ℚ) - 1 ≠ 0 := sub_ne_zero.2 (by exact_mod_cast hz)
      field_simp

/-- **C79.** The range of the ordinate is the right way round, and of the `n` samples at most `⌈0.03 (n - 1)⌉` are below
it and at most as many above it. -/
theorem C79_range (rows : List (List ℚ)) (ps : List Panel) (h : plotSpectrum rows = .ok ps) (k : ℕ) (p : Panel)
    (hk : ps[k]? = some p) : p.lim.1 ≤ p.lim.2 ∧
    below rows (k + 1) p.lim.1 ≤ ⌈(3 / 100 * ((rows.length : ℚ) - 1))⌉₊ ∧
    above rows (k + 1) p.lim.2 ≤ ⌈(3 / 100 * ((rows.length : ℚ) - 1))⌉₊ := by
  obtain ⟨hne, h6⟩ := (C79_iff rows).1 ⟨ps, h⟩
  rw [plotSpectrum_ok hne h6] at h
  cases h
  rw [List.getElem?_map, List.getElem?_zipIdx] at hk
  rcases hn : names[k]? with _ | n
  · rw [hn] at hk; cases hk
  rw [hn] at hk
  simp only [Option.map_some, Nat.zero_add, Option.some.injEq] at hk
  subst hk
  have hx : (List.range rows.length).map (sample rows (k + 1)) ≠ [] := by simpa using hne
  have hl : (1 : ℚ) ≤ rows.length := by exact_mod_cast List.length_pos_of_ne_nil hne
  have hlen := List.length_pos_of_ne_nil hne
  simp only
  rw [below_eq, above_eq, percentile_eq _ hx 3 (by norm_num) (by norm_num), percentile_eq _ hx 97 (by norm_num) (by norm_num),
    List.length_map, List.length_range]
  have hm := sortedAt_mono _ hx
  refine ⟨interp_mono hm (mul_nonneg (by norm_num) (by linarith)) (mul_le_mul_of_nonneg_right (by norm_num) (by linarith)), ?_, ?_⟩
  · exact (count_percentile _ hx _ (mul_nonneg (by norm_num) (by linarith)) _).1 (Nat.le_ceil _)
  · have hc : ⌈(3 / 100 * ((rows.length : ℚ) - 1))⌉₊ ≤ rows.length - 1 := by
      rw [Nat.ceil_le, Nat.cast_sub (by omega)]
      push_cast
      linarith
    have h2 := (count_percentile _ hx (97 / 100 * ((rows.length : ℚ) - 1)) (mul_nonneg (by norm_num) (by linarith))
      (rows.length - 1 - ⌈(3 / 100 * ((rows.length : ℚ) - 1))⌉₊)).2 (by
        rw [Nat.cast_sub hc, Nat.cast_sub (by omega)]
        have := Nat.le_ceil (3 / 100 * ((rows.length : ℚ) - 1))
        push_cast
        linarith) (by rw [List.length_map, List.length_range]; omega)
    rw [List.length_map, List.length_range] at h2
    omega

/-- **C79.** The range always cuts something off: if the samples of a column are distinct and there are two or more, at
least one is below and at least one above the range. -/
theorem C79_cut (rows : List (List ℚ)) (ps : List Panel) (h : plotSpectrum rows = .ok ps) (k : ℕ) (p : Panel)
    (hk : ps[k]? = some p) (h2 : 2 ≤ rows.length)
    (hd : ∀ i < rows.length, ∀ j < rows.length, sample rows (k + 1) i = sample rows (k + 1) j → i = j) :
    (∃ i < rows.length, sample rows (k + 1) i < p.lim.1) ∧ ∃ i < rows.length, p.lim.2 < sample rows (k + 1) i := by
  obtain ⟨hne, h6⟩ := (C79_iff rows).1 ⟨ps, h⟩
  rw [plotSpectrum_ok hne h6] at h
  cases h
  rw [List.getElem?_map, List.getElem?_zipIdx] at hk
  rcases hn : names[k]? with _ | n
  · rw [hn] at hk; cases hk
  rw [hn] at hk
  simp only [Option.map_some, Nat.zero_add, Option.some.injEq] at hk
  subst hk
  have hx : (List.range rows.length).map (sample rows (k + 1)) ≠ [] := by simpa using hne
  have hl : (2 : ℚ) ≤ rows.length := by exact_mod_cast h2
  simp only
  rw [percentile_eq _ hx 3 (by norm_num) (by norm_num), percentile_eq _ hx 97 (by norm_num) (by norm_num),
    List.length_map, List.length_range]
  have hm := sortedAt_mono _ hx
  have hnd : ((List.range rows.length).map (sample rows (k + 1))).Nodup := by
    rw [List.nodup_map_iff_inj_on List.nodup_range]
    intro i hi j hj e
    exact hd i (List.mem_range.1 hi) j (List.mem_range.1 hj) e
  have hsl : (((List.range rows.length).map (sample rows (k + 1))).mergeSort (· ≤ ·)).length = rows.length := by simp
  have hmem : ∀ i < rows.length, ∃ j < rows.length, sample rows (k + 1) j = sortedAt ((List.range rows.length).map (sample rows (k + 1))) i := by
    intro i hi
    rw [← sorted_getElem _ i (by omega)]
    have := (List.mergeSort_perm ((List.range rows.length).map (sample rows (k + 1))) (fun a b => decide (a ≤ b))).mem_iff.1
      (List.getElem_mem (by omega : i < _))
    obtain ⟨j, hj, e⟩ := List.mem_map.1 this
    exact ⟨j, List.mem_range.1 hj, e⟩
  have hstrict : ∀ i, i + 1 < rows.length → sortedAt ((List.range rows.length).map (sample rows (k + 1))) i
      < sortedAt ((List.range rows.length).map (sample rows (k + 1))) (i + 1) := by
    intro i hi
    refine lt_of_le_of_ne (hm (Nat.le_succ i)) fun e => ?_
    rw [← sorted_getElem _ i (by omega), ← sorted_getElem _ (i + 1) (by omega)] at e
    have hns := (List.mergeSort_perm ((List.range rows.length).map (sample rows (k + 1))) (fun a b => decide (a ≤ b))).nodup_iff.2 hnd
    have := (List.Nodup.getElem_inj_iff hns).1 e
    omega
  constructor
  · obtain ⟨j, hj, e⟩ := hmem 0 (by omega)
    refine ⟨j, hj, ?_⟩
    rw [e]
    exact interp_strict_lower hm (mul_pos (by norm_num) (by linarith)) (hstrict 0 (by omega))
  · obtain ⟨m, hm2⟩ : ∃ m, rows.length = m + 2 := ⟨rows.length - 2, by omega⟩
    obtain ⟨j, hj, e⟩ := hmem (m + 1) (by omega)
    refine ⟨j, hj, ?_⟩
    rw [e]
    apply interp_strict_upper hm (mul_nonneg (by norm_num) (by linarith)) m _ (hstrict m (by omega))
    rw [hm2]
    push_cast
    have : (0 : ℚ) ≤ m := Nat.cast_nonneg m
    linarith

/-! ### Cases meeting the hypotheses -/

private def demoSpectrum : List (List ℚ) :=
  [[500, 1, 0, 0, 0, 1/100], [501/1, 9/10, 1/1000, 0, 0, 1/99], [5011/10, 8/10, 2/1000, 1/500, 0, 1/98]]

example : demoSpectrum ≠ [] ∧ ∀ r ∈ demoSpectrum, 6 ≤ r.length := by decide +kernel

example : ∃ ps, plotSpectrum demoSpectrum = .ok ps := (C79_iff _).2 (by decide +kernel)

/-- There is a jump, so that the sample before it is drawn twice; the last sample is missing. -/
example : (plotSpectrum demoSpectrum).toOption.map (fun ps => ps.map fun p => points p) = some
    [[(500, 1), (500, 1), (501, 9/10)], [(500, 0), (500, 0), (501, 1/1000)], [(500, 0), (500, 0), (501, 0)],
     [(500, 0), (500, 0), (501, 0)], [(500, 1/100), (500, 1/100), (501, 1/99)]] := by decide +kernel

/-- The samples of the first panel are distinct. -/
example : ∀ i < demoSpectrum.length, ∀ j < demoSpectrum.length, sample demoSpectrum 1 i = sample demoSpectrum 1 j → i = j := by
  decide +kernel

end Verif
