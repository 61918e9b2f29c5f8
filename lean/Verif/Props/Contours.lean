import Verif.Model.Contours
import Verif.Props.Maps

/-!
# C97: the contour lines and the colour bar of the component maps
-/

namespace Verif
open Geometry Spec Maps Contours

/-- A contour of the field at the level `v` has something to show: `v` is one of the levels, and the field has values on
both sides of it (or equal to it). -/
def Spec.Shown (levels : List ℝ) (field : List (List ℝ)) (v : ℝ) : Prop :=
  v ∈ levels ∧ (∃ x ∈ vals field, x ≤ v) ∧ ∃ x ∈ vals field, v ≤ x

namespace Contours

theorem scale_pos (x : ℝ) : 0 < scale x := by
  rw [scale]
  positivity

theorem scale_le {x : ℝ} (hx : 0 < x) : scale x ≤ x := by
  rw [scale]
  exact_mod_cast Int.zpow_log_le_self (b := 10) (by norm_num) hx

theorem lt_scale {x : ℝ} : x < 10 * scale x := by
  rw [scale]
  have := Int.lt_zpow_succ_log_self (b := 10) (by norm_num) x
  rw [zpow_add_one₀ (by norm_num)] at this
  push_cast at this
  linarith

/-- The ticks of one step are multiples of it, from the last at or below the range to the first at or above. -/
theorem mem_marks {s lo hi : ℝ} (hs : 0 < s) {v : ℝ} :
    v ∈ marks s lo hi ↔ ∃ k : ℤ, v = k * s ∧ ⌊lo / s⌋ ≤ k ∧ k ≤ ⌈hi / s⌉ := by
  have e1 : ⌊(lo - (⌊lo / s⌋ : ℝ) * s) / s⌋ = 0 := by
    rw [sub_div, mul_div_assoc, div_self hs.ne', mul_one]
    simp
  have e2 : ⌈(hi - (⌊lo / s⌋ : ℝ) * s) / s⌉ = ⌈hi / s⌉ - ⌊lo / s⌋ := by
    rw [sub_div, mul_div_assoc, div_self hs.ne', mul_one, Int.ceil_sub_intCast]
  rw [marks]
  simp only [e1, e2, List.mem_map, List.mem_range]
  constructor
  · rintro ⟨i, hi', rfl⟩
    refine ⟨⌊lo / s⌋ + i, by push_cast; ring, by omega, by omega⟩
  · rintro ⟨k, rfl, h1, h2⟩
    refine ⟨(k - ⌊lo / s⌋).toNat, by omega, ?_⟩
    have : (((k - ⌊lo / s⌋).toNat : ℤ) : ℝ) = k - ⌊lo / s⌋ := by
      rw [Int.toNat_of_nonneg (by omega)]
      push_cast
      ring
    push_cast at this ⊢
    rw [this]
    ring

theorem marks_sorted {s : ℝ} (lo hi : ℝ) (hs : 0 < s) : (marks s lo hi).Pairwise (· < ·) := by
  rw [marks]
  refine List.Pairwise.map _ ?_ List.pairwise_lt_range
  intro a b hab
  have : (a : ℝ) < b := by exact_mod_cast hab
  push_cast
  nlinarith

theorem search_spec (m : ℕ) (lo hi : ℝ) : ∀ (ss ticks : List ℝ), ss ≠ [] →
    ∃ s ∈ ss, search m lo hi ticks ss = marks s lo hi ∧
      ((∃ s' ∈ ss, m ≤ inside lo hi (marks s' lo hi)) → m ≤ inside lo hi (marks s lo hi))
  | [], _, h => absurd rfl h
  | s :: ss, ticks, _ => by
    rw [search]
    split_ifs with hm
    · exact ⟨s, by simp, rfl, fun _ => hm⟩
    · by_cases hss : ss = []
      · subst hss
        refine ⟨s, by simp, by rw [search], ?_⟩
        rintro ⟨s', hs', h'⟩
        rw [List.mem_singleton.1 hs'] at h'
        exact h'
      · obtain ⟨s1, h1, h2, h3⟩ := search_spec m lo hi ss (marks s lo hi) hss
        refine ⟨s1, List.mem_cons_of_mem _ h1, h2, ?_⟩
        rintro ⟨s', hs', h'⟩
        rcases List.mem_cons.1 hs' with rfl | hs'
        · exact absurd h' hm
        · exact h3 ⟨s', hs', h'⟩

theorem candidates_mem {loc : Locator} {lo hi s : ℝ} (h : s ∈ candidates loc lo hi) :
    ∃ t ∈ staircase loc.steps, s = t * scale ((hi - lo) / loc.nbins) := by
  rw [candidates, List.mem_reverse] at h
  obtain ⟨t, h1, h2⟩ := List.mem_map.1 (List.mem_of_mem_take h)
  exact ⟨t, h1, h2.symm⟩

theorem candidates_ne {loc : Locator} (lo hi : ℝ) : candidates loc lo hi ≠ [] := by
  rw [candidates, Ne, List.reverse_eq_nil_iff, List.take_eq_nil_iff]
  simp [staircase]

/-- The locators used: all steps are positive, the first is 1. -/
structure Proper (loc : Locator) : Prop where
  pos : ∀ s ∈ staircase loc.steps, 0 < s

theorem barLocator_proper (n : ℕ) : Proper (barLocator n) := by
  constructor
  intro s hs
  simp only [barLocator, staircase, List.dropLast, List.map, List.cons_append, List.nil_append, List.mem_cons,
    List.getD_cons_succ, List.getD_cons_zero, List.not_mem_nil, or_false] at hs
  rcases hs with h | h | h | h | h | h | h | h | h | h <;> rw [h] <;> norm_num

/-- The ticks form a piece of a lattice that covers the range. -/
theorem rawTicks_spec {loc : Locator} (hl : Proper loc) (lo hi : ℝ) : ∃ s, 0 < s ∧ s ∈ candidates loc lo hi ∧
    rawTicks loc lo hi = (marks s (lo - offset lo hi) (hi - offset lo hi)).map (· + offset lo hi) ∧
    ((∃ s' ∈ candidates loc lo hi, loc.minTicks ≤
        inside (lo - offset lo hi) (hi - offset lo hi) (marks s' (lo - offset lo hi) (hi - offset lo hi))) →
      loc.minTicks ≤ inside (lo - offset lo hi) (hi - offset lo hi) (marks s (lo - offset lo hi) (hi - offset lo hi))) := by
  obtain ⟨s, h1, h2, h3⟩ := search_spec loc.minTicks (lo - offset lo hi) (hi - offset lo hi) (candidates loc lo hi) []
    (candidates_ne lo hi)
  refine ⟨s, ?_, h1, ?_, h3⟩
  · obtain ⟨t, ht, rfl⟩ := candidates_mem h1
    exact mul_pos (hl.pos t ht) (scale_pos _)
  · rw [rawTicks, h2]

/-- A tick in the range is a number of the lattice in the range. -/
theorem mem_marks_inside {s lo hi v : ℝ} (hs : 0 < s) (h1 : lo ≤ v) (h2 : v ≤ hi) :
    v ∈ marks s lo hi ↔ ∃ k : ℤ, v = k * s := by
  rw [mem_marks hs]
  constructor
  · rintro ⟨k, e, -, -⟩
    exact ⟨k, e⟩
  · rintro ⟨k, rfl⟩
    refine ⟨k, rfl, ?_, ?_⟩
    · have : lo / s ≤ k := by rw [div_le_iff₀ hs]; exact h1
      exact_mod_cast (Int.floor_le _).trans this
    · have : (k : ℝ) ≤ hi / s := by rw [le_div_iff₀ hs]; exact h2
      exact_mod_cast this.trans (Int.le_ceil _)

/-- Ticks do not lie further outside the range than one step. -/
theorem marks_near {s lo hi v : ℝ} (hs : 0 < s) (h : v ∈ marks s lo hi) : lo - s < v ∧ v < hi + s := by
  obtain ⟨k, rfl, h1, h2⟩ := (mem_marks hs).1 h
  constructor
  · have a1 : (⌊lo / s⌋ : ℝ) ≤ k := by exact_mod_cast h1
    have a2 := Int.lt_floor_add_one (lo / s)
    have a3 : lo / s < k + 1 := by linarith
    rw [div_lt_iff₀ hs] at a3
    linarith
  · have a1 : (k : ℝ) ≤ ⌈hi / s⌉ := by exact_mod_cast h2
    have a2 := Int.ceil_lt_add_one (hi / s)
    have a3 : (k : ℝ) - 1 < hi / s := by linarith
    rw [lt_div_iff₀ hs] at a3
    linarith

theorem trim_mem {lo hi v : ℝ} {lev : List ℝ} (hl : lev.Pairwise (· < ·)) (h1 : lo ≤ v) (h2 : v ≤ hi) :
    v ∈ trim lo hi lev ↔ v ∈ lev := by
  classical
  rw [trim]
  split_ifs with h
  · rfl
  refine ⟨fun hv => List.mem_of_mem_drop (List.mem_of_mem_take hv), fun hv => ?_⟩
  obtain ⟨j, hj, rfl⟩ := List.mem_iff_getElem.1 hv
  have mono : ∀ i (hi : i < lev.length), lev[i] < lev[j] → i < j := by
    intro i hi hij
    by_contra hc
    rcases lt_or_eq_of_le (not_lt.1 hc) with hc | hc
    · exact absurd (List.pairwise_iff_getElem.1 hl j i hj hi hc) (by linarith)
    · subst hc; exact absurd hij (lt_irrefl _)
  have mono' : ∀ i (hi : i < lev.length), lev[j] < lev[i] → j < i := by
    intro i hi hij
    by_contra hc
    rcases lt_or_eq_of_le (not_lt.1 hc) with hc | hc
    · exact absurd (List.pairwise_iff_getElem.1 hl i j hi hj hc) (by linarith)
    · subst hc; exact absurd hij (lt_irrefl _)
  set under := (List.range lev.length).filter fun i => decide (lev.getD i 0 < lo) with hu
  set over := (List.range lev.length).filter fun i => decide (hi < lev.getD i 0) with ho
  have a0 : under.getLast?.getD 0 ≤ j := by
    cases e : under.getLast? with
    | none => simp
    | some i =>
      have hm := List.mem_of_getLast? e
      rw [hu, List.mem_filter, List.mem_range, decide_eq_true_eq] at hm
      obtain ⟨hi', hlt⟩ := hm
      rw [List.getD_eq_getElem?_getD, List.getElem?_eq_getElem hi', Option.getD_some] at hlt
      exact (mono i hi' (lt_of_lt_of_le hlt h1)).le
  have a1 : j < over.head?.elim lev.length (· + 1) := by
    cases e : over.head? with
    | none => simpa using hj
    | some i =>
      have hm := List.mem_of_head? e
      rw [ho, List.mem_filter, List.mem_range, decide_eq_true_eq] at hm
      obtain ⟨hi', hlt⟩ := hm
      rw [List.getD_eq_getElem?_getD, List.getElem?_eq_getElem hi', Option.getD_some] at hlt
      have := mono' i hi' (lt_of_le_of_lt h2 hlt)
      simp only [Option.elim_some]
      omega
  rw [List.mem_iff_getElem?]
  refine ⟨j - under.getLast?.getD 0, ?_⟩
  rw [List.getElem?_take_of_lt (by omega), List.getElem?_drop]
  rw [show under.getLast?.getD 0 + (j - under.getLast?.getD 0) = j by omega]
  exact List.getElem?_eq_getElem hj

theorem head_candidate {loc : Locator} (h10 : (10 : ℝ) ∈ staircase loc.steps) (lo hi : ℝ) :
    ∃ s rest, candidates loc lo hi = s :: rest ∧ (hi - lo) / loc.nbins ≤ s := by
  classical
  rw [candidates]
  set l := (staircase loc.steps).map (· * scale ((hi - lo) / loc.nbins)) with hl
  have hex : ∃ x ∈ l, decide ((hi - lo) / loc.nbins ≤ x) = true :=
    ⟨10 * scale ((hi - lo) / loc.nbins), List.mem_map.2 ⟨10, h10, rfl⟩, by simpa using (lt_scale).le⟩
  have hlt := List.findIdx_lt_length_of_exists hex
  refine ⟨l[l.findIdx fun x => decide ((hi - lo) / loc.nbins ≤ x)], (l.take (l.findIdx fun x =>
    decide ((hi - lo) / loc.nbins ≤ x))).reverse, ?_, ?_⟩
  · rw [← List.take_append_getElem hlt, List.reverse_append]
    rfl
  · have := List.findIdx_getElem (w := hlt)
    simpa using this

theorem least_candidate {loc : Locator} (hs : ∃ ss, loc.steps = 1 :: 1.5 :: ss) (lo hi : ℝ) :
    scale ((hi - lo) / loc.nbins) / 10 ∈ candidates loc lo hi := by
  obtain ⟨ss, hss⟩ := hs
  rw [candidates, List.mem_reverse, staircase, hss]
  simp only [List.dropLast_cons₂, List.map_cons, List.cons_append, List.take_succ_cons, List.mem_cons]
  left
  ring

theorem inside_pos {lo hi : ℝ} {l : List ℝ} : 1 ≤ inside lo hi l ↔ ∃ t ∈ l, lo ≤ t ∧ t ≤ hi := by
  classical
  rw [inside, Nat.one_le_iff_ne_zero, ← Nat.pos_iff_ne_zero, List.length_pos_iff_exists_mem]
  simp only [List.mem_filter, decide_eq_true_eq]
  constructor
  · rintro ⟨t, h1, h2, h3⟩
    exact ⟨t, h1, h3, h2⟩
  · rintro ⟨t, h1, h2, h3⟩
    exact ⟨t, h1, h3, h2⟩

theorem tiny_le : (10 : ℝ) ^ 6 / (1 / 10 ^ 14) * (1 / 2 ^ 1022) ≤ 1 / 10 ^ 280 := by
  have h1 : (10 : ℝ) ^ 306 ≤ 2 ^ 1020 := by
    have := pow_le_pow_left₀ (show (0 : ℝ) ≤ 10 ^ 3 by norm_num) (show (10 : ℝ) ^ 3 ≤ 2 ^ 10 by norm_num) 102
    rwa [← pow_mul, ← pow_mul] at this
  have h2 : (2 : ℝ) ^ 1020 ≤ 2 ^ 1022 := pow_le_pow_right₀ (by norm_num) (by norm_num)
  have h3 : (10 : ℝ) ^ 300 ≤ 10 ^ 306 := pow_le_pow_right₀ (by norm_num) (by norm_num)
  have h4 : (10 : ℝ) ^ 300 = 10 ^ 20 * 10 ^ 280 := by rw [← pow_add]
  have e : (10 : ℝ) ^ 6 / (1 / 10 ^ 14) = 10 ^ 20 := by rw [div_div_eq_mul_div, div_one, ← pow_add]
  rw [e, mul_one_div, div_le_div_iff₀ (by positivity) (by positivity), one_mul, ← h4]
  exact h3.trans (h1.trans h2)

theorem tiny_le' : (10 : ℝ) ^ 6 / (1 / 10 ^ 14) * (1 / 2 ^ 1022) ≤ 1 / 10 ^ 13 :=
  tiny_le.trans (one_div_le_one_div_of_le (by positivity) (pow_le_pow_right₀ (by norm_num) (by norm_num)))

theorem nonsingular_covers (lo hi : ℝ) : (nonsingular lo hi).1 ≤ lo ∧ hi ≤ (nonsingular lo hi).2 := by
  rw [nonsingular]
  split_ifs with h1 h2
  · have : (10 : ℝ) ^ 6 / (1 / 10 ^ 14) * (1 / 2 ^ 1022) ≤ 1 / 10 ^ 13 := tiny_le'
    have a := neg_abs_le lo
    have b := le_abs_self hi
    have c := le_max_left |lo| |hi|
    have d := le_max_right |lo| |hi|
    constructor
    · show -(1 / 10 ^ 13 : ℝ) ≤ lo
      linarith
    · show hi ≤ (1 / 10 ^ 13 : ℝ)
      linarith
  · have a := abs_nonneg lo
    have b := abs_nonneg hi
    constructor
    · show lo - 1 / 10 ^ 13 * |lo| ≤ lo
      linarith
    · show hi ≤ hi + 1 / 10 ^ 13 * |hi|
      linarith
  · exact ⟨le_rfl, le_rfl⟩

theorem offset_zero {lo hi : ℝ} (h1 : lo ≤ 0) (h2 : 0 ≤ hi) : offset lo hi = 0 := by
  rw [offset, if_pos]
  rcases eq_or_lt_of_le (show lo ≤ hi by linarith) with h | h
  · rw [h, sub_self, div_zero]
    norm_num
  · rw [div_lt_iff₀ (by linarith), abs_lt]
    constructor <;> linarith

/-- The locator of `contour(…, 0)`. -/
noncomputable abbrev zeroLocator : Locator := ⟨0 + 1, [1, 1.5, 2, 2.5, 3, 4, 5, 6, 8, 10], 1⟩

theorem zero_proper : Proper zeroLocator := by
  constructor
  intro s hs
  simp only [staircase, List.dropLast, List.map, List.cons_append, List.nil_append, List.mem_cons,
    List.getD_cons_succ, List.getD_cons_zero, List.not_mem_nil, or_false] at hs
  rcases hs with h | h | h | h | h | h | h | h | h | h | h | h | h | h | h | h | h | h | h | h <;> rw [h] <;> norm_num

theorem zero_ten : (10 : ℝ) ∈ staircase zeroLocator.steps := by
  simp [staircase]

theorem rawTicks_sorted {loc : Locator} (hl : Proper loc) (lo hi : ℝ) : (rawTicks loc lo hi).Pairwise (· < ·) := by
  obtain ⟨s, hs, -, e, -⟩ := rawTicks_spec hl lo hi
  rw [e]
  refine List.Pairwise.map _ ?_ (marks_sorted _ _ hs)
  intro a b hab
  linarith

/-- If the data have both signs, the only level between them is zero. -/
theorem zero_levels {lo hi : ℝ} (h1 : lo < 0) (h2 : 0 < hi) {v : ℝ} (hv : lo ≤ v) (hv' : v ≤ hi) :
    v ∈ autoLevels 0 lo hi ↔ v = 0 := by
  have hc := nonsingular_covers lo hi
  rw [autoLevels, trim_mem (by rw [tickValues]; exact rawTicks_sorted zero_proper _ _) hv hv', tickValues]
  set a := (nonsingular lo hi).1
  set b := (nonsingular lo hi).2
  have ha : a < 0 := by linarith
  have hb : 0 < b := by linarith
  obtain ⟨s, rest, e, hs⟩ := head_candidate zero_ten a b
  have hs' : b - a ≤ s := by simpa using hs
  have s0 : 0 < s := by linarith
  have hm : (0 : ℝ) ∈ marks s a b := (mem_marks_inside s0 ha.le hb.le).2 ⟨0, by simp⟩
  have : rawTicks zeroLocator a b = marks s a b := by
    rw [rawTicks, offset_zero ha.le hb.le, e, search, if_pos]
    · simp
    · rw [sub_zero, sub_zero]
      exact inside_pos.2 ⟨0, hm, ha.le, hb.le⟩
  rw [this, mem_marks_inside s0 (by linarith) (by linarith)]
  constructor
  · rintro ⟨k, rfl⟩
    have k1 : (-1 : ℝ) < k := by
      by_contra hk
      have : (k : ℝ) * s ≤ -1 * s := mul_le_mul_of_nonneg_right (not_lt.1 hk) s0.le
      linarith
    have k2 : (k : ℝ) < 1 := by
      by_contra hk
      have : 1 * s ≤ (k : ℝ) * s := mul_le_mul_of_nonneg_right (not_lt.1 hk) s0.le
      linarith
    have k1' : (-1 : ℤ) < k := by exact_mod_cast k1
    have k2' : k < (1 : ℤ) := by exact_mod_cast k2
    have : k = 0 := by omega
    rw [this]
    simp
  · rintro rfl
    exact ⟨0, by simp⟩

end Contours

/-- A range that is not extremely narrow: matplotlib widens ranges that are narrower than a part in `10 ^ 14`, and those of
numbers below about `10 ^ -288`. -/
def Spec.Ordinary (lo hi : ℝ) : Prop := 1 / 10 ^ 280 ≤ max |lo| |hi| ∧ max |lo| |hi| / 10 ^ 14 < hi - lo

namespace Contours

theorem nonsingular_ordinary {lo hi : ℝ} (h : Ordinary lo hi) : nonsingular lo hi = (lo, hi) := by
  rw [nonsingular, if_neg, if_neg]
  · rw [not_le]
    have := h.2
    linarith
  · rw [not_lt]
    exact tiny_le.trans h.1

/-- There is always a level between the data. -/
theorem some_level {lo hi : ℝ} (h : Ordinary lo hi) : ∃ v ∈ autoLevels 0 lo hi, lo ≤ v ∧ v ≤ hi := by
  have hd : 0 < hi - lo := by
    have : 0 ≤ max |lo| |hi| / 10 ^ 14 := by positivity
    linarith [h.2]
  obtain ⟨s, hs, -, e, hmin⟩ := rawTicks_spec zero_proper lo hi
  set o := offset lo hi
  have key : 1 ≤ inside (lo - o) (hi - o) (marks s (lo - o) (hi - o)) := by
    refine hmin ⟨_, least_candidate ⟨_, rfl⟩ lo hi, inside_pos.2 ?_⟩
    set q := scale ((hi - lo) / (zeroLocator.nbins : ℝ)) / 10 with hq
    have q0 : 0 < q := by rw [hq]; have := scale_pos ((hi - lo) / (zeroLocator.nbins : ℝ)); positivity
    have q1 : q ≤ hi - lo := by
      have := scale_le (x := (hi - lo) / (zeroLocator.nbins : ℝ)) (by simpa using hd)
      have e1 : (hi - lo) / (zeroLocator.nbins : ℝ) = hi - lo := by simp
      rw [e1] at this hq
      have := scale_pos (hi - lo)
      linarith
    have c1 : lo - o ≤ ⌈(lo - o) / q⌉ * q := by
      rw [← div_le_iff₀ q0]
      exact Int.le_ceil _
    have c2 : (⌈(lo - o) / q⌉ : ℝ) * q ≤ hi - o := by
      have := Int.ceil_lt_add_one ((lo - o) / q)
      have h3 : (⌈(lo - o) / q⌉ : ℝ) * q < ((lo - o) / q + 1) * q := mul_lt_mul_of_pos_right this q0
      rw [add_mul, div_mul_cancel₀ _ q0.ne'] at h3
      linarith
    exact ⟨_, (mem_marks_inside q0 c1 c2).2 ⟨_, rfl⟩, c1, c2⟩
  obtain ⟨t, ht, h1, h2⟩ := inside_pos.1 key
  refine ⟨t + o, ?_, by linarith, by linarith⟩
  rw [autoLevels, trim_mem (by rw [tickValues]; exact rawTicks_sorted zero_proper _ _) (by linarith) (by linarith),
    tickValues, nonsingular_ordinary h]
  show t + o ∈ rawTicks zeroLocator lo hi
  rw [e]
  exact List.mem_map.2 ⟨t, ht, rfl⟩

theorem ok_bind {α β : Type} {x : Res α} {f : α → Res β} {b : β} (h : x >>= f = .ok b) : ∃ a, x = .ok a ∧ f a = .ok b := by
  cases x with
  | error e => simp [bind, Except.bind] at h
  | ok a => exact ⟨a, rfl, h⟩

theorem zeroContour_ok {field : Arr2 ℝ} {symmetric : Option Bool} {absMax : Option ℝ} {z : Option (List ℝ)}
    (h : zeroContour field symmetric absMax = .ok z) : ∃ lo hi, IsLeast (vals field) lo ∧ IsGreatest (vals field) hi ∧
      ((symmetric = some true ∨ symmetric = none ∧ BothSigns field) → z = some (autoLevels 0 lo hi)) ∧
      (¬ (symmetric = some true ∨ symmetric = none ∧ BothSigns field) → z = none) := by
  rw [zeroContour] at h
  obtain ⟨p, hp, h⟩ := ok_bind h
  obtain ⟨lo, hlo, h⟩ := ok_bind h
  obtain ⟨hi, hhi, h⟩ := ok_bind h
  simp only [pure, Except.pure, Except.ok.injEq] at h
  obtain ⟨-, -, -, -, h3, -⟩ := C72_scale _ _ _ _ _ hp
  refine ⟨lo, hi, amin_ok.1 hlo, amax_ok.1 hhi, fun hs => ?_, fun hs => ?_⟩
  · rw [← h, if_pos (h3.2 hs)]
  · rw [← h, if_neg (fun e => hs (h3.1 e))]

theorem shown_iff {levels : List ℝ} {f : Arr2 ℝ} {lo hi v : ℝ} (h1 : IsLeast (vals f) lo) (h2 : IsGreatest (vals f) hi) :
    Shown levels f v ↔ v ∈ levels ∧ lo ≤ v ∧ v ≤ hi := by
  constructor
  · rintro ⟨h, ⟨x, hx, hxv⟩, y, hy, hvy⟩
    exact ⟨h, (h1.2 hx).trans hxv, hvy.trans (h2.2 hy)⟩
  · rintro ⟨h, a, b⟩
    exact ⟨h, ⟨lo, h1.1, a⟩, hi, h2.1, b⟩

theorem bothSigns_iff {f : Arr2 ℝ} {lo hi : ℝ} (h1 : IsLeast (vals f) lo) (h2 : IsGreatest (vals f) hi) :
    BothSigns f ↔ lo < 0 ∧ 0 < hi := by
  constructor
  · rintro ⟨⟨v, hv, v0⟩, w, hw, w0⟩
    exact ⟨lt_of_le_of_lt (h1.2 hv) v0, lt_of_lt_of_le w0 (h2.2 hw)⟩
  · rintro ⟨a, b⟩
    exact ⟨⟨lo, h1.1, a⟩, hi, h2.1, b⟩

end Contours

/-- **C97.** The solid line on a map is the line between the two polarities: unless `symmetric=True` is passed, there are
contours exactly if the field has both signs (and `symmetric` is not False), and the only level that shows is zero — although
the code asks for `0` automatic levels, not for the level `0`. -/
theorem C97_zero (field : Arr2 ℝ) (symmetric : Option Bool) (absMax : Option ℝ) (z : Option (List ℝ))
    (h : zeroContour field symmetric absMax = .ok z) :
    (BothSigns field → symmetric ≠ some false → ∃ levels, z = some levels ∧ ∀ v, Shown levels field v ↔ v = 0) ∧
    (symmetric = some false → z = none) ∧ (¬ BothSigns field → symmetric = none → z = none) := by
  obtain ⟨lo, hi, h1, h2, hz, hz'⟩ := zeroContour_ok h
  refine ⟨fun hb hs => ?_, fun hs => hz' ?_, fun hb hs => hz' ?_⟩
  · refine ⟨_, hz ?_, fun v => ?_⟩
    · rcases symmetric with _ | _ | _
      · exact Or.inr ⟨rfl, hb⟩
      · exact absurd rfl hs
      · exact Or.inl rfl
    · obtain ⟨a, b⟩ := (bothSigns_iff h1 h2).1 hb
      rw [shown_iff h1 h2]
      constructor
      · rintro ⟨m, u, w⟩
        exact (zero_levels a b u w).1 m
      · rintro rfl
        exact ⟨(zero_levels a b a.le b.le).2 rfl, a.le, b.le⟩
  · rw [hs]
    simp
  · rw [hs]
    simp [hb]

/-- **C97 violated.** With `symmetric=True` and a field of one sign a contour is drawn as well, but not at zero: it is at
some value that the field takes on both sides, where nothing happens. -/
theorem C97_forced (field : Arr2 ℝ) (absMax : Option ℝ) (z : Option (List ℝ)) (lo hi : ℝ)
    (h : zeroContour field (some true) absMax = .ok z) (h1 : IsLeast (vals field) lo) (h2 : IsGreatest (vals field) hi)
    (ho : Ordinary lo hi) (hs : 0 < lo ∨ hi < 0) :
    ∃ levels, z = some levels ∧ (∃ v, Shown levels field v) ∧ ∀ v, Shown levels field v → v ≠ 0 := by
  obtain ⟨lo', hi', h1', h2', hz, -⟩ := zeroContour_ok h
  rw [h1'.unique h1, h2'.unique h2] at hz
  refine ⟨_, hz (Or.inl rfl), ?_, ?_⟩
  · obtain ⟨v, hv, a, b⟩ := some_level ho
    exact ⟨v, (shown_iff h1 h2).2 ⟨hv, a, b⟩⟩
  · intro v hv
    obtain ⟨-, a, b⟩ := (shown_iff h1 h2).1 hv
    rcases hs with hs | hs
    · intro e; linarith
    · intro e; linarith

namespace Contours

theorem plot_ok {nbins : ℕ} {p0 p1 xlim : ℝ × ℝ} {fr fp fa : Arr2 ℝ} {symmetric : Option Bool} {b : Bar}
    (h : plotComponents nbins p0 p1 xlim fr fp fa symmetric = .ok b) :
    components fr fp fa symmetric = .ok b.maps ∧
    (∃ A, Largest fr fp fa A ∧ zeroContour fr symmetric (some A) = .ok b.zeros.1 ∧
      zeroContour fp symmetric (some A) = .ok b.zeros.2.1 ∧ zeroContour fa symmetric (some A) = .ok b.zeros.2.2) ∧
    (∃ mr nr mp np ma na, IsGreatest (vals fr) mr ∧ IsLeast (vals fr) nr ∧ IsGreatest (vals fp) mp ∧ IsLeast (vals fp) np ∧
      IsGreatest (vals fa) ma ∧ IsLeast (vals fa) na ∧ b.markers.map Prod.snd = [mr, nr, mp, np, ma, na]) ∧
    (∀ m ∈ b.markers, m.1 = (xlim.1 + xlim.2) / 2) ∧
    b.levels.1 = tickValues (barLocator nbins) b.maps.bar.vmin b.maps.bar.vmax ∧ b.levels.2.1 = b.levels.1 ∧
    b.levels.2.2 = b.levels.1 ∧ (∀ v, v ∈ b.lines ↔ v ∈ b.levels.1 ∧ b.maps.bar.vmin ≤ v ∧ v ≤ b.maps.bar.vmax) ∧
    b.box = placeRight p0 p1 := by
  rw [plotComponents] at h
  obtain ⟨c, hc, h⟩ := ok_bind h
  obtain ⟨A, hA, h⟩ := ok_bind h
  obtain ⟨zr, hzr, h⟩ := ok_bind h
  obtain ⟨zp, hzp, h⟩ := ok_bind h
  obtain ⟨za, hza, h⟩ := ok_bind h
  obtain ⟨mr, hmr, h⟩ := ok_bind h
  obtain ⟨nr, hnr, h⟩ := ok_bind h
  obtain ⟨mp, hmp, h⟩ := ok_bind h
  obtain ⟨np, hnp, h⟩ := ok_bind h
  obtain ⟨ma, hma, h⟩ := ok_bind h
  obtain ⟨na, hna, h⟩ := ok_bind h
  simp only [pure, Except.pure, Except.ok.injEq] at h
  subst h
  refine ⟨hc, ⟨A, ?_, hzr, hzp, hza⟩, ⟨mr, nr, mp, np, ma, na, amax_ok.1 hmr, amin_ok.1 hnr, amax_ok.1 hmp, amin_ok.1 hnp,
    amax_ok.1 hma, amin_ok.1 hna, rfl⟩, ?_, rfl, rfl, rfl, ?_, rfl⟩
  · have : {v | ∃ w, (w ∈ vals fr ∨ w ∈ vals fp ∨ w ∈ vals fa) ∧ |w| = v}
        = vals (map1 (fun v => |v|) (fr ++ fp ++ fa)) := by
      ext v
      rw [vals_abs]
      rfl
    rw [Largest, this]
    exact amax_ok.1 hA
  · intro m hm
    simp only [List.mem_cons, List.not_mem_nil, or_false] at hm
    rcases hm with rfl | rfl | rfl | rfl | rfl | rfl <;> rfl
  · intro v
    simp [addLines]

/-- The range of the bar. -/
theorem bar_range {fr fp fa : Arr2 ℝ} {symmetric : Option Bool} {c : Components}
    (h : components fr fp fa symmetric = .ok c) : ∃ A lo, Largest fr fp fa A ∧ IsLeast (vals fa) lo ∧ c.bar.vmax = A ∧
      (c.bar.symmetric = true → c.bar.vmin = -A) ∧ (c.bar.symmetric = false → c.bar.vmin = lo) := by
  obtain ⟨A, hA, h1, h2, h3, h4⟩ := components_ok h
  obtain ⟨lo, hi, l1, l2, s1, -, s3, s4⟩ := C72_scale _ _ _ _ _ h3
  have hA0 : 0 ≤ A := by obtain ⟨w, -, hw⟩ := hA.1; rw [← hw]; exact abs_nonneg w
  have hlo : |lo| ≤ A := hA.2 ⟨lo, Or.inr (Or.inr l1.1), rfl⟩
  have e : max |lo| |(some A).getD hi| = A := by simp [abs_of_nonneg hA0, hlo]
  refine ⟨A, lo, hA, l1, ?_, fun hs => ?_, fun hs => ?_⟩
  · cases hs : c.azimuthal.symmetric with
    | true => rw [h4, (s3 hs).2, e]
    | false => rw [h4, (s4 hs).2]; rfl
  · rw [h4] at hs ⊢
    rw [(s3 hs).1, (s3 hs).2, e]
  · rw [h4] at hs ⊢
    exact (s4 hs).1

end Contours

/-- **C97.** Each map has its own markers on the bar, at its greatest and its least value, in the middle of the bar. -/
theorem C97_markers (nbins : ℕ) (p0 p1 xlim : ℝ × ℝ) (fr fp fa : Arr2 ℝ) (symmetric : Option Bool) (b : Bar)
    (h : plotComponents nbins p0 p1 xlim fr fp fa symmetric = .ok b) :
    ∃ mr nr mp np ma na, IsGreatest (vals fr) mr ∧ IsLeast (vals fr) nr ∧ IsGreatest (vals fp) mp ∧
      IsLeast (vals fp) np ∧ IsGreatest (vals fa) ma ∧ IsLeast (vals fa) na ∧
      b.markers = [mr, nr, mp, np, ma, na].map fun v => ((xlim.1 + xlim.2) / 2, v) := by
  obtain ⟨-, -, ⟨mr, nr, mp, np, ma, na, h1, h2, h3, h4, h5, h6, e⟩, hm, -⟩ := plot_ok h
  refine ⟨mr, nr, mp, np, ma, na, h1, h2, h3, h4, h5, h6, ?_⟩
  rw [← e, List.map_map]
  conv_lhs => rw [← List.map_id b.markers]
  refine List.map_congr_left fun m hmem => ?_
  exact Prod.ext (hm m hmem) rfl

/-- **C97.** When the markers are on the bar: all of them, if and only if the azimuthal map, from which the bar is made, is
symmetric or no component has a value below the least value of the azimuthal field. -/
theorem C97_markers_iff (nbins : ℕ) (p0 p1 xlim : ℝ × ℝ) (fr fp fa : Arr2 ℝ) (symmetric : Option Bool) (b : Bar)
    (h : plotComponents nbins p0 p1 xlim fr fp fa symmetric = .ok b) :
    (∀ m ∈ b.markers, b.maps.bar.vmin ≤ m.2 ∧ m.2 ≤ b.maps.bar.vmax) ↔
      b.maps.bar.symmetric = true ∨ ∃ lo, IsLeast (vals fa) lo ∧ ∀ v, v ∈ vals fr ∨ v ∈ vals fp → lo ≤ v := by
  obtain ⟨mr, nr, mp, np, ma, na, h1, h2, h3, h4, h5, h6, e⟩ := C97_markers nbins p0 p1 xlim fr fp fa symmetric b h
  obtain ⟨hc, -⟩ := plot_ok h
  obtain ⟨A, lo, hA, hlo, r1, r2, r3⟩ := bar_range hc
  have up : ∀ v, v ∈ vals fr ∨ v ∈ vals fp ∨ v ∈ vals fa → |v| ≤ A := fun v hv => hA.2 ⟨v, hv, rfl⟩
  have hmem : ∀ m ∈ b.markers, m.2 ∈ vals fr ∨ m.2 ∈ vals fp ∨ m.2 ∈ vals fa := by
    rw [e]
    intro m hm
    simp only [List.map_cons, List.map_nil, List.mem_cons, List.not_mem_nil, or_false] at hm
    rcases hm with rfl | rfl | rfl | rfl | rfl | rfl
    · exact Or.inl h1.1
    · exact Or.inl h2.1
    · exact Or.inr (Or.inl h3.1)
    · exact Or.inr (Or.inl h4.1)
    · exact Or.inr (Or.inr h5.1)
    · exact Or.inr (Or.inr h6.1)
  constructor
  · intro hall
    cases hs : b.maps.bar.symmetric with
    | true => exact Or.inl rfl
    | false =>
      refine Or.inr ⟨lo, hlo, ?_⟩
      rw [r3 hs] at hall
      rintro v (hv | hv)
      · exact (hall ((xlim.1 + xlim.2) / 2, nr) (by rw [e]; simp)).1.trans (h2.2 hv)
      · exact (hall ((xlim.1 + xlim.2) / 2, np) (by rw [e]; simp)).1.trans (h4.2 hv)
  · intro hor m hm
    have hv := hmem m hm
    have ha := up _ hv
    refine ⟨?_, by rw [r1]; exact (le_abs_self _).trans ha⟩
    cases hs : b.maps.bar.symmetric with
    | true => rw [r2 hs]; exact neg_le_of_abs_le ha
    | false =>
      rcases hor with hor | ⟨lo', hlo', hle⟩
      · rw [hs] at hor; cases hor
      · rw [r3 hs, hlo.unique hlo']
        rcases hv with hv | hv | hv
        · exact hle _ (Or.inl hv)
        · exact hle _ (Or.inr hv)
        · exact hlo'.2 hv

/-- **C97.** If the bar is symmetric, the dashed lines of all three maps are at the same levels, the multiples of some step;
no level is missing where the map has values on both sides of it. The bar has a line at each of the multiples in its range,
zero among them; these are all its lines. -/
theorem C97_levels (nbins : ℕ) (p0 p1 xlim : ℝ × ℝ) (fr fp fa : Arr2 ℝ) (symmetric : Option Bool) (b : Bar)
    (h : plotComponents nbins p0 p1 xlim fr fp fa symmetric = .ok b) (hs : b.maps.bar.symmetric = true) :
    ∃ s, 0 < s ∧ (∀ p ∈ [(fr, b.levels.1), (fp, b.levels.2.1), (fa, b.levels.2.2)], ∀ v,
        Shown p.2 p.1 v ↔ (∃ k : ℤ, v = k * s) ∧ (∃ x ∈ vals p.1, x ≤ v) ∧ ∃ x ∈ vals p.1, v ≤ x) ∧
      ∀ v, v ∈ b.lines ↔ (∃ k : ℤ, v = k * s) ∧ |v| ≤ b.maps.bar.vmax := by
  obtain ⟨hc, -, -, -, l1, l2, l3, hl, -⟩ := plot_ok h
  obtain ⟨A, lo, hA, hlo, r1, r2, -⟩ := bar_range hc
  have hA0 : 0 ≤ A := by obtain ⟨w, -, hw⟩ := hA.1; rw [← hw]; exact abs_nonneg w
  have up : ∀ v, v ∈ vals fr ∨ v ∈ vals fp ∨ v ∈ vals fa → |v| ≤ A := fun v hv => hA.2 ⟨v, hv, rfl⟩
  rw [r1, r2 hs] at l1
  rw [tickValues] at l1
  have hcov := nonsingular_covers (-A) A
  set lo' := (nonsingular (-A) A).1
  set hi' := (nonsingular (-A) A).2
  have ho : offset lo' hi' = 0 := offset_zero (by linarith) (by linarith)
  obtain ⟨s, hs0, -, e, -⟩ := rawTicks_spec (barLocator_proper nbins) lo' hi'
  rw [ho] at e
  simp only [sub_zero, add_zero, List.map_id'] at e
  rw [e] at l1
  have key : ∀ v, |v| ≤ A → (v ∈ b.levels.1 ↔ ∃ k : ℤ, v = k * s) := by
    intro v hv
    rw [abs_le] at hv
    rw [l1, mem_marks_inside hs0 (by linarith) (by linarith)]
  refine ⟨s, hs0, ?_, ?_⟩
  · rw [l2, l3]
    have main : ∀ f : Arr2 ℝ, (∀ x ∈ vals f, x ∈ vals fr ∨ x ∈ vals fp ∨ x ∈ vals fa) → ∀ v, Shown b.levels.1 f v ↔
        (∃ k : ℤ, v = k * s) ∧ (∃ x ∈ vals f, x ≤ v) ∧ ∃ x ∈ vals f, v ≤ x := by
      intro f hf v
      have : ((∃ x ∈ vals f, x ≤ v) ∧ ∃ x ∈ vals f, v ≤ x) → |v| ≤ A := by
        rintro ⟨⟨x, hx, hxv⟩, y, hy, hvy⟩
        have a := abs_le.1 (up x (hf x hx))
        have b := abs_le.1 (up y (hf y hy))
        rw [abs_le]
        constructor <;> linarith
      constructor
      · rintro ⟨m, hb⟩
        exact ⟨(key v (this hb)).1 m, hb⟩
      · rintro ⟨m, hb⟩
        exact ⟨(key v (this hb)).2 m, hb⟩
    intro p hp
    simp only [List.mem_cons, List.not_mem_nil, or_false] at hp
    rcases hp with rfl | rfl | rfl
    · exact main fr fun x hx => Or.inl hx
    · exact main fp fun x hx => Or.inr (Or.inl hx)
    · exact main fa fun x hx => Or.inr (Or.inr hx)
  · intro v
    rw [hl, r1, r2 hs, ← abs_le]
    constructor
    · rintro ⟨m, hv⟩
      exact ⟨(key v hv).1 m, hv⟩
    · rintro ⟨m, hv⟩
      exact ⟨(key v hv).2 m, hv⟩

/-- **C97 violated.** If the bar is not symmetric, the levels are again evenly spaced and those of the bar, but they end
below the bar: a map with values at or below `vmin - s` has no line there. -/
theorem C97_one_sided (nbins : ℕ) (p0 p1 xlim : ℝ × ℝ) (fr fp fa : Arr2 ℝ) (symmetric : Option Bool) (b : Bar)
    (h : plotComponents nbins p0 p1 xlim fr fp fa symmetric = .ok b)
    (ho : Ordinary b.maps.bar.vmin b.maps.bar.vmax) :
    ∃ s o, 0 < s ∧ (∀ p ∈ [(fr, b.levels.1), (fp, b.levels.2.1), (fa, b.levels.2.2)], ∀ v,
        Shown p.2 p.1 v ↔ (∃ k : ℤ, v = k * s + o) ∧ b.maps.bar.vmin - s < v ∧ (∃ x ∈ vals p.1, x ≤ v) ∧
          ∃ x ∈ vals p.1, v ≤ x) ∧
      ∀ v, v ∈ b.lines ↔ (∃ k : ℤ, v = k * s + o) ∧ b.maps.bar.vmin ≤ v ∧ v ≤ b.maps.bar.vmax := by
  obtain ⟨hc, -, -, -, l1, l2, l3, hl, -⟩ := plot_ok h
  obtain ⟨A, lo, hA, hlo, r1, -, -⟩ := bar_range hc
  have up : ∀ v, v ∈ vals fr ∨ v ∈ vals fp ∨ v ∈ vals fa → v ≤ b.maps.bar.vmax := by
    intro v hv
    rw [r1]
    exact (le_abs_self v).trans (hA.2 ⟨v, hv, rfl⟩)
  rw [tickValues, nonsingular_ordinary ho] at l1
  simp only at l1
  set m := b.maps.bar.vmin
  set M := b.maps.bar.vmax
  obtain ⟨s, hs0, -, e, -⟩ := rawTicks_spec (barLocator_proper nbins) m M
  set o := offset m M
  rw [e] at l1
  have mem : ∀ v, v ∈ b.levels.1 ↔ v - o ∈ marks s (m - o) (M - o) := by
    intro v
    rw [l1, List.mem_map]
    constructor
    · rintro ⟨t, ht, rfl⟩
      rwa [add_sub_cancel_right]
    · intro ht
      exact ⟨v - o, ht, by ring⟩
  have key : ∀ v, v ≤ M → (v ∈ b.levels.1 ↔ (∃ k : ℤ, v = k * s + o) ∧ m - s < v) := by
    intro v hv
    rw [mem]
    constructor
    · intro ht
      obtain ⟨k, hk, -⟩ := (mem_marks hs0).1 ht
      have := (marks_near hs0 ht).1
      exact ⟨⟨k, by linarith⟩, by linarith⟩
    · rintro ⟨⟨k, rfl⟩, hk⟩
      refine (mem_marks hs0).2 ⟨k, by ring, ?_, ?_⟩
      · have a1 : (m - o) / s < k + 1 := by
          rw [div_lt_iff₀ hs0]
          linarith
        have a2 : (⌊(m - o) / s⌋ : ℝ) < k + 1 := (Int.floor_le _).trans_lt a1
        have : ⌊(m - o) / s⌋ < k + 1 := by exact_mod_cast a2
        omega
      · have a1 : (k : ℝ) ≤ (M - o) / s := by
          rw [le_div_iff₀ hs0]
          linarith
        exact_mod_cast a1.trans (Int.le_ceil _)
  refine ⟨s, o, hs0, ?_, ?_⟩
  · rw [l2, l3]
    have main : ∀ f : Arr2 ℝ, (∀ x ∈ vals f, x ∈ vals fr ∨ x ∈ vals fp ∨ x ∈ vals fa) → ∀ v, Shown b.levels.1 f v ↔
        (∃ k : ℤ, v = k * s + o) ∧ m - s < v ∧ (∃ x ∈ vals f, x ≤ v) ∧ ∃ x ∈ vals f, v ≤ x := by
      intro f hf v
      have : (∃ x ∈ vals f, v ≤ x) → v ≤ M := fun ⟨x, hx, hvx⟩ => hvx.trans (up x (hf x hx))
      constructor
      · rintro ⟨m, h1, h2⟩
        obtain ⟨a, b⟩ := (key v (this h2)).1 m
        exact ⟨a, b, h1, h2⟩
      · rintro ⟨a, b, h1, h2⟩
        exact ⟨(key v (this h2)).2 ⟨a, b⟩, h1, h2⟩
    intro p hp
    simp only [List.mem_cons, List.not_mem_nil, or_false] at hp
    rcases hp with rfl | rfl | rfl
    · exact main fr fun x hx => Or.inl hx
    · exact main fp fun x hx => Or.inr (Or.inl hx)
    · exact main fa fun x hx => Or.inr (Or.inr hx)
  · intro v
    rw [hl]
    constructor
    · rintro ⟨hm, h1, h2⟩
      exact ⟨((key v h2).1 hm).1, h1, h2⟩
    · rintro ⟨hm, h1, h2⟩
      exact ⟨(key v h2).2 ⟨hm, by linarith⟩, h1, h2⟩

/-- **C97.** The bar is as high as the last panel and begins at its lower edge; it is to the right of the panel if and only
if the panel is not wider than 0.22 of the figure. -/
theorem C97_place (nbins : ℕ) (p0 p1 xlim : ℝ × ℝ) (fr fp fa : Arr2 ℝ) (symmetric : Option Bool) (b : Bar)
    (h : plotComponents nbins p0 p1 xlim fr fp fa symmetric = .ok b) :
    b.box.bottom = p0.2 ∧ b.box.bottom + b.box.height = p1.2 ∧ (p1.1 ≤ b.box.left ↔ p1.1 - p0.1 ≤ 0.22) := by
  obtain ⟨-, -, -, -, -, -, -, -, hb⟩ := plot_ok h
  rw [hb, placeRight]
  refine ⟨rfl, by ring, ?_⟩
  constructor <;> intro h <;> linarith

/-- **C97.** The three maps of `plot_components` have the line of `C97_zero`. -/
theorem C97_zeros (nbins : ℕ) (p0 p1 xlim : ℝ × ℝ) (fr fp fa : Arr2 ℝ) (b : Bar)
    (h : plotComponents nbins p0 p1 xlim fr fp fa = .ok b) :
    ∀ p ∈ [(fr, b.zeros.1), (fp, b.zeros.2.1), (fa, b.zeros.2.2)],
      (BothSigns p.1 → ∃ levels, p.2 = some levels ∧ ∀ v, Shown levels p.1 v ↔ v = 0) ∧
      (¬ BothSigns p.1 → p.2 = none) := by
  obtain ⟨-, ⟨A, -, h1, h2, h3⟩, -⟩ := plot_ok h
  intro p hp
  simp only [List.mem_cons, List.not_mem_nil, or_false] at hp
  rcases hp with rfl | rfl | rfl
  · exact ⟨fun hb => (C97_zero _ _ _ _ h1).1 hb (by simp), fun hb => (C97_zero _ _ _ _ h1).2.2 hb rfl⟩
  · exact ⟨fun hb => (C97_zero _ _ _ _ h2).1 hb (by simp), fun hb => (C97_zero _ _ _ _ h2).2.2 hb rfl⟩
  · exact ⟨fun hb => (C97_zero _ _ _ _ h3).1 hb (by simp), fun hb => (C97_zero _ _ _ _ h3).2.2 hb rfl⟩

/-- **C97.** The figure is drawn for all arrays that are not empty. -/
theorem C97_defined (nbins : ℕ) (p0 p1 xlim : ℝ × ℝ) (fr fp fa : Arr2 ℝ) (symmetric : Option Bool)
    (hr : (vals fr).Nonempty) (hp : (vals fp).Nonempty) (ha : (vals fa).Nonempty) :
    ∃ b, plotComponents nbins p0 p1 xlim fr fp fa symmetric = .ok b := by
  obtain ⟨c, hc⟩ := components_total symmetric hr hp ha
  have : (vals (map1 (fun v => |v|) (fr ++ fp ++ fa))).Nonempty := by
    obtain ⟨w, hw⟩ := hr
    exact ⟨|w|, (vals_abs _ _ _ _).2 ⟨w, Or.inl hw, rfl⟩⟩
  obtain ⟨A, hA⟩ := amax_total this
  have zero : ∀ f : Arr2 ℝ, (vals f).Nonempty → ∃ z, zeroContour f symmetric (some A) = .ok z := by
    intro f hf
    obtain ⟨p, hp⟩ := (C72_defined f symmetric none (some A)).1 hf
    obtain ⟨lo, hlo⟩ := amin_total hf
    obtain ⟨hi, hhi⟩ := amax_total hf
    rw [zeroContour, hp, hlo, hhi]
    exact ⟨_, rfl⟩
  obtain ⟨z1, e1⟩ := zero fr hr
  obtain ⟨z2, e2⟩ := zero fp hp
  obtain ⟨z3, e3⟩ := zero fa ha
  obtain ⟨a1, f1⟩ := amax_total hr
  obtain ⟨a2, f2⟩ := amin_total hr
  obtain ⟨a3, f3⟩ := amax_total hp
  obtain ⟨a4, f4⟩ := amin_total hp
  obtain ⟨a5, f5⟩ := amax_total ha
  obtain ⟨a6, f6⟩ := amin_total ha
  rw [plotComponents, hc, hA]
  simp only [bind, Except.bind, e1, e2, e3, f1, f2, f3, f4, f5, f6]
  exact ⟨_, rfl⟩

/-- **C97 violated.** For every axially symmetric poloidal magnetogram (unless extremely weak) all levels are at or above
zero, so that half of a radial map with both signs has no lines, and the marker of its minimum is not on the bar. -/
theorem C97_axial (z : Zdi) (hz : NonnegOrders z) (hs : AxialPoloidal z) (n k : ℕ) (hn : 2 ≤ n) (hk : 2 ≤ k)
    (g : Geom) (hg : Geom.init (.int n) (.int k) = .ok g) (fr fp fa : Arr2 ℝ)
    (hr : evalAt g (fun θ φ => .ok (z.radial θ φ)) = .ok fr) (hp : evalAt g z.polar = .ok fp)
    (ha : evalAt g z.azimuthal = .ok fa) (nbins : ℕ) (p0 p1 xlim : ℝ × ℝ) :
    ∃ b, plotComponents nbins p0 p1 xlim fr fp fa = .ok b ∧ b.maps.bar.vmin = 0 ∧
      (1 / 10 ^ 280 ≤ b.maps.bar.vmax → ∀ v ∈ b.levels.1, 0 ≤ v) ∧
      (BothSigns fr → ∃ m ∈ b.markers, IsLeast (vals fr) m.2 ∧ m.2 < b.maps.bar.vmin) := by
  obtain ⟨c, A, hc, hA, hbar, -⟩ := C72_axial_bar z hz hs n k hn hk g hg none none
  have hcomp : components fr fp fa = .ok c := by
    rw [← hc, zdiComponents, getters]
    simp only [bind, Except.bind, hr, hp, ha]
  obtain ⟨A', hA', h1, h2, h3, -⟩ := components_ok hcomp
  have ne : ∀ f p, magneticField f none none (some A') = .ok p → (vals f).Nonempty := fun f p h => by
    obtain ⟨lo, -, hl, -⟩ := C72_scale _ _ _ _ _ h
    exact ⟨lo, hl.1⟩
  obtain ⟨b, hb⟩ := C97_defined nbins p0 p1 xlim fr fp fa none (ne _ _ h1) (ne _ _ h2) (ne _ _ h3)
  obtain ⟨hm, -, -, -, l1, -⟩ := plot_ok hb
  have hcm : b.maps = c := Except.ok.inj (hm.symm.trans hcomp)
  rw [hcm, hbar] at l1
  refine ⟨b, hb, by rw [hcm, hbar], ?_, ?_⟩
  · rw [hcm, hbar]
    intro hbig v hv
    simp only at hbig l1
    have hA0 : 0 < A := lt_of_lt_of_le (by positivity) hbig
    have ho : Ordinary 0 A := by
      refine ⟨by rw [abs_zero, abs_of_pos hA0, max_eq_right hA0.le]; exact hbig, ?_⟩
      rw [abs_zero, abs_of_pos hA0, max_eq_right hA0.le, sub_zero]
      exact div_lt_self hA0 (by norm_num)
    rw [tickValues, nonsingular_ordinary ho] at l1
    simp only at l1
    obtain ⟨s, hs0, -, e, -⟩ := rawTicks_spec (barLocator_proper nbins) 0 A
    rw [offset_zero le_rfl hA] at e
    simp only [sub_zero, add_zero, List.map_id'] at e
    rw [l1, e] at hv
    obtain ⟨k, rfl, hk, -⟩ := (mem_marks hs0).1 hv
    rw [zero_div, Int.floor_zero] at hk
    have : (0 : ℝ) ≤ k := by exact_mod_cast hk
    positivity
  · rintro ⟨⟨v, hv, v0⟩, -⟩
    obtain ⟨mr, nr, mp, np, ma, na, -, h2, -, -, -, -, e⟩ := C97_markers _ _ _ _ _ _ _ _ _ hb
    refine ⟨((xlim.1 + xlim.2) / 2, nr), by rw [e]; simp, h2, ?_⟩
    rw [hcm, hbar]
    exact lt_of_le_of_lt (h2.2 hv) v0

/-- Non-vacuity of `C97_zero`, `C97_zeros`, `C97_markers_iff` and `C97_levels`: three components with both signs. -/
example : ∃ b, plotComponents 9 (0.5, 0.1) (0.7, 0.9) (0, 1) [[-2, 1]] [[1, -1]] [[-1, 3]] = .ok b ∧
    b.maps.bar = ⟨true, "RdBu_r", -3, 3⟩ ∧ BothSigns [[-2, 1]] := by
  obtain ⟨b, hb⟩ := C97_defined 9 (0.5, 0.1) (0.7, 0.9) (0, 1) [[-2, 1]] [[1, -1]] [[-1, 3]] none
    ⟨1, mem_vals.2 (by simp)⟩ ⟨1, mem_vals.2 (by simp)⟩ ⟨3, mem_vals.2 (by simp)⟩
  refine ⟨b, hb, ?_, ⟨-2, mem_vals.2 (by simp), by norm_num⟩, 1, mem_vals.2 (by simp), by norm_num⟩
  have h := (plot_ok hb).1
  have : components [[-2, 1]] [[1, -1]] [[-1, 3]]
      = .ok ⟨⟨true, "RdBu_r", -3, 3⟩, ⟨true, "RdBu_r", -3, 3⟩, ⟨true, "RdBu_r", -3, 3⟩, ⟨true, "RdBu_r", -3, 3⟩⟩ := by
    norm_num [components, magneticField, map1, amin, amax, List.min?, List.max?, bind, Except.bind, pure, Except.pure]
  rw [this] at h
  rw [← Except.ok.inj h]

/-- Non-vacuity of `C97_one_sided`, and the markers that `C97_markers_iff` says are not on the bar: the azimuthal field is
zero, the bar goes from 0 to 2, the least radial field is -2. -/
example : ∃ b, plotComponents 9 (0.5, 0.1) (0.7, 0.9) (0, 1) [[-2, 1]] [[0, 1]] [[0, 0]] = .ok b ∧
    b.maps.bar.vmin = 0 ∧ b.maps.bar.vmax = 2 ∧ Ordinary b.maps.bar.vmin b.maps.bar.vmax ∧
    ¬ ∀ m ∈ b.markers, b.maps.bar.vmin ≤ m.2 ∧ m.2 ≤ b.maps.bar.vmax := by
  obtain ⟨b, hb⟩ := C97_defined 9 (0.5, 0.1) (0.7, 0.9) (0, 1) [[-2, 1]] [[0, 1]] [[0, 0]] none
    ⟨1, mem_vals.2 (by simp)⟩ ⟨1, mem_vals.2 (by simp)⟩ ⟨0, mem_vals.2 (by simp)⟩
  have h := (plot_ok hb).1
  have : components [[-2, 1]] [[0, 1]] [[0, 0]]
      = .ok ⟨⟨true, "RdBu_r", -2, 2⟩, ⟨false, "viridis", 0, 2⟩, ⟨false, "viridis", 0, 2⟩, ⟨false, "viridis", 0, 2⟩⟩ := by
    norm_num [components, magneticField, map1, amin, amax, List.min?, List.max?, bind, Except.bind, pure, Except.pure]
  rw [this] at h
  have e := Except.ok.inj h
  refine ⟨b, hb, by rw [← e], by rw [← e], ?_, ?_⟩
  · rw [← e]
    refine ⟨?_, by norm_num⟩
    have : (1 : ℝ) / 10 ^ 280 ≤ 1 := by
      rw [div_le_one (by positivity)]
      exact one_le_pow₀ (by norm_num)
    exact this.trans (by norm_num)
  · rw [C97_markers_iff _ _ _ _ _ _ _ _ _ hb, ← e]
    rintro (h | ⟨lo, hlo, hle⟩)
    · cases h
    · have h0 : lo = 0 := by have := mem_vals.1 hlo.1; simpa using this
      have := hle (-2) (Or.inl (mem_vals.2 (by simp)))
      rw [h0] at this
      norm_num at this

/-- Non-vacuity of `C97_forced`: a field from 3 to 5. -/
example : IsLeast (vals [[3, 5]]) 3 ∧ IsGreatest (vals [[3, 5]]) 5 ∧ Ordinary 3 5 ∧
    ∃ z, zeroContour [[3, 5]] (some true) none = .ok z := by
  refine ⟨⟨mem_vals.2 (by simp), fun v hv => ?_⟩, ⟨mem_vals.2 (by simp), fun v hv => ?_⟩, ⟨?_, by norm_num⟩, ?_⟩
  · have := mem_vals.1 hv
    simp only [List.flatten_cons, List.flatten_nil, List.append_nil, List.mem_cons, List.not_mem_nil, or_false] at this
    rcases this with rfl | rfl <;> norm_num
  · have := mem_vals.1 hv
    simp only [List.flatten_cons, List.flatten_nil, List.append_nil, List.mem_cons, List.not_mem_nil, or_false] at this
    rcases this with rfl | rfl <;> norm_num
  · have : (1 : ℝ) / 10 ^ 280 ≤ 1 := by
      rw [div_le_one (by positivity)]
      exact one_le_pow₀ (by norm_num)
    exact this.trans (by norm_num)
  · norm_num [zeroContour, magneticField, amin, amax, List.min?, List.max?, bind, Except.bind, pure, Except.pure]

/-- Non-vacuity of `C97_axial`: the axial dipole on every grid. -/
example (n k : ℕ) (hn : 2 ≤ n) (hk : 2 ≤ k) : ∃ g fr fp fa, Geom.init (.int n) (.int k) = .ok g ∧
    evalAt g (fun θ φ => .ok (exAxial.radial θ φ)) = .ok fr ∧ evalAt g exAxial.polar = .ok fp ∧
    evalAt g exAxial.azimuthal = .ok fa := by
  obtain ⟨g, hg, -⟩ := C46_full_sphere n k hn hk
  obtain ⟨p, a, h⟩ := components_defined exAxial_orders
  refine ⟨g, grid (lin Real.pi n) (lin (2 * Real.pi) k) fun q b => exAxial.radial (mid q) (mid b),
    grid (lin Real.pi n) (lin (2 * Real.pi) k) fun q b => p (mid q) (mid b),
    grid (lin Real.pi n) (lin (2 * Real.pi) k) fun q b => a (mid q) (mid b), hg, ?_, ?_, ?_⟩
  · rw [full_grid hn hk hg, evalAt_ok _ _ _ (fun θ φ => exAxial.radial θ φ) fun _ _ _ => rfl]
  · rw [full_grid hn hk hg, evalAt_ok _ _ _ p fun q hq φ => (h _ _ (full_offAxis hn hq)).1]
  · rw [full_grid hn hk hg, evalAt_ok _ _ _ a fun q hq φ => (h _ _ (full_offAxis hn hq)).2]

end Verif
