import Verif.Model.Plots
import Verif.Props.Energy
import Mathlib.Tactic.FieldSimp

/-!
# Properties C62 and C63: the numbers behind the spectrum and energy plots
-/

namespace Verif
open Plots

/-! ## C62 -/

section
variable {K : Type} [Field K] [LinearOrder K]

/-- Between samples `i` and `i + 1` the wavelength jumps by more than the threshold. -/
def Spec.Jump (w : List K) (t : K) (i : ℕ) : Prop := ∃ a b, w[i]? = some a ∧ w[i + 1]? = some b ∧ t < |b - a|

/-- The number of intervals that contain the sample `i`, read as `data[start:end]`. -/
def Spec.times (ps : List (ℤ × ℤ)) (i : ℤ) : ℕ := ps.countP fun p => decide (p.1 ≤ i ∧ i < p.2)

private theorem mem_skips (w : List K) (t : K) (i : ℕ) : i ∈ skips w t ↔ Spec.Jump w t i := by
  rw [skips, List.mem_filter, List.mem_range]
  constructor
  · rintro ⟨h, h'⟩
    have h1 : i < w.length := by omega
    have h2 : i + 1 < w.length := by omega
    refine ⟨w[i], w[i + 1], List.getElem?_eq_getElem h1, List.getElem?_eq_getElem h2, ?_⟩
    simpa [List.getD_eq_getElem?_getD, h1, h2] using h'
  · rintro ⟨a, b, ha, hb, h⟩
    obtain ⟨h2, -⟩ := List.getElem?_eq_some_iff.1 hb
    refine ⟨by omega, ?_⟩
    simpa [List.getD_eq_getElem?_getD, ha, hb] using h

private theorem skips_lt (w : List K) (t : K) : (skips w t).Pairwise (· < ·) :=
  List.Pairwise.filter _ List.pairwise_lt_range

private def pairsFrom (a : ℤ) (s : List ℤ) (e : ℤ) : List (ℤ × ℤ) := (a :: s).zip (s.map (· + 1) ++ [e])

private theorem pairsFrom_cons (a b : ℤ) (s : List ℤ) (e : ℤ) :
    pairsFrom a (b :: s) e = (a, b + 1) :: pairsFrom b s e := by simp [pairsFrom]

private theorem times_pairsFrom (s : List ℤ) : ∀ (a e i : ℤ), (∀ b ∈ s, a ≤ b ∧ b < e) → s.Pairwise (· < ·) →
    Spec.times (pairsFrom a s e) i = (if a ≤ i ∧ i < e then 1 else 0) + (if i ∈ s then 1 else 0) := by
  induction s with
  | nil => intro a e i _ _; by_cases h : a ≤ i ∧ i < e <;> simp [pairsFrom, Spec.times, h]
  | cons b s ih =>
    intro a e i hb hs
    rw [List.pairwise_cons] at hs
    have hab := hb b (by simp)
    have h1 := ih b e i (fun c hc => ⟨(hs.1 c hc).le, (hb c (by simp [hc])).2⟩) hs.2
    rw [pairsFrom_cons, Spec.times, List.countP_cons]
    rw [Spec.times] at h1
    rw [h1]
    have hns : i ∈ s → b < i := fun hi => hs.1 i hi
    by_cases hi : i ∈ s
    · have := hns hi
      have h2 := (hb i (by simp [hi])).2
      simp only [hi, if_true, List.mem_cons, or_true, decide_eq_true_eq]
      rw [if_pos (by omega), if_neg (by omega), if_pos (by omega)]
    · simp only [hi, if_false, List.mem_cons, or_false, decide_eq_true_eq]
      split_ifs <;> omega

private theorem wl_eq (w : List K) (t : K) : wlIntervals w t =
    pairsFrom 0 ((skips w t).map fun (i : ℕ) => (i : ℤ)) ((w.length : ℤ) - 1) := rfl

private theorem skips_bound (w : List K) (t : K) (b : ℤ) (hb : b ∈ (skips w t).map fun (i : ℕ) => (i : ℤ)) :
    0 ≤ b ∧ b < (w.length : ℤ) - 1 := by
  obtain ⟨i, hi, rfl⟩ := List.mem_map.1 hb
  obtain ⟨-, y, -, h, -⟩ := (mem_skips w t i).1 hi
  obtain ⟨h, -⟩ := List.getElem?_eq_some_iff.1 h
  omega

private theorem skips_ltZ (w : List K) (t : K) : ((skips w t).map fun (i : ℕ) => (i : ℤ)).Pairwise (· < ·) :=
  List.Pairwise.map _ (fun a b h => by exact_mod_cast h) (skips_lt w t)

/-- **C62.** The intervals, written out: they start at 0 and at every jump and end one past every jump and at the
last sample. -/
theorem C62_values (w : List K) (t : K) : ∃ s : List ℕ, s.Pairwise (· < ·) ∧ (∀ i, i ∈ s ↔ Spec.Jump w t i) ∧
    (wlIntervals w t).map Prod.fst = 0 :: s.map (fun (i : ℕ) => (i : ℤ)) ∧
    (wlIntervals w t).map Prod.snd = s.map (fun (i : ℕ) => (i : ℤ) + 1) ++ [(w.length : ℤ) - 1] := by
  refine ⟨skips w t, skips_lt w t, mem_skips w t, ?_, ?_⟩
  · rw [wlIntervals, List.map_fst_zip (by simp)]
  · rw [wlIntervals, List.map_snd_zip (by simp), List.map_map]; rfl

open Classical in
/-- **C62.** How often each sample is covered: the last one never, the one before a jump twice, every other one
once. -/
theorem C62_times (w : List K) (t : K) (i : ℕ) (hi : i < w.length) : Spec.times (wlIntervals w t) i =
    if i + 1 = w.length then 0 else if Spec.Jump w t i then 2 else 1 := by
  rw [wl_eq, times_pairsFrom _ _ _ _ (skips_bound w t) (skips_ltZ w t)]
  have hm : (i : ℤ) ∈ (skips w t).map (fun (i : ℕ) => (i : ℤ)) ↔ Spec.Jump w t i := by
    rw [List.mem_map, ← mem_skips]
    exact ⟨fun ⟨j, hj, e⟩ => by rw [← Int.ofNat_inj.1 e]; exact hj, fun h => ⟨i, h, rfl⟩⟩
  by_cases h : i + 1 = w.length
  · have hj : ¬ (i : ℤ) ∈ (skips w t).map (fun (i : ℕ) => (i : ℤ)) := by
      intro hj
      have := skips_bound w t _ hj
      omega
    rw [if_pos h, if_neg (by omega), if_neg hj]
  · rw [if_neg h, if_pos (by omega)]
    simp only [hm]
    split_ifs <;> rfl

/-- **C62 violated**: the intervals cover every sample exactly once for no vector of samples at all. -/
theorem C62_never_a_partition (w : List K) (t : K) (hw : w ≠ []) :
    ¬ ∀ i < w.length, Spec.times (wlIntervals w t) i = 1 := by
  intro h
  have hl := List.length_pos_of_ne_nil hw
  have h1 := h (w.length - 1) (by omega)
  rw [C62_times w t _ (by omega), if_pos (by omega)] at h1
  omega

private theorem mem_pairsFrom (s : List ℤ) : ∀ (a e : ℤ) (p : ℤ × ℤ), p ∈ pairsFrom a s e →
    (∀ b ∈ s, a ≤ b ∧ b < e) → s.Pairwise (· < ·) → (p.1 = a ∨ p.1 ∈ s) ∧ ∀ b ∈ s, p.1 < b → p.2 ≤ b + 1 := by
  induction s with
  | nil => intro a e p hp _ _; simp [pairsFrom] at hp; simp [hp]
  | cons c s ih =>
    intro a e p hp hb hs
    rw [List.pairwise_cons] at hs
    rw [pairsFrom_cons, List.mem_cons] at hp
    rcases hp with rfl | hp
    · refine ⟨Or.inl rfl, fun b hbm _ => ?_⟩
      rcases List.mem_cons.1 hbm with rfl | h
      · exact le_refl _
      · have := hs.1 b h
        simp only
        omega
    · obtain ⟨h1, h2⟩ := ih c e p hp (fun d hd => ⟨(hs.1 d hd).le, (hb d (by simp [hd])).2⟩) hs.2
      refine ⟨Or.inr (by simpa using h1), fun b hbm hlt => ?_⟩
      rcases List.mem_cons.1 hbm with rfl | h
      · exfalso
        rcases h1 with h1 | h1
        · omega
        · have := hs.1 _ h1
          omega
      · exact h2 b h hlt

/-- **C62.** What does hold: an interval contains at most one jump, between its first two samples. -/
theorem C62_jump_at_start (w : List K) (t : K) (p : ℤ × ℤ) (hp : p ∈ wlIntervals w t) (i : ℕ)
    (hj : Spec.Jump w t i) (h1 : p.1 ≤ i) (h2 : (i : ℤ) + 1 < p.2) : p.1 = i := by
  rw [wl_eq] at hp
  obtain ⟨-, h⟩ := mem_pairsFrom _ _ _ p hp (skips_bound w t) (skips_ltZ w t)
  have hm : (i : ℤ) ∈ (skips w t).map (fun (i : ℕ) => (i : ℤ)) := List.mem_map_of_mem ((mem_skips w t i).2 hj)
  by_contra hne
  have := h i hm (lt_of_le_of_ne h1 hne)
  omega

/-- **C62 violated**: every jump except one before the very last sample lies inside an interval. -/
theorem C62_jump_inside (w : List K) (t : K) (i : ℕ) (hj : Spec.Jump w t i) (h : i + 2 < w.length) :
    ∃ p ∈ wlIntervals w t, p.1 ≤ i ∧ (i : ℤ) + 1 < p.2 := by
  have key : ∀ (s : List ℤ) (a e c : ℤ), s.Pairwise (· < ·) → c ∈ s → c + 1 < e →
      ∃ p ∈ pairsFrom a s e, p.1 ≤ c ∧ c + 1 < p.2 := by
    intro s
    induction s with
    | nil => intro a e c _ hc; simp at hc
    | cons b s ih =>
      intro a e c hs hc he
      rw [List.pairwise_cons] at hs
      rcases List.mem_cons.1 hc with rfl | hc
      · cases s with
        | nil => exact ⟨(c, e), by simp [pairsFrom], le_refl _, he⟩
        | cons d s =>
          refine ⟨(c, d + 1), by simp [pairsFrom_cons], le_refl _, ?_⟩
          have := hs.1 d (by simp)
          simp only
          omega
      · obtain ⟨p, hp, h1⟩ := ih b e c hs.2 hc he
        exact ⟨p, by rw [pairsFrom_cons]; exact List.mem_cons_of_mem _ hp, h1⟩
  rw [wl_eq]
  exact key _ _ _ _ (skips_ltZ w t) (List.mem_map_of_mem ((mem_skips w t i).2 hj)) (by omega)

/-- The intervals that were meant: every start but the first one later, and the last one up to the end. -/
def Spec.repaired (ps : List (ℤ × ℤ)) (n : ℕ) : List (ℤ × ℤ) :=
  (0 :: ps.tail.map fun p => p.1 + 1).zip (ps.dropLast.map Prod.snd ++ [(n : ℤ)])

private def blocks (a : ℤ) (s : List ℤ) (e : ℤ) : List (ℤ × ℤ) := (a :: s.map (· + 1)).zip (s.map (· + 1) ++ [e])

private theorem repaired_eq (w : List K) (t : K) : Spec.repaired (wlIntervals w t) w.length =
    blocks 0 ((skips w t).map fun (i : ℕ) => (i : ℤ)) w.length := by
  rw [wl_eq, Spec.repaired, blocks, pairsFrom]
  generalize (skips w t).map (fun (i : ℕ) => (i : ℤ)) = s
  have h1 : ∀ (s : List ℤ) (x : ℤ) (l : List ℤ), l.length = s.length + 1 → ((x :: s).zip l).tail.map (fun p => p.1 + 1)
      = s.map (· + 1) := by
    intro s x l hl
    cases l with
    | nil => simp at hl
    | cons y l =>
      have hl' : s.length ≤ l.length := by simp at hl; omega
      rw [List.zip_cons_cons, List.tail_cons]
      have := congrArg (List.map (· + (1 : ℤ))) (List.map_fst_zip hl')
      rw [List.map_map] at this
      exact this
  rw [h1 _ _ _ (by simp), List.map_dropLast, List.map_snd_zip (by simp), List.dropLast_concat]

private theorem blocks_cons (a b : ℤ) (s : List ℤ) (e : ℤ) :
    blocks a (b :: s) e = (a, b + 1) :: blocks (b + 1) s e := by simp [blocks]

private theorem blocks_spec (s : List ℤ) : ∀ (a e : ℤ), (∀ b ∈ s, a ≤ b ∧ b < e) → s.Pairwise (· < ·) →
    (∀ i, Spec.times (blocks a s e) i = if a ≤ i ∧ i < e then 1 else 0) ∧
    ∀ p ∈ blocks a s e, a ≤ p.1 ∧ ∀ b ∈ s, p.1 ≤ b → p.2 ≤ b + 1 := by
  induction s with
  | nil =>
    intro a e _ _
    refine ⟨fun i => ?_, fun p hp => ?_⟩
    · by_cases h : a ≤ i ∧ i < e <;> simp [blocks, Spec.times, h]
    · simp [blocks] at hp; simp [hp]
  | cons b s ih =>
    intro a e hb hs
    rw [List.pairwise_cons] at hs
    have hab := hb b (by simp)
    obtain ⟨h1, h2⟩ := ih (b + 1) e (fun c hc => ⟨by have := hs.1 c hc; omega, (hb c (by simp [hc])).2⟩) hs.2
    refine ⟨fun i => ?_, fun p hp => ?_⟩
    · have h1 := h1 i
      rw [blocks_cons, Spec.times, List.countP_cons]
      rw [Spec.times] at h1
      rw [h1]
      simp only [decide_eq_true_eq]
      split_ifs <;> omega
    · rw [blocks_cons, List.mem_cons] at hp
      rcases hp with rfl | hp
      · refine ⟨le_refl _, fun c hc _ => ?_⟩
        rcases List.mem_cons.1 hc with rfl | hc
        · exact le_refl _
        · have := hs.1 c hc
          simp only
          omega
      · obtain ⟨h3, h4⟩ := h2 p hp
        refine ⟨by omega, fun c hc hle => ?_⟩
        rcases List.mem_cons.1 hc with rfl | hc
        · omega
        · exact h4 c hc hle

/-- **C62.** After the two off-by-one errors are repaired the intervals are what the property asks for: every sample
is in exactly one and no interval contains a jump. -/
theorem C62_repaired (w : List K) (t : K) :
    (∀ i < w.length, Spec.times (Spec.repaired (wlIntervals w t) w.length) i = 1) ∧
    ∀ p ∈ Spec.repaired (wlIntervals w t) w.length, ∀ i : ℕ, Spec.Jump w t i → ¬ (p.1 ≤ i ∧ (i : ℤ) + 1 < p.2) := by
  have hb : ∀ b ∈ (skips w t).map (fun (i : ℕ) => (i : ℤ)), 0 ≤ b ∧ b < (w.length : ℤ) := fun b h => by
    have := skips_bound w t b h
    omega
  obtain ⟨h1, h2⟩ := blocks_spec _ _ _ hb (skips_ltZ w t)
  rw [repaired_eq]
  refine ⟨fun i hi => ?_, fun p hp i hj h => ?_⟩
  · rw [h1, if_pos (by omega)]
  · have := (h2 p hp).2 i (List.mem_map_of_mem ((mem_skips w t i).2 hj)) h.1
    omega

/-- **C62.** An empty spectrum gives one interval that ends before it starts. -/
theorem C62_empty (t : K) : wlIntervals ([] : List K) t = [(0, -1)] := by simp [wlIntervals, skips]

end

/-- Non-vacuity of C62: two orders of three and two samples. -/
example : wlIntervals ([500, 501, 502, 600, 601] : List ℚ) 2 = [(0, 3), (2, 4)] ∧
    Spec.repaired (wlIntervals ([500, 501, 502, 600, 601] : List ℚ) 2) 5 = [(0, 3), (3, 5)] := by decide +kernel

example : Spec.Jump ([500, 501, 502, 600, 601] : List ℚ) 2 2 ∧ 2 + 2 < ([500, 501, 502, 600, 601] : List ℚ).length :=
  ⟨⟨502, 600, rfl, rfl, by norm_num⟩, by decide⟩

/-! ## C63 -/

open Zdi

/-- The three curves: total, poloidal, toroidal. -/
inductive Spec.Curve
  | total
  | poloidal
  | toroidal

/-- The energy of one row in a curve. -/
noncomputable def Spec.curveEnergy : Spec.Curve → ZRow → ℝ
  | .total, r => specEnergy .alpha r + specEnergy .beta r + specEnergy .gamma r
  | .poloidal, r => specEnergy .alpha r + specEnergy .beta r
  | .toroidal, r => specEnergy .gamma r

/-- The energy of all rows of one degree. -/
noncomputable def Spec.degreeEnergy (c : Spec.Curve) (z : Zdi) (l : ℕ) : ℝ :=
  ((z.filter fun r : ZRow => decide (r.l = (l : ℤ))).map (Spec.curveEnergy c)).sum

/-- The energy of all rows. -/
noncomputable def Spec.curveTotal (c : Spec.Curve) (z : Zdi) : ℝ := (z.map (Spec.curveEnergy c)).sum

/-- The curve one expects: energies of the degrees from 1 to `L` and their running sums from degree 0, in units of
`e`. -/
noncomputable def Spec.curve (c : Spec.Curve) (z : Zdi) (L : ℕ) (e : ℝ) : List (ℕ × ℝ × ℝ) :=
  (List.range L).map fun k => (k + 1, Spec.degreeEnergy c z (k + 1) / e,
    (∑ i ∈ Finset.range (k + 2), Spec.degreeEnergy c z i) / e)

private theorem filter_sum (z : Zdi) (f : ZRow → ℝ) (l : ℕ) :
    ((z.filter fun r : ZRow => decide (r.l = (l : ℤ))).map f).sum = (z.map fun r : ZRow => if r.l = (l : ℤ) then f r else 0).sum := by
  induction z with
  | nil => rfl
  | cons r z ih => by_cases h : r.l = (l : ℤ) <;> simp [List.filter_cons, h, ← ih]

private theorem sum_cols (z : Zdi) (f : ZRow → ℝ) (L i : ℕ) (h : ∀ r ∈ z, |r.m| ≤ r.l ∧ r.l ≤ L) :
    ∑ j ∈ Finset.range (2 * L + 1), (z.map fun r => if r.l = (i : ℤ) ∧ r.m + L = (j : ℤ) then f r else 0).sum
      = (z.map fun r => if r.l = (i : ℤ) then f r else 0).sum := by
  induction z with
  | nil => simp
  | cons r z ih =>
    simp only [List.map_cons, List.sum_cons, Finset.sum_add_distrib]
    rw [ih fun r hr => h r (List.mem_cons_of_mem _ hr)]
    congr 1
    have hr := h r (by simp)
    rw [abs_le] at hr
    obtain ⟨j0, hj0⟩ := Int.eq_ofNat_of_zero_le (a := r.m + L) (by omega)
    rw [Finset.sum_eq_single_of_mem j0 (Finset.mem_range.2 (by omega))]
    · simp [hj0]
    · intro j _ hj
      rw [if_neg]
      rintro ⟨-, e⟩
      exact hj (by omega)

private theorem sum_degrees (z : Zdi) (f : ZRow → ℝ) (L : ℕ) (h : ∀ r ∈ z, |r.m| ≤ r.l ∧ r.l ≤ L) :
    ∑ i ∈ Finset.range (L + 1), (z.map fun r => if r.l = (i : ℤ) then f r else 0).sum = (z.map f).sum := by
  induction z with
  | nil => simp
  | cons r z ih =>
    simp only [List.map_cons, List.sum_cons, Finset.sum_add_distrib]
    rw [ih fun r hr => h r (List.mem_cons_of_mem _ hr)]
    congr 1
    have hr := h r (by simp)
    have := abs_nonneg r.m
    obtain ⟨i0, hi0⟩ := Int.eq_ofNat_of_zero_le (a := r.l) (by omega)
    rw [Finset.sum_eq_single_of_mem i0 (Finset.mem_range.2 (by omega))]
    · simp [hi0]
    · intro i _ hi
      rw [if_neg]
      intro e
      exact hi (by omega)

/-- **C63.** The energies of the degrees add up to the energy of all coefficients. -/
theorem C63_partition (c : Spec.Curve) (z : Zdi) (L : ℕ) (h : ∀ r ∈ z, |r.m| ≤ r.l ∧ r.l ≤ L) :
    ∑ i ∈ Finset.range (L + 1), Spec.degreeEnergy c z i = Spec.curveTotal c z := by
  simp only [Spec.degreeEnergy, filter_sum]
  exact sum_degrees z _ L h

private theorem curve_eq (c : Spec.Curve) (z : Zdi) (L : ℕ) (e : ℝ) (a : ℕ → ℕ → ℝ)
    (ha : ∀ l, rowSum L a l = Spec.degreeEnergy c z l / e) : Plots.curve L a = Spec.curve c z L e := by
  rw [Plots.curve, Spec.curve, List.range_succ_eq_map, List.map_cons, List.drop_one, List.tail_cons, List.map_map]
  apply List.map_congr_left
  intro k _
  simp only [Function.comp, Nat.succ_eq_add_one, ha, Finset.sum_div]

private theorem curveTotal_total (z : Zdi) : Spec.curveTotal .total z = totalEnergy z := by
  rw [Spec.curveTotal, totalEnergy, ← List.sum_map_add, ← List.sum_map_add]
  simp only [C41_value]
  rfl

private theorem matrix_sums (z : Zdi) (hne : z ≠ []) (h : ∀ r ∈ z, |r.m| ≤ r.l)
    (hn : (z.map fun r => (r.l, r.m)).Nodup) :
    ∃ (L : ℕ) (er ep et : ℕ → ℕ → ℝ), energyMatrix z = .ok (L, er, ep, et) ∧ (∃ r ∈ z, r.l = L) ∧
      (∀ r ∈ z, r.l ≤ L) ∧ (∀ l, rowSum L ep l = Spec.degreeEnergy .poloidal z l) ∧
      (∀ l, rowSum L et l = Spec.degreeEnergy .toroidal z l) ∧
      (∀ l, rowSum L (fun i j => ep i j + et i j) l = Spec.degreeEnergy .total z l) ∧
      matSum L ep + matSum L et = totalEnergy z := by
  obtain ⟨L, mat, hm, h1, h2, h3⟩ := energyMatrix_entries z hne h hn
  have hb : ∀ r ∈ z, |r.m| ≤ r.l ∧ r.l ≤ L := fun r hr => ⟨h r hr, h2 r hr⟩
  have hrow : ∀ f l, rowSum L (mat f) l = (z.map fun r => if r.l = (l : ℤ) then f r else 0).sum := by
    intro f l
    rw [rowSum, ← sum_cols z f L l hb]
    apply Finset.sum_congr rfl
    intro j hj
    rw [Finset.mem_range] at hj
    exact h3 f l j (by omega)
  have hp : ∀ l, rowSum L (mat energyPol) l = Spec.degreeEnergy .poloidal z l := by
    intro l
    rw [hrow, Spec.degreeEnergy, filter_sum]
    simp only [Spec.curveEnergy, energyPol, C41_value]
  have ht : ∀ l, rowSum L (mat (energyOf .gamma)) l = Spec.degreeEnergy .toroidal z l := by
    intro l
    rw [hrow, Spec.degreeEnergy, filter_sum]
    simp only [Spec.curveEnergy, C41_value]
  have htot : ∀ l, Spec.degreeEnergy .total z l = Spec.degreeEnergy .poloidal z l + Spec.degreeEnergy .toroidal z l := by
    intro l
    rw [Spec.degreeEnergy, Spec.degreeEnergy, Spec.degreeEnergy, ← List.sum_map_add]
    rfl
  refine ⟨L, _, _, _, hm, h1, h2, hp, ht, fun l => ?_, ?_⟩
  · rw [htot, ← hp, ← ht, rowSum, rowSum, rowSum, Finset.sum_add_distrib]
  · have : ∀ a, matSum L a = ∑ i ∈ Finset.range (L + 1), rowSum L a i := fun _ => rfl
    rw [this, this, ← Finset.sum_add_distrib, ← curveTotal_total, ← C63_partition .total z L hb]
    exact Finset.sum_congr rfl fun l _ => by rw [hp, ht, htot]

private theorem rowSum_div (L : ℕ) (a : ℕ → ℕ → ℝ) (e : ℝ) (l : ℕ) :
    rowSum L (fun i j => a i j / e) l = rowSum L a l / e := by rw [rowSum, rowSum, Finset.sum_div]

/-- **C63.** The curves of `plot_energy_by_degree`, for sets with some energy if they are to be scaled: they are the
expected ones, up to the highest degree present, in units of the total energy if scaled. -/
theorem C63_curves (z : Zdi) (scaled : Bool) (hne : z ≠ []) (h : ∀ r ∈ z, |r.m| ≤ r.l)
    (hn : (z.map fun r => (r.l, r.m)).Nodup) (he : scaled = true → Spec.curveTotal .total z ≠ 0) :
    ∃ L : ℕ, (∃ r ∈ z, r.l = L) ∧ (∀ r ∈ z, r.l ≤ L) ∧
      energyByDegree z scaled = .ok
        (Spec.curve .total z L (if scaled then Spec.curveTotal .total z else 1),
         Spec.curve .poloidal z L (if scaled then Spec.curveTotal .total z else 1),
         Spec.curve .toroidal z L (if scaled then Spec.curveTotal .total z else 1)) := by
  obtain ⟨L, er, ep, et, hm, h1, h2, hp, ht, hs, hsum⟩ := matrix_sums z hne h hn
  refine ⟨L, h1, h2, ?_⟩
  rw [energyByDegree, hm, curveTotal_total]
  cases scaled with
  | false =>
    simp only [bind, Except.bind, Bool.false_eq_true, if_false, pure, Except.pure]
    rw [curve_eq .total z L 1 _ (by simpa using hs), curve_eq .poloidal z L 1 _ (by simpa using hp),
      curve_eq .toroidal z L 1 _ (by simpa using ht)]
  | true =>
    have he' : totalEnergy z ≠ 0 := by rw [← curveTotal_total]; exact he rfl
    have e1 : matSum L (fun i j => ep i j / totalEnergy z + et i j / totalEnergy z) = 1 := by
      have : matSum L (fun i j => ep i j / totalEnergy z + et i j / totalEnergy z)
          = (matSum L ep + matSum L et) / totalEnergy z := by
        simp only [matSum, Finset.sum_add_distrib, ← Finset.sum_div, add_div]
      rw [this, hsum, div_self he']
    have e2 : ∀ i j, er i j / totalEnergy z + (ep i j - er i j) / totalEnergy z - ep i j / totalEnergy z = 0 := by
      intro i j; ring
    simp only [bind, Except.bind, if_true, hsum, if_neg he', e1, e2]
    have c1 : |(1 : ℝ) - 1| ≤ 1e-8 + 1e-5 * 1 := by norm_num
    have c2 : ∀ i < L + 1, ∀ j < 2 * L + 1, |(0 : ℝ)| ≤ 1e-8 + 1e-5 * |ep i j / totalEnergy z| := by
      intro i _ j _
      rw [abs_zero]
      positivity
    rw [if_neg (not_not.2 c1), if_neg (not_not.2 c2)]
    simp only [pure, Except.pure]
    rw [curve_eq .total z L (totalEnergy z) _ (fun l => by simp only [← add_div]; rw [rowSum_div, hs]),
      curve_eq .poloidal z L (totalEnergy z) _ (fun l => by rw [rowSum_div, hp]),
      curve_eq .toroidal z L (totalEnergy z) _ (fun l => by rw [rowSum_div, ht])]

/-- **C63.** A set without energy cannot be scaled: the sum is nan and the assertion fails. -/
theorem C63_no_energy (z : Zdi) (hne : z ≠ []) (h : ∀ r ∈ z, |r.m| ≤ r.l)
    (hn : (z.map fun r => (r.l, r.m)).Nodup) (he : Spec.curveTotal .total z = 0) :
    energyByDegree z true = .error .assertion := by
  obtain ⟨L, er, ep, et, hm, h1, h2, hp, ht, hs, hsum⟩ := matrix_sums z hne h hn
  rw [energyByDegree, hm]
  rw [curveTotal_total] at he
  simp only [bind, Except.bind, if_true, hsum, he]
  rfl

/-- **C63.** The running sums end at the total, so at 1 for the total curve if scaled. -/
theorem C63_cumulative_end (c : Spec.Curve) (z : Zdi) (L : ℕ) (e : ℝ) (h : ∀ r ∈ z, |r.m| ≤ r.l ∧ r.l ≤ L)
    (hL : 1 ≤ L) : (Spec.curve c z L e).getLast?.map (fun p => p.2.2) = some (Spec.curveTotal c z / e) := by
  obtain ⟨k, rfl⟩ := Nat.exists_eq_add_of_le' hL
  rw [Spec.curve, List.range_succ, List.map_append, List.map_singleton, List.getLast?_concat, Option.map_some,
    ← C63_partition c z (k + 1) h]

/-- **C63.** The scaled total curve ends at one. -/
theorem C63_scaled_end (z : Zdi) (L : ℕ) (h : ∀ r ∈ z, |r.m| ≤ r.l ∧ r.l ≤ L) (hL : 1 ≤ L)
    (he : Spec.curveTotal .total z ≠ 0) :
    (Spec.curve .total z L (Spec.curveTotal .total z)).getLast?.map (fun p => p.2.2) = some 1 := by
  rw [C63_cumulative_end _ z L _ h hL, div_self he]

private theorem curveEnergy_nonneg (c : Spec.Curve) (r : ZRow) (h : 0 ≤ r.l) : 0 ≤ Spec.curveEnergy c r := by
  have hk : ∀ k, 0 ≤ specEnergy k r := fun k => by rw [← C41_value]; exact C41_nonneg k r h
  cases c
  · exact add_nonneg (add_nonneg (hk _) (hk _)) (hk _)
  · exact add_nonneg (hk _) (hk _)
  · exact hk _

private theorem degreeEnergy_nonneg (c : Spec.Curve) (z : Zdi) (h : ∀ r ∈ z, |r.m| ≤ r.l) (l : ℕ) :
    0 ≤ Spec.degreeEnergy c z l := by
  apply List.sum_nonneg
  intro x hx
  obtain ⟨r, hr, rfl⟩ := List.mem_map.1 hx
  exact curveEnergy_nonneg c r (le_trans (abs_nonneg _) (h r (List.mem_filter.1 hr).1))

/-- **C63.** The values are not negative and the running sums do not decrease. -/
theorem C63_monotone (c : Spec.Curve) (z : Zdi) (L : ℕ) (e : ℝ) (h : ∀ r ∈ z, |r.m| ≤ r.l) (he : 0 ≤ e) :
    (∀ p ∈ Spec.curve c z L e, 0 ≤ p.2.1 ∧ p.2.1 ≤ p.2.2) ∧
    ((Spec.curve c z L e).map fun p => p.2.2).Pairwise (· ≤ ·) := by
  have h0 := degreeEnergy_nonneg c z h
  constructor
  · intro p hp
    obtain ⟨k, -, rfl⟩ := List.mem_map.1 hp
    refine ⟨div_nonneg (h0 _) he, div_le_div_of_nonneg_right ?_ he⟩
    exact Finset.single_le_sum (f := fun i => Spec.degreeEnergy c z i) (fun i _ => h0 i) (Finset.mem_range.2 (by omega))
  · rw [Spec.curve, List.map_map, List.pairwise_map]
    apply List.Pairwise.imp _ List.pairwise_lt_range
    intro a b hab
    simp only [Function.comp]
    apply div_le_div_of_nonneg_right _ he
    exact Finset.sum_le_sum_of_subset_of_nonneg (Finset.range_mono (by omega)) fun i _ _ => h0 i

/-- **C63.** The points shown leave out the energy of degree 0: only without it do the scaled values add up to 1. -/
theorem C63_shown_sum (c : Spec.Curve) (z : Zdi) (L : ℕ) (e : ℝ) (h : ∀ r ∈ z, |r.m| ≤ r.l ∧ r.l ≤ L) :
    ((Spec.curve c z L e).map fun p => p.2.1).sum = (Spec.curveTotal c z - Spec.degreeEnergy c z 0) / e := by
  rw [← C63_partition c z L h, Finset.sum_range_succ', add_sub_cancel_right, Spec.curve, List.map_map, Finset.sum_div]
  have : ∀ (f : ℕ → ℝ) n, ((List.range n).map f).sum = ∑ i ∈ Finset.range n, f i := by
    intro f n
    induction n with
    | zero => rfl
    | succ n ih => rw [List.range_succ, List.map_append, List.sum_append, ih, Finset.sum_range_succ]; simp
  exact this _ L

/-- What the colour scale of the energies `vals` is: `0.1` to `1` if they are all negligible, otherwise from the
reciprocal of the largest to the largest. -/
def Spec.ColourScale (vals : List ℝ) (p : ℝ × ℝ) : Prop :=
  ((∀ v ∈ vals, v ≤ 1e-8) ∧ p = (0.1, 1)) ∨
    ∃ M ∈ vals, (∀ v ∈ vals, v ≤ M) ∧ 1e-8 < M ∧ p = (1 / M, M)

private theorem max_some (xs : List ℝ) (M : ℝ) (h : M ∈ xs) (h' : ∀ x ∈ xs, x ≤ M) : xs.max? = some M :=
  List.max?_eq_some_iff.2 ⟨h, h'⟩

private theorem colour_of (xs vals : List ℝ) (h0 : ∀ v ∈ vals, 0 ≤ v) (h1 : ∀ x ∈ xs, x = 0 ∨ x ∈ vals)
    (h2 : ∀ v ∈ vals, v = 0 ∨ v ∈ xs) : ∃ p, colourRange xs = .ok p ∧ Spec.ColourScale vals p := by
  by_cases hs : ∀ x ∈ xs, |x| ≤ 1e-8
  · refine ⟨(0.1, 1), by rw [colourRange, if_pos hs], Or.inl ⟨fun v hv => ?_, rfl⟩⟩
    rcases h2 v hv with rfl | h
    · norm_num
    · exact le_trans (le_abs_self _) (hs v h)
  · have hx0 : ∀ x ∈ xs, 0 ≤ x := fun x hx => by
      rcases h1 x hx with rfl | h
      · exact le_refl _
      · exact h0 x h
    have hs' := hs
    push Not at hs'
    obtain ⟨y, hy, hys⟩ := hs'
    rw [abs_of_nonneg (hx0 y hy)] at hys
    obtain ⟨M, hM, hMu⟩ : ∃ M ∈ xs, ∀ x ∈ xs, x ≤ M := by
      have := Finset.exists_max_image xs.toFinset id ⟨y, by simpa using hy⟩
      simpa using this
    have hMs : 1e-8 < M := lt_of_lt_of_le hys (hMu y hy)
    have hM0 : 0 < M := lt_trans (by norm_num) hMs
    refine ⟨(M⁻¹, M), ?_, Or.inr ⟨M, (h1 M hM).resolve_left hM0.ne', fun v hv => ?_, hMs, by rw [one_div]⟩⟩
    · rw [colourRange, if_neg hs, max_some xs M hM hMu, max_some (xs.filter _) M
        (List.mem_filter.2 ⟨hM, by simpa using hM0⟩) fun x hx => hMu x (List.mem_filter.1 hx).1]
      rfl
    · rcases h2 v hv with rfl | h
      · exact hM0.le
      · exact hMu v h

/-- The energy of one row in a matrix plot. -/
noncomputable def Spec.plotValue : Plots.Name → ZRow → ℝ
  | .total, r => specEnergy .alpha r + specEnergy .beta r + specEnergy .gamma r
  | .radial, r => specEnergy .alpha r
  | .poloidal, r => specEnergy .alpha r + specEnergy .beta r
  | .toroidal, r => specEnergy .gamma r

private theorem plotValue_nonneg (n : Plots.Name) (r : ZRow) (h : 0 ≤ r.l) : 0 ≤ Spec.plotValue n r := by
  have hk : ∀ k, 0 ≤ specEnergy k r := fun k => by rw [← C41_value]; exact C41_nonneg k r h
  cases n
  · exact add_nonneg (add_nonneg (hk _) (hk _)) (hk _)
  · exact hk _
  · exact add_nonneg (hk _) (hk _)
  · exact hk _

private theorem mem_entries (n c : ℕ) (a : ℕ → ℕ → ℝ) (x : ℝ) :
    x ∈ entries n c a ↔ ∃ i < n, ∃ j < c, a i j = x := by
  simp [entries, List.mem_flatMap, List.mem_map]


/-- A matrix holds the values `f` of the rows and zeros. -/
private structure Holds (z : Zdi) (L : ℕ) (a : ℕ → ℕ → ℝ) (f : ZRow → ℝ) : Prop where
  row : ∀ r ∈ z, ∀ i j : ℕ, (i : ℤ) = r.l → (j : ℤ) = r.m + L → a i j = f r
  zero : ∀ i j : ℕ, j ≤ 2 * L → (∀ r ∈ z, ¬ (r.l = i ∧ r.m + L = j)) → a i j = 0

private theorem plot_matrix (z : Zdi) (n : Plots.Name) (hne : z ≠ []) (h : ∀ r ∈ z, |r.m| ≤ r.l)
    (hn : (z.map fun r => (r.l, r.m)).Nodup) :
    ∃ (L : ℕ) (a : ℕ → ℕ → ℝ), (∀ r ∈ z, r.l ≤ L) ∧ Holds z L a (Spec.plotValue n) ∧
      plotEnergy z n true = colourRange (entries (L + 1) (2 * L + 1) a) ∧
      plotEnergy z n false = (removeNegative L a).bind fun e => colourRange (entries (L + 1) (L + 1) e) := by
  obtain ⟨L, er, ep, et, hm, -, h2, h3, h4, -⟩ := C43_matrix z hne h hn
  simp only [plotEnergy, hm, bind, Except.bind]
  cases n with
  | total =>
    refine ⟨L, fun i j => ep i j + et i j, h2, ⟨fun r hr i j hi hj => ?_, fun i j hj hz => ?_⟩, rfl, rfl⟩
    · obtain ⟨-, e2, e3⟩ := h3 r hr i j hi hj
      simp only [e2, e3, Spec.plotValue]
    · obtain ⟨-, e2, e3⟩ := h4 i j hj hz
      simp only [e2, e3, add_zero]
  | radial =>
    exact ⟨L, er, h2, ⟨fun r hr i j hi hj => (h3 r hr i j hi hj).1, fun i j hj hz => (h4 i j hj hz).1⟩, rfl, rfl⟩
  | poloidal =>
    exact ⟨L, ep, h2, ⟨fun r hr i j hi hj => (h3 r hr i j hi hj).2.1, fun i j hj hz => (h4 i j hj hz).2.1⟩, rfl, rfl⟩
  | toroidal =>
    exact ⟨L, et, h2, ⟨fun r hr i j hi hj => (h3 r hr i j hi hj).2.2, fun i j hj hz => (h4 i j hj hz).2.2⟩, rfl, rfl⟩

private theorem Holds.cases {z : Zdi} {L : ℕ} {a : ℕ → ℕ → ℝ} {f : ZRow → ℝ} (hh : Holds z L a f) (i j : ℕ)
    (hj : j ≤ 2 * L) : a i j = 0 ∨ ∃ r ∈ z, r.m + L = j ∧ a i j = f r := by
  by_cases hr : ∃ r ∈ z, r.l = i ∧ r.m + L = j
  · obtain ⟨r, hr, h1, h2⟩ := hr
    exact Or.inr ⟨r, hr, h2, hh.row r hr i j h1.symm h2.symm⟩
  · push Not at hr
    exact Or.inl (hh.zero i j hj fun r hr' hc => hr r hr' hc.1 hc.2)

/-- **C63.** The colour scale of the plot with negative orders. -/
theorem C63_colour (z : Zdi) (n : Plots.Name) (hne : z ≠ []) (h : ∀ r ∈ z, |r.m| ≤ r.l)
    (hn : (z.map fun r => (r.l, r.m)).Nodup) :
    ∃ p, plotEnergy z n true = .ok p ∧ Spec.ColourScale (z.map (Spec.plotValue n)) p := by
  obtain ⟨L, a, hL, hh, e1, -⟩ := plot_matrix z n hne h hn
  rw [e1]
  apply colour_of
  · intro v hv
    obtain ⟨r, hr, rfl⟩ := List.mem_map.1 hv
    exact plotValue_nonneg n r (le_trans (abs_nonneg _) (h r hr))
  · intro x hx
    obtain ⟨i, hi, j, hj, rfl⟩ := (mem_entries _ _ _ _).1 hx
    rcases hh.cases i j (by omega) with h0 | ⟨r, hr, -, e⟩
    · exact Or.inl h0
    · exact Or.inr (e ▸ List.mem_map_of_mem hr)
  · intro v hv
    obtain ⟨r, hr, rfl⟩ := List.mem_map.1 hv
    have h1 := h r hr
    have h2 := hL r hr
    have h3 := abs_le.1 h1
    have := abs_nonneg r.m
    right
    refine (mem_entries _ _ _ _).2 ⟨r.l.toNat, by omega, (r.m + L).toNat, by omega, ?_⟩
    exact hh.row r hr _ _ (by omega) (by omega)

/-- **C63.** Without negative orders: a coefficient of negative order whose energy is not negligible is refused;
otherwise the scale is that of the coefficients of order 0 and up. -/
theorem C63_colour_nonneg (z : Zdi) (n : Plots.Name) (hne : z ≠ []) (h : ∀ r ∈ z, |r.m| ≤ r.l)
    (hn : (z.map fun r => (r.l, r.m)).Nodup) :
    ((∃ r ∈ z, r.m < 0 ∧ 1e-8 < Spec.plotValue n r) → plotEnergy z n false = .error .assertion) ∧
    ((∀ r ∈ z, r.m < 0 → Spec.plotValue n r ≤ 1e-8) → ∃ p, plotEnergy z n false = .ok p ∧
      Spec.ColourScale ((z.filter fun r : ZRow => decide (0 ≤ r.m)).map (Spec.plotValue n)) p) := by
  obtain ⟨L, a, hL, hh, -, e2⟩ := plot_matrix z n hne h hn
  have hnn : ∀ r ∈ z, 0 ≤ Spec.plotValue n r := fun r hr => plotValue_nonneg n r (le_trans (abs_nonneg _) (h r hr))
  have hidx : ∀ r ∈ z, r.l.toNat < L + 1 ∧ (r.l.toNat : ℤ) = r.l ∧ 0 ≤ r.m + L ∧ r.m ≤ L := by
    intro r hr
    have h1 := h r hr
    have h2 := hL r hr
    have h3 := abs_le.1 h1
    have := abs_nonneg r.m
    omega
  rw [e2]
  constructor
  · rintro ⟨r, hr, hm, hv⟩
    have hi := hidx r hr
    rw [removeNegative, if_neg]
    · rfl
    · intro hall
      have := hall (a r.l.toNat (r.m + L).toNat) ((mem_entries _ _ _ _).2 ⟨_, hi.1, _, by omega, rfl⟩)
      rw [hh.row r hr _ _ hi.2.1 (by omega), abs_of_nonneg (hnn r hr)] at this
      linarith
  · intro hsmall
    rw [removeNegative, if_pos]
    · show ∃ p, colourRange (entries (L + 1) (L + 1) fun i j => a i (j + L)) = .ok p ∧ _
      apply colour_of
      · intro v hv
        obtain ⟨r, hr, rfl⟩ := List.mem_map.1 hv
        exact hnn r (List.mem_filter.1 hr).1
      · intro x hx
        obtain ⟨i, hi, j, hj, rfl⟩ := (mem_entries _ _ _ _).1 hx
        rcases hh.cases i (j + L) (by omega) with h0 | ⟨r, hr, hm, e⟩
        · exact Or.inl h0
        · right
          rw [e]
          refine List.mem_map_of_mem (List.mem_filter.2 ⟨hr, ?_⟩)
          push_cast at hm
          simp only [decide_eq_true_eq]
          omega
      · intro v hv
        obtain ⟨r, hr, rfl⟩ := List.mem_map.1 hv
        obtain ⟨hr, hm⟩ := List.mem_filter.1 hr
        simp only [decide_eq_true_eq] at hm
        have hi := hidx r hr
        right
        refine (mem_entries _ _ _ _).2 ⟨_, hi.1, r.m.toNat, by omega, ?_⟩
        exact hh.row r hr _ _ hi.2.1 (by push_cast; omega)
    · intro x hx
      obtain ⟨i, hi, j, hj, rfl⟩ := (mem_entries _ _ _ _).1 hx
      rcases hh.cases i j (by omega) with h0 | ⟨r, hr, hm, e⟩
      · rw [h0, abs_zero]; norm_num
      · rw [e, abs_of_nonneg (hnn r hr)]
        exact hsmall r hr (by omega)

/-- **C63.** When the scale is not upside down: the largest energy is at least one, or all are negligible. -/
theorem C63_colour_order (vals : List ℝ) (p : ℝ × ℝ) (h : Spec.ColourScale vals p) :
    p.1 ≤ p.2 ↔ (∀ v ∈ vals, v ≤ 1e-8) ∨ ∃ v ∈ vals, 1 ≤ v := by
  rcases h with ⟨h, rfl⟩ | ⟨M, hM, hMu, hMs, rfl⟩
  · exact ⟨fun _ => Or.inl h, fun _ => by norm_num⟩
  · have hM0 : 0 < M := lt_trans (by norm_num) hMs
    have : (1 / M ≤ M) ↔ 1 ≤ M := by
      rw [div_le_iff₀ hM0]
      constructor
      · intro h; by_contra hc; push Not at hc; nlinarith
      · intro h; nlinarith
    simp only [this]
    constructor
    · intro h; exact Or.inr ⟨M, hM, h⟩
    · rintro (h | ⟨v, hv, h⟩)
      · exact absurd (h M hM) (not_le.2 hMs)
      · exact h.trans (hMu v hv)

private noncomputable def weak : Zdi := [⟨1, 0, 1 / 2, 0, 0⟩]

private theorem weak_value : Spec.plotValue .total ⟨1, 0, 1 / 2, 0, 0⟩ = 1 / 4 := by
  have e : ((1 : ℂ) / 2).re = 1 / 2 := by
    rw [show (1 : ℂ) / 2 = ((1 / 2 : ℝ) : ℂ) by push_cast; rfl, Complex.ofReal_re]
  simp only [Spec.plotValue, specEnergy, Comp.of, e]
  norm_num

/-- **C63 violated**: a dipole of energy 1/4 is plotted on a scale from 4 to 1/4. -/
theorem C63_colour_witness : ∃ z : Zdi, plotEnergy z .total true = .ok (4, 1 / 4) := by
  obtain ⟨p, h1, h2⟩ := C63_colour weak .total (by simp [weak]) (by simp [weak]) (by simp [weak])
  refine ⟨weak, ?_⟩
  rw [h1]
  rcases h2 with ⟨h, -⟩ | ⟨M, hM, -, -, rfl⟩
  · have := h (1 / 4) (by rw [← weak_value]; exact List.mem_map_of_mem (List.mem_singleton.2 rfl))
    norm_num at this
  · simp only [weak, List.map_cons, List.map_nil, List.mem_singleton, weak_value] at hM
    rw [hM]
    norm_num

/-- Non-vacuity of C63: a set with energy, one without, orders of both signs. -/
example : Spec.curveTotal .total weak ≠ 0 := by
  have : Spec.curveTotal .total weak = Spec.plotValue .total ⟨1, 0, 1 / 2, 0, 0⟩ + 0 := rfl
  rw [this, weak_value]
  norm_num

example : ∃ z : Zdi, z ≠ [] ∧ (∀ r ∈ z, |r.m| ≤ r.l) ∧ (z.map fun r => (r.l, r.m)).Nodup ∧
    Spec.curveTotal .total z = 0 :=
  ⟨[⟨1, 0, 0, 0, 0⟩], by simp, by simp, by simp, by simp [Spec.curveTotal, Spec.curveEnergy, specEnergy, Comp.of]⟩

example : ∃ z : Zdi, z ≠ [] ∧ (∀ r ∈ z, |r.m| ≤ r.l) ∧ (z.map fun r => (r.l, r.m)).Nodup ∧
    ∃ r ∈ z, r.m < 0 ∧ 1e-8 < Spec.plotValue .radial r :=
  ⟨[⟨1, -1, 2, 0, 0⟩, ⟨1, 1, 1, 0, 0⟩], by simp, by simp, by simp, ⟨1, -1, 2, 0, 0⟩, by simp, by norm_num,
    by norm_num [Spec.plotValue, specEnergy, Comp.of]⟩

end Verif
