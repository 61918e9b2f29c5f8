import Verif.Model.FloatColour
import Verif.Props.FloatDegree
import Verif.Props.FloatDescribe

/-!
# C135: the colour scale of the figure of energies in double precision
-/

set_option exponentiation.threshold 4000

namespace Verif
open PyFloat

/-! ### Specification -/

/-- What is used of `x ** -1`: it is on the right side of 1. -/
def Spec.GoodInverse (inv : PyFloat → PyFloat) : Prop :=
  ∀ q, 0 < q → IsDouble q → (q ≤ 1 → FloatClose.le (fin false 1) (inv (fin false q)) = true) ∧
    (1 ≤ q → FloatClose.le (inv (fin false q)) (fin false 1) = true)

/-- The colour scale from `lo` to `hi` for the entries `m i j` with `i ≤ L` and `a ≤ j ≤ 2 L`: from 0.1 to 1 if no entry is above `1e-8`;
otherwise up to the largest entry, from its inverse. -/
def Spec.ScaleOf (inv : PyFloat → PyFloat) (L a : ℕ) (m : ℕ → ℕ → PyFloat) (lo hi : PyFloat) : Prop :=
  ((∀ i ≤ L, ∀ j, a ≤ j → j ≤ 2 * L → (m i j).num ≤ 1e-8) ∧ lo = fin false (fl0 (1 / 10)) ∧ hi = fin false 1) ∨
  ((∃ i ≤ L, ∃ j, a ≤ j ∧ j ≤ 2 * L ∧ m i j = hi) ∧ (∀ i ≤ L, ∀ j, a ≤ j → j ≤ 2 * L → (m i j).num ≤ hi.num) ∧ 1e-8 < hi.num ∧
    lo = inv hi)

/-- The energies a type shows: radial, poloidal and toroidal ones as they are, in total poloidal and toroidal ones added. -/
def Spec.shown (name : Plots.Name) (er ep et : ℕ → ℕ → PyFloat) (i j : ℕ) : PyFloat := match name with
  | .radial => er i j
  | .poloidal => ep i j
  | .toroidal => et i j
  | .total => PyFloat.add (ep i j) (et i j)

/-- The exact energy of a pair that a type counts. -/
noncomputable def Spec.exactShown (name : Plots.Name) (r : FloatEnergy.ERow) : ℝ := match name with
  | .radial => specEnergy .alpha (Spec.exactCoef r)
  | .poloidal => specEnergy .alpha (Spec.exactCoef r) + specEnergy .beta (Spec.exactCoef r)
  | .toroidal => specEnergy .gamma (Spec.exactCoef r)
  | .total => specEnergy .alpha (Spec.exactCoef r) + specEnergy .beta (Spec.exactCoef r) + specEnergy .gamma (Spec.exactCoef r)

/-- A coefficient that the type counts is too large to be squared, other than a radial one of order 0. -/
def Spec.Spoils (name : Plots.Name) (r : FloatEnergy.ERow) : Prop := match name with
  | .radial => r.m ≠ 0 ∧ TooLarge r.a
  | .poloidal => (r.m ≠ 0 ∧ TooLarge r.a) ∨ TooLarge r.b
  | .toroidal => TooLarge r.g
  | .total => (r.m ≠ 0 ∧ TooLarge r.a) ∨ TooLarge r.b ∨ TooLarge r.g

open Spec

namespace FloatColour
open FloatEnergy FloatDegree FloatMatrix FloatRound

theorem mem_block {rows cols : ℕ} {a : ℕ → ℕ → PyFloat} {x : PyFloat} : x ∈ block rows cols a ↔ ∃ i < rows, ∃ j < cols, a i j = x := by
  simp [block]

theorem close_zero {x : PyFloat} (h : NN x) : isClose x (fin false 0) = true ↔ x.num ≤ 1e-8 := by
  obtain ⟨q, rfl, hd⟩ := h
  have e : (fin false q).num = q := rfl
  have e0 : (fin false 0).num = 0 := rfl
  simp only [isClose, decide_eq_true_eq, e, e0, sub_zero, abs_zero, mul_zero, add_zero, abs_of_nonneg hd.nonneg]

theorem zeroAll_iff {xs : List PyFloat} (h : ∀ x ∈ xs, NN x) : zeroAll xs = true ↔ ∀ x ∈ xs, x.num ≤ 1e-8 := by
  simp only [zeroAll, List.all_eq_true]
  exact forall₂_congr fun x hx => close_zero (h x hx)

theorem NN.finD {x : PyFloat} (h : NN x) : FinD x := h.fd

theorem range_core (inv : PyFloat → PyFloat) {xs : List PyFloat} (h : ∀ x ∈ xs, NN x) : ∃ lo hi, colourRange inv xs = .ok (lo, hi) ∧
    (((∀ x ∈ xs, x.num ≤ 1e-8) ∧ lo = fin false (fl0 (1 / 10)) ∧ hi = fin false 1) ∨
      (hi ∈ xs ∧ (∀ x ∈ xs, x.num ≤ hi.num) ∧ 1e-8 < hi.num ∧ lo = inv hi)) := by
  by_cases hz : ∀ x ∈ xs, x.num ≤ 1e-8
  · refine ⟨_, _, ?_, Or.inl ⟨hz, rfl, rfl⟩⟩
    rw [colourRange, if_pos ((zeroAll_iff h).2 hz)]
  · have hz' : ¬ zeroAll xs = true := fun e => hz ((zeroAll_iff h).1 e)
    push Not at hz
    obtain ⟨y, hy, y0⟩ := hz
    obtain ⟨m, e, hm, hmax⟩ := FloatDescribe.maximum_fin (xs := xs) (by rintro rfl; simp at hy) fun x hx => NN.finD (h x hx)
    have m0 : 1e-8 < m.num := lt_of_lt_of_le y0 (hmax y hy)
    have lt0 : ∀ {x}, NN x → 0 < x.num → FloatPfss.lt (fin false 0) x = true := fun hx h0 => by
      obtain ⟨q, rfl, hd⟩ := hx
      simpa [FloatPfss.lt, PyFloat.num] using h0
    have mf : m ∈ xs.filter fun x => FloatPfss.lt (fin false 0) x :=
      List.mem_filter.2 ⟨hm, lt0 (h m hm) (by norm_num at m0; linarith)⟩
    obtain ⟨m', e', hm', hmax'⟩ := FloatDescribe.maximum_fin (xs := xs.filter fun x => FloatPfss.lt (fin false 0) x)
      (by intro e; rw [e] at mf; simp at mf) fun x hx => NN.finD (h x (List.mem_filter.1 hx).1)
    have em : m' = m := by
      have h1 := hmax' m mf
      have h2 := hmax m' (List.mem_filter.1 hm').1
      obtain ⟨p, rfl, -⟩ := h m hm
      obtain ⟨q, rfl, -⟩ := h m' (List.mem_filter.1 hm').1
      exact congrArg (fin false) (le_antisymm h2 h1)
    refine ⟨inv m, m, ?_, Or.inr ⟨hm, hmax, m0, rfl⟩⟩
    rw [colourRange, if_neg hz', e, e', em]
    rfl

theorem named_nn {er ep et : ℕ → ℕ → PyFloat} (h : Good er ep et) (name : Plots.Name) (i j : ℕ) : NN (named name er ep et i j) := by
  cases name with
  | total =>
    refine (nn_add (h.nn i j).1 (h.tor i j).1 ((add_le_add (h.nn i j).2 (h.tor i j).2).trans ?_)).1
    rw [← two_mul, ← pow_succ']
    exact pow_le_pow_right₀ (by norm_num) (by norm_num)
  | radial => exact h.rad i j
  | poloidal => exact (h.nn i j).1
  | toroidal => exact (h.tor i j).1

theorem named_eq (name : Plots.Name) (er ep et : ℕ → ℕ → PyFloat) : named name er ep et = shown name er ep et := by
  cases name <;> rfl

theorem nn {er ep et : ℕ → ℕ → PyFloat} (h : Good er ep et) (name : Plots.Name) (i j : ℕ) : NN (shown name er ep et i j) := by
  rw [← named_eq]; exact named_nn h name i j

theorem matrix_good (z : List ERow) (hne : z ≠ []) (h : ∀ r ∈ z, |r.m| ≤ r.l) (hz : ∀ r ∈ z, RowIn 479 r) :
    ∃ (L : ℕ) (er ep et : ℕ → ℕ → PyFloat), energyMatrix z = .ok (L, er, ep, et) ∧ Good er ep et := by
  obtain ⟨L, -, -, h3⟩ := matrix_eq z hne h
  exact ⟨L, _, _, _, h3, good hz L⟩

/-- The energy shown for a row. -/
def rowShown (name : Plots.Name) (r : ERow) : PyFloat := match name with
  | .radial => En .alpha r
  | .poloidal => Pol r
  | .toroidal => En .gamma r
  | .total => add (Pol r) (En .gamma r)

theorem row_rel {r : ERow} (h : RowIn 479 r) (ha : AxialReal r) (name : Plots.Name) : RelF 6 (rowShown name r) (exactShown name r) := by
  have h' : RowIn 500 r := FloatEnergy.RowIn.mono (by norm_num) h
  cases name with
  | radial => exact (En_rel h' ha .alpha).mono (by norm_num)
  | poloidal => exact (Pol_rel h' ha).mono (by norm_num)
  | toroidal => exact (En_rel h' ha .gamma).mono (by norm_num)
  | total =>
    refine (Pol_rel h' ha).add ((En_rel h' ha .gamma).mono (by norm_num)) (by norm_num) ?_
    have a := (spec_size h .alpha).2
    have b := (spec_size h .beta).2
    have c := (spec_size h .gamma).2
    have e : (4 : ℝ) * 2 ^ (2 * 479 : ℤ) ≤ 2 ^ (1001 : ℤ) := by
      rw [show (4 : ℝ) = 2 ^ (2 : ℤ) by norm_num, ← zpow_add₀ (by norm_num)]
      exact zpow_le_zpow_right₀ (by norm_num) (by norm_num)
    have p : (0 : ℝ) ≤ 2 ^ (2 * 479 : ℤ) := by positivity
    unfold polE
    linarith

theorem row_err {r : ERow} (h : RowIn 479 r) (ha : AxialReal r) (name : Plots.Name) :
    |((rowShown name r).num : ℝ) - exactShown name r| ≤ 1 / 2 ^ 48 * exactShown name r ∧ 0 ≤ exactShown name r := by
  obtain ⟨q, e, -, hq⟩ := FloatMatrix.RelF.sum (row_rel h ha name) (by norm_num)
  exact ⟨by rw [e]; exact hq, (row_rel h ha name).nonneg⟩

theorem shown_at {z : List ERow} {L : ℕ} (h : ∀ s ∈ z, |s.m| ≤ s.l ∧ s.l ≤ L) (hn : (z.map fun r => (r.l, r.m)).Nodup) {r : ERow} (hr : r ∈ z)
    (name : Plots.Name) {i j : ℕ} (hi : (i : ℤ) = r.l) (hj : (j : ℤ) = r.m + L) :
    shown name (roll L (assign (z.map fun r => (at_ L r, En .alpha r)))) (roll L (assign (z.map fun r => (at_ L r, Pol r))))
      (roll L (assign (z.map fun r => (at_ L r, En .gamma r)))) i j = rowShown name r := by
  obtain ⟨u, v, rfl⟩ := List.append_of_mem hr
  have hv : ∀ s ∈ v, ¬ (s.l = r.l ∧ s.m = r.m) := fun s hs e => by
    rw [List.map_append, List.map_cons, List.nodup_append] at hn
    exact (List.nodup_cons.1 hn.2.1).1 (List.mem_map.2 ⟨s, hs, by rw [e.1, e.2]⟩)
  cases name <;> simp only [shown, rowShown, entry_last L u v r _ h hv hi hj]

theorem shown_none {z : List ERow} {L : ℕ} (h : ∀ s ∈ z, |s.m| ≤ s.l ∧ s.l ≤ L) (name : Plots.Name) {i j : ℕ} (hj : j ≤ 2 * L)
    (hz : ∀ s ∈ z, ¬ (s.l = i ∧ s.m + L = j)) :
    (shown name (roll L (assign (z.map fun r => (at_ L r, En .alpha r)))) (roll L (assign (z.map fun r => (at_ L r, Pol r))))
      (roll L (assign (z.map fun r => (at_ L r, En .gamma r)))) i j).num = 0 := by
  cases name <;> simp only [shown, entry_zero L z _ h hj hz] <;> decide +kernel

/-! ### Energies that are not numbers -/

theorem energy_nan (l m : ℤ) {c : PyFloat × PyFloat} (h : TooLarge c) (lt : Bool) (hc : m ≠ 0 ∨ lt = true) : (energyC l m c lt).1 = nan := by
  have h : Huge c.1 ∨ Huge c.2 := by
    obtain ⟨x, rfl | rfl, hx⟩ := h
    · exact Or.inl hx
    · exact Or.inr hx
  by_cases hl : lt = true
  · subst hl
    have h2 : (cadd (plain c) (zonal m c)).2 = nan := huge_energy l m h false
    show PyFloat.add _ (PyFloat.neg (PyFloat.mul (cadd (plain c) (zonal m c)).2 _)) = nan
    rw [h2]
    exact FloatEnergy.add_nan _
  · have hm : m ≠ 0 := hc.resolve_right hl
    rw [Bool.not_eq_true] at hl
    subst hl
    have hk : ∃ s, (cmul (fin false (if m = 0 then 1 else 0), fin false 0) (fin false (1 / 4), fin false 0)).1 = fin s 0 := by
      rw [if_neg hm]
      exact ⟨false, by decide +kernel⟩
    obtain ⟨s, hs⟩ := hk
    have hw : isFin (cadd (FloatEnergy.square c) (FloatEnergy.square (conj c))).1 = false := nonfin_add (Or.inl (huge_square h))
    have hz : (zonal m c).1 = nan := by
      show PyFloat.add (PyFloat.mul (cmul _ _).1 _) _ = nan
      rw [hs, zero_mul_nonfin hw, FloatReport.nan_add]
    show PyFloat.add _ (zonal m c).1 = nan
    rw [hz, FloatEnergy.add_nan]

theorem row_nan {name : Plots.Name} {r : ERow} (h : Spoils name r) : rowShown name r = nan := by
  have a : r.m ≠ 0 ∧ TooLarge r.a → En .alpha r = nan := fun h => energy_nan _ _ h.2 _ (Or.inl h.1)
  have b : TooLarge r.b → En .beta r = nan := fun h => energy_nan _ _ h _ (Or.inr rfl)
  have g : TooLarge r.g → En .gamma r = nan := fun h => energy_nan _ _ h _ (Or.inr rfl)
  have p : (r.m ≠ 0 ∧ TooLarge r.a) ∨ TooLarge r.b → Pol r = nan := fun h => by
    show PyFloat.add (En .alpha r) (En .beta r) = nan
    rcases h with h | h
    · rw [a h, FloatReport.nan_add]
    · rw [b h, FloatEnergy.add_nan]
  cases name with
  | radial => exact a h
  | poloidal => exact p h
  | toroidal => exact g h
  | total =>
    show PyFloat.add (Pol r) (En .gamma r) = nan
    rcases h with h | h | h
    · rw [p (Or.inl h), FloatReport.nan_add]
    · rw [p (Or.inr h), FloatReport.nan_add]
    · rw [g h, FloatEnergy.add_nan]

theorem fold_nan (xs : List PyFloat) : xs.foldl FloatDescribe.larger nan = nan := by
  induction xs with
  | nil => rfl
  | cons x xs ih => exact ih

theorem max_nan {xs : List PyFloat} (h : nan ∈ xs) : FloatDescribe.maximum xs = .ok nan := by
  cases xs with
  | nil => simp at h
  | cons x xs =>
    show Except.ok _ = _
    congr 1
    rcases List.mem_cons.1 h with rfl | h
    · exact fold_nan xs
    · obtain ⟨u, v, rfl⟩ := List.append_of_mem h
      rw [List.foldl_append, List.foldl_cons]
      have : ∀ y, FloatDescribe.larger y nan = nan := fun y => by cases y <;> rfl
      rw [this]
      exact fold_nan v

theorem range_nan (inv : PyFloat → PyFloat) {xs : List PyFloat} (h : nan ∈ xs) :
    ((∃ x ∈ xs, FloatPfss.lt (fin false 0) x = true) ∧ ∃ lo, colourRange inv xs = .ok (lo, nan)) ∨
    ((∀ x ∈ xs, FloatPfss.lt (fin false 0) x = false) ∧ colourRange inv xs = .error .value) := by
  have hz : ¬ zeroAll xs = true := fun e => by
    rw [zeroAll, List.all_eq_true] at e
    exact absurd (e nan h) (by decide)
  rw [colourRange, if_neg hz, max_nan h]
  cases hf : xs.filter fun x => FloatPfss.lt (fin false 0) x with
  | nil =>
    refine Or.inr ⟨fun x hx => ?_, rfl⟩
    have := List.filter_eq_nil_iff.1 hf x hx
    simpa using this
  | cons y ys =>
    have hy : y ∈ xs.filter fun x => FloatPfss.lt (fin false 0) x := by rw [hf]; exact List.mem_cons_self
    exact Or.inl ⟨⟨y, (List.mem_filter.1 hy).1, (List.mem_filter.1 hy).2⟩, _, rfl⟩

theorem shown_last {u v : List ERow} {r : ERow} {L : ℕ} (h : ∀ s ∈ u ++ r :: v, |s.m| ≤ s.l ∧ s.l ≤ L) (hv : ∀ s ∈ v, ¬ (s.l = r.l ∧ s.m = r.m))
    (name : Plots.Name) {i j : ℕ} (hi : (i : ℤ) = r.l) (hj : (j : ℤ) = r.m + L) :
    shown name (roll L (assign ((u ++ r :: v).map fun r => (at_ L r, En .alpha r)))) (roll L (assign ((u ++ r :: v).map fun r => (at_ L r, Pol r))))
      (roll L (assign ((u ++ r :: v).map fun r => (at_ L r, En .gamma r)))) i j = rowShown name r := by
  cases name <;> simp only [shown, rowShown, entry_last L u v r _ h hv hi hj]

end FloatColour

open FloatColour FloatDegree FloatMatrix FloatEnergy

/-- **C135.** With negative orders `_plot_energy` draws every set of coefficients with `|m| ≤ l` whose parts are zero or neither tiny nor
huge: the colour scale reaches up to the largest energy in the figure and starts at its inverse, or is 0.1 to 1 if no energy is above
`1e-8`. -/
theorem C135_range (inv : PyFloat → PyFloat) (z : List ERow) (hne : z ≠ []) (h : ∀ r ∈ z, |r.m| ≤ r.l) (hz : ∀ r ∈ z, RowIn 479 r)
    (name : Plots.Name) : ∃ (L : ℕ) (er ep et : ℕ → ℕ → PyFloat) (lo hi : PyFloat), energyMatrix z = .ok (L, er, ep, et) ∧
      plotEnergy inv z name true = .ok (lo, hi) ∧ ScaleOf inv L 0 (shown name er ep et) lo hi := by
  obtain ⟨L, er, ep, et, h3, g⟩ := matrix_good z hne h hz
  obtain ⟨lo, hi, e, hc⟩ := range_core inv (xs := block (L + 1) (2 * L + 1) (shown name er ep et)) (fun x hx => by
    obtain ⟨i, -, j, -, rfl⟩ := mem_block.1 hx
    exact FloatColour.nn g name i j)
  refine ⟨L, er, ep, et, lo, hi, h3, ?_, ?_⟩
  · rw [plotEnergy, h3]
    simp only [bind, Except.bind, if_true, named_eq]
    exact e
  · rcases hc with ⟨c1, c2⟩ | ⟨c1, c2, c3⟩
    · exact Or.inl ⟨fun i hi j _ hj => c1 _ (mem_block.2 ⟨i, by omega, j, by omega, rfl⟩), c2⟩
    · obtain ⟨i, h1, j, h2, e⟩ := mem_block.1 c1
      exact Or.inr ⟨⟨i, by omega, j, by omega, by omega, e⟩, fun i hi j _ hj => c2 _ (mem_block.2 ⟨i, by omega, j, by omega, rfl⟩), c3⟩

/-- **C135.** Without negative orders it draws exactly if no energy of negative order is above `1e-8`, with the colour scale of the other
orders; otherwise it raises `AssertionError`. -/
theorem C135_nonnegative (inv : PyFloat → PyFloat) (z : List ERow) (hne : z ≠ []) (h : ∀ r ∈ z, |r.m| ≤ r.l) (hz : ∀ r ∈ z, RowIn 479 r)
    (name : Plots.Name) : ∃ (L : ℕ) (er ep et : ℕ → ℕ → PyFloat), energyMatrix z = .ok (L, er, ep, et) ∧
      (((∀ i ≤ L, ∀ j < L, (shown name er ep et i j).num ≤ 1e-8) ∧ ∃ lo hi, plotEnergy inv z name false = .ok (lo, hi) ∧
          ScaleOf inv L L (shown name er ep et) lo hi) ∨
        ((∃ i ≤ L, ∃ j < L, 1e-8 < (shown name er ep et i j).num) ∧ plotEnergy inv z name false = .error .assertion)) := by
  obtain ⟨L, er, ep, et, h3, g⟩ := matrix_good z hne h hz
  refine ⟨L, er, ep, et, h3, ?_⟩
  have nb : ∀ x ∈ block (L + 1) L (shown name er ep et), NN x := fun x hx => by
    obtain ⟨i, -, j, -, rfl⟩ := mem_block.1 hx
    exact FloatColour.nn g name i j
  by_cases hzero : ∀ x ∈ block (L + 1) L (shown name er ep et), x.num ≤ 1e-8
  · refine Or.inl ⟨fun i hi j hj => hzero _ (mem_block.2 ⟨i, by omega, j, hj, rfl⟩), ?_⟩
    obtain ⟨lo, hi, e, hc⟩ := range_core inv (xs := block (L + 1) (L + 1) fun i j => shown name er ep et i (j + L)) (fun x hx => by
      obtain ⟨i, -, j, -, rfl⟩ := mem_block.1 hx
      exact FloatColour.nn g name i (j + L))
    refine ⟨lo, hi, ?_, ?_⟩
    · rw [plotEnergy, h3]
      simp only [bind, Except.bind, removeNegative, named_eq, resAssert, (zeroAll_iff nb).2 hzero, if_true, Bool.false_eq_true, if_false, pure, Except.pure]
      exact e
    · have key : ∀ i ≤ L, ∀ j, L ≤ j → j ≤ 2 * L → shown name er ep et i j ∈ block (L + 1) (L + 1) fun i j => shown name er ep et i (j + L) :=
        fun i hi j h1 h2 => mem_block.2 ⟨i, by omega, j - L, by omega, by rw [Nat.sub_add_cancel h1]⟩
      rcases hc with ⟨c1, c2⟩ | ⟨c1, c2, c3⟩
      · exact Or.inl ⟨fun i hi j h1 hj => c1 _ (key i hi j h1 hj), c2⟩
      · obtain ⟨i, h1, j, h2, e⟩ := mem_block.1 c1
        exact Or.inr ⟨⟨i, by omega, j + L, by omega, by omega, e⟩, fun i hi j h1 hj => c2 _ (key i hi j h1 hj), c3⟩
  · have hn : ¬ zeroAll (block (L + 1) L (shown name er ep et)) = true := fun e => hzero ((zeroAll_iff nb).1 e)
    push Not at hzero
    obtain ⟨x, hx, x0⟩ := hzero
    obtain ⟨i, h1, j, h2, rfl⟩ := mem_block.1 hx
    refine Or.inr ⟨⟨i, by omega, j, h2, x0⟩, ?_⟩
    rw [plotEnergy, h3]
    simp only [bind, Except.bind, removeNegative, named_eq, resAssert, Bool.false_eq_true, if_false]
    rw [if_neg hn]
    rfl

/-- **C135.** The scale is the wrong way round exactly if the largest energy is above `1e-8` and below 1: then it starts at 1 or more. -/
theorem C135_order (inv : PyFloat → PyFloat) (hI : GoodInverse inv) (L a : ℕ) (m : ℕ → ℕ → PyFloat) (lo hi : PyFloat)
    (hm : ∀ i ≤ L, ∀ j ≤ 2 * L, ∃ q, m i j = fin false q ∧ IsDouble q) (hs : ScaleOf inv L a m lo hi) :
    (FloatClose.le lo hi = true ↔ 1 ≤ hi.num) ∧ (hi.num < 1 → FloatClose.le (fin false 1) lo = true) := by
  rcases hs with ⟨-, rfl, rfl⟩ | ⟨⟨i, h1, j, -, h2, e⟩, -, h0, rfl⟩
  · constructor
    · refine iff_of_true ?_ le_rfl
      decide +kernel
    · intro h; exact absurd h (lt_irrefl _)
  · obtain ⟨q, e', hd⟩ := hm i h1 j h2
    rw [e] at e'
    subst e'
    have en : (fin false q).num = q := rfl
    rw [en] at h0 ⊢
    have q0 : 0 < q := by norm_num at h0; linarith
    obtain ⟨g1, g2⟩ := hI q q0 hd
    have trans : ∀ {x : PyFloat} {p r : ℚ}, FloatClose.le (fin false p) x = true → FloatClose.le x (fin false r) = true → p ≤ r := by
      intro x p r h1 h2
      cases x with
      | fin s t =>
        simp only [FloatClose.le, decide_eq_true_eq] at h1 h2
        exact h1.trans h2
      | inf s => cases s <;> simp [FloatClose.le] at h1 h2
      | nan => simp [FloatClose.le] at h1
    constructor
    · constructor
      · intro h
        by_contra hc
        rw [not_le] at hc
        exact absurd (trans (g1 hc.le) h) (by rw [not_le]; exact hc)
      · intro h
        have := g2 h
        generalize inv (fin false q) = x at *
        cases x with
        | fin s t =>
          simp only [FloatClose.le, decide_eq_true_eq] at this ⊢
          exact this.trans h
        | inf s => simpa [FloatClose.le] using this
        | nan => simp [FloatClose.le] at this
    · intro h; exact g1 h.le

/-- **C135.** So the figure of a field whose largest energy is above `1e-8` and below 1 has a scale the wrong way round. -/
theorem C135_reversed (inv : PyFloat → PyFloat) (hI : GoodInverse inv) (z : List ERow) (hne : z ≠ []) (h : ∀ r ∈ z, |r.m| ≤ r.l)
    (hz : ∀ r ∈ z, RowIn 479 r) (name : Plots.Name) : ∃ (L : ℕ) (er ep et : ℕ → ℕ → PyFloat) (lo hi : PyFloat),
      energyMatrix z = .ok (L, er, ep, et) ∧ plotEnergy inv z name true = .ok (lo, hi) ∧
      (FloatClose.le lo hi = false ↔ (∃ i ≤ L, ∃ j ≤ 2 * L, 1e-8 < (shown name er ep et i j).num) ∧
        ∀ i ≤ L, ∀ j ≤ 2 * L, (shown name er ep et i j).num < 1) := by
  obtain ⟨L, er, ep, et, lo, hi, h3, e, hs⟩ := C135_range inv z hne h hz name
  obtain ⟨L', er', ep', et', h3', g⟩ := matrix_good z hne h hz
  rw [h3] at h3'
  simp only [Except.ok.injEq, Prod.mk.injEq] at h3'
  obtain ⟨rfl, rfl, rfl, rfl⟩ := h3'
  refine ⟨L, er, ep, et, lo, hi, h3, e, ?_⟩
  have ho := (C135_order inv hI L 0 _ lo hi (fun i _ j _ => FloatColour.nn g name i j) hs).1
  rw [← Bool.not_eq_true, ho, not_le]
  rcases hs with ⟨h1, -, rfl⟩ | ⟨⟨i, h1, j, -, h2, e⟩, hm, h0, -⟩
  · refine iff_of_false (lt_irrefl _) ?_
    rintro ⟨⟨i, hi, j, hj, h⟩, -⟩
    exact absurd (h1 i hi j (Nat.zero_le _) hj) (by rw [not_le]; exact h)
  · constructor
    · intro h
      exact ⟨⟨i, h1, j, h2, by rw [e]; exact h0⟩, fun i hi j hj => lt_of_le_of_lt (hm i hi j (Nat.zero_le _) hj) h⟩
    · rintro ⟨-, h⟩
      rw [← e]
      exact h i h1 j h2

/-- **C135.** The upper end is the largest exact energy of a pair, up to a relative error of `2 ^ -48`: no pair twice, and the axisymmetric
coefficients real. -/
theorem C135_field (inv : PyFloat → PyFloat) (z : List ERow) (hne : z ≠ []) (h : ∀ r ∈ z, |r.m| ≤ r.l)
    (hn : (z.map fun r => (r.l, r.m)).Nodup) (hz : ∀ r ∈ z, RowIn 479 r ∧ AxialReal r) (name : Plots.Name) :
    ∃ lo hi, plotEnergy inv z name true = .ok (lo, hi) ∧
      (((∀ r ∈ z, exactShown name r ≤ 1.01e-8) ∧ lo = fin false (fl0 (1 / 10)) ∧ hi = fin false 1) ∨
        ((∃ r ∈ z, |(hi.num : ℝ) - exactShown name r| ≤ 1 / 2 ^ 48 * exactShown name r) ∧
          (∀ r ∈ z, exactShown name r ≤ (1 + 1 / 2 ^ 47) * hi.num) ∧ lo = inv hi)) := by
  obtain ⟨L', er, ep, et, lo, hi, em, e, hs⟩ := C135_range inv z hne h (fun r hr => (hz r hr).1) name
  obtain ⟨L, h1, h2, h3⟩ := matrix_eq z hne h
  rw [h3] at em
  simp only [Except.ok.injEq, Prod.mk.injEq] at em
  obtain ⟨rfl, rfl, rfl, rfl⟩ := em
  have hb : ∀ s ∈ z, |s.m| ≤ s.l ∧ s.l ≤ L := fun s hs => ⟨h s hs, h2 s hs⟩
  refine ⟨lo, hi, e, ?_⟩
  have bound : ∀ r ∈ z, exactShown name r ≤ (1 + 1 / 2 ^ 47) * ((rowShown name r).num : ℝ) := fun r hr => by
    obtain ⟨a, b⟩ := row_err (hz r hr).1 (hz r hr).2 name
    have := (abs_le.1 a).1
    norm_num at this ⊢
    linarith
  have pos : ∀ r ∈ z, ∃ i ≤ L, ∃ j ≤ 2 * L, (i : ℤ) = r.l ∧ (j : ℤ) = r.m + L := fun r hr => by
    obtain ⟨h4, h5⟩ := hb r hr
    obtain ⟨h6, h7⟩ := abs_le.1 h4
    exact ⟨r.l.toNat, by omega, (r.m + L).toNat, by omega, by omega, by omega⟩
  rcases hs with ⟨s1, s2⟩ | ⟨⟨i, i1, j, -, j1, s1⟩, s2, s3, s4⟩
  · refine Or.inl ⟨fun r hr => (bound r hr).trans ?_, s2⟩
    obtain ⟨i, hi, j, hj, e1, e2⟩ := pos r hr
    have := s1 i hi j (Nat.zero_le _) hj
    rw [shown_at hb hn hr name e1 e2] at this
    have : ((rowShown name r).num : ℝ) ≤ ((1e-8 : ℚ) : ℝ) := by exact_mod_cast this
    norm_num at this ⊢
    linarith
  · refine Or.inr ⟨?_, fun r hr => (bound r hr).trans ?_, s4⟩
    · by_cases hx : ∃ r ∈ z, r.l = i ∧ r.m + L = j
      · obtain ⟨r, hr, e1, e2⟩ := hx
        refine ⟨r, hr, ?_⟩
        rw [← s1, shown_at hb hn hr name e1.symm e2.symm]
        exact (row_err (hz r hr).1 (hz r hr).2 name).1
      · rw [← s1, shown_none hb name j1 fun s hs e => hx ⟨s, hs, e⟩] at s3
        norm_num at s3
    · obtain ⟨i, hi', j, hj, e1, e2⟩ := pos r hr
      have := s2 i hi' j (Nat.zero_le _) hj
      rw [shown_at hb hn hr name e1 e2] at this
      have : ((rowShown name r).num : ℝ) ≤ (hi.num : ℝ) := by exact_mod_cast this
      exact mul_le_mul_of_nonneg_left this (by positivity)

/-- **C132.** An entry of the matrix whose coefficient overflows is not only no number but nan, except perhaps the radial and poloidal ones of
a radial coefficient of order 0. -/
theorem C132_nan (u v : List ERow) (r : ERow) (h : ∀ s ∈ u ++ r :: v, |s.m| ≤ s.l) (hv : ∀ s ∈ v, ¬ (s.l = r.l ∧ s.m = r.m)) :
    ∃ (L : ℕ) (er ep et : ℕ → ℕ → PyFloat), energyMatrix (u ++ r :: v) = .ok (L, er, ep, et) ∧
      ∀ i j : ℕ, (i : ℤ) = r.l → (j : ℤ) = r.m + L → (r.m ≠ 0 → TooLarge r.a → er i j = nan ∧ ep i j = nan) ∧
        (TooLarge r.b → ep i j = nan) ∧ (TooLarge r.g → et i j = nan) := by
  obtain ⟨L, -, h2, h3⟩ := matrix_eq (u ++ r :: v) (by simp) h
  have hb : ∀ s ∈ u ++ r :: v, |s.m| ≤ s.l ∧ s.l ≤ L := fun s hs => ⟨h s hs, h2 s hs⟩
  refine ⟨L, _, _, _, h3, fun i j hi hj => ?_⟩
  have e := fun name (hs : Spoils name r) => (shown_last hb hv name hi hj).trans (row_nan hs)
  exact ⟨fun hm ha => ⟨e .radial ⟨hm, ha⟩, e .poloidal (Or.inl ⟨hm, ha⟩)⟩, fun hb => e .poloidal (Or.inr hb), fun hg => e .toroidal hg⟩

/-- **C135.** If the last row of a pair has a coefficient that overflows in the energy shown (other than a radial one of order 0), the scale
has no upper end: `vmax` is nan if there is any energy above 0, and otherwise the maximum of no numbers raises `ValueError`; whatever the other
coefficients are. -/
theorem C135_overflow (inv : PyFloat → PyFloat) (u v : List ERow) (r : ERow) (h : ∀ s ∈ u ++ r :: v, |s.m| ≤ s.l)
    (hv : ∀ s ∈ v, ¬ (s.l = r.l ∧ s.m = r.m)) (name : Plots.Name) (hs : Spoils name r) :
    ∃ (L : ℕ) (er ep et : ℕ → ℕ → PyFloat), energyMatrix (u ++ r :: v) = .ok (L, er, ep, et) ∧
      (((∃ i ≤ L, ∃ j ≤ 2 * L, FloatPfss.lt (fin false 0) (shown name er ep et i j) = true) ∧
          ∃ lo, plotEnergy inv (u ++ r :: v) name true = .ok (lo, nan)) ∨
        ((∀ i ≤ L, ∀ j ≤ 2 * L, FloatPfss.lt (fin false 0) (shown name er ep et i j) = false) ∧
          plotEnergy inv (u ++ r :: v) name true = .error .value)) := by
  obtain ⟨L, -, h2, h3⟩ := matrix_eq (u ++ r :: v) (by simp) h
  have hb : ∀ s ∈ u ++ r :: v, |s.m| ≤ s.l ∧ s.l ≤ L := fun s hs => ⟨h s hs, h2 s hs⟩
  obtain ⟨h4, h5⟩ := hb r (by simp)
  obtain ⟨h6, h7⟩ := abs_le.1 h4
  have e := shown_last hb hv name (i := r.l.toNat) (j := (r.m + L).toNat) (by omega) (by omega)
  rw [row_nan hs] at e
  refine ⟨L, _, _, _, h3, ?_⟩
  rw [plotEnergy, h3]
  simp only [bind, Except.bind, if_true, named_eq]
  generalize roll L (assign ((u ++ r :: v).map fun r => (at_ L r, En .alpha r))) = er at *
  generalize roll L (assign ((u ++ r :: v).map fun r => (at_ L r, Pol r))) = ep at *
  generalize roll L (assign ((u ++ r :: v).map fun r => (at_ L r, En .gamma r))) = et at *
  rcases range_nan inv (xs := block (L + 1) (2 * L + 1) (shown name er ep et)) (mem_block.2 ⟨_, by omega, _, by omega, e⟩) with ⟨⟨x, hx, h0⟩, hr⟩ | ⟨h0, hr⟩
  · obtain ⟨i, hi, j, hj, rfl⟩ := mem_block.1 hx
    exact Or.inl ⟨⟨i, by omega, j, by omega, h0⟩, hr⟩
  · exact Or.inr ⟨fun i hi j hj => h0 _ (mem_block.2 ⟨i, by omega, j, by omega, rfl⟩), hr⟩

/-- **C135.** Without negative orders such a row of negative order always ends in `AssertionError`, and one of another order leaves no scale
with an upper end either: what is returned, if anything, has `vmax = nan`. -/
theorem C135_overflow_nonnegative (inv : PyFloat → PyFloat) (u v : List ERow) (r : ERow) (h : ∀ s ∈ u ++ r :: v, |s.m| ≤ s.l)
    (hv : ∀ s ∈ v, ¬ (s.l = r.l ∧ s.m = r.m)) (name : Plots.Name) (hs : Spoils name r) :
    (r.m < 0 → plotEnergy inv (u ++ r :: v) name false = .error .assertion) ∧
      (plotEnergy inv (u ++ r :: v) name false = .error .assertion ∨ plotEnergy inv (u ++ r :: v) name false = .error .value ∨
        ∃ lo, plotEnergy inv (u ++ r :: v) name false = .ok (lo, nan)) := by
  obtain ⟨L, -, h2, h3⟩ := matrix_eq (u ++ r :: v) (by simp) h
  have hb : ∀ s ∈ u ++ r :: v, |s.m| ≤ s.l ∧ s.l ≤ L := fun s hs => ⟨h s hs, h2 s hs⟩
  obtain ⟨h4, h5⟩ := hb r (by simp)
  obtain ⟨h6, h7⟩ := abs_le.1 h4
  have e := shown_last hb hv name (i := r.l.toNat) (j := (r.m + L).toNat) (by omega) (by omega)
  rw [row_nan hs] at e
  rw [plotEnergy, h3]
  simp only [bind, Except.bind, removeNegative, named_eq, resAssert, Bool.false_eq_true, if_false]
  generalize roll L (assign ((u ++ r :: v).map fun r => (at_ L r, En .alpha r))) = er at *
  generalize roll L (assign ((u ++ r :: v).map fun r => (at_ L r, Pol r))) = ep at *
  generalize roll L (assign ((u ++ r :: v).map fun r => (at_ L r, En .gamma r))) = et at *
  by_cases hm : r.m < 0
  · have hn : ¬ zeroAll (block (L + 1) L (shown name er ep et)) = true := fun k => by
      rw [zeroAll, List.all_eq_true] at k
      exact absurd (k nan (mem_block.2 ⟨_, by omega, _, by omega, e⟩)) (by decide)
    rw [if_neg hn]
    exact ⟨fun _ => rfl, Or.inl rfl⟩
  · refine ⟨fun k => absurd k hm, ?_⟩
    by_cases hn : zeroAll (block (L + 1) L (shown name er ep et)) = true
    · rw [if_pos hn]
      refine Or.inr ?_
      rcases range_nan inv (xs := block (L + 1) (L + 1) fun i j => shown name er ep et i (j + L))
        (mem_block.2 ⟨r.l.toNat, by omega, r.m.toNat, by omega, by rw [← e]; congr 1; omega⟩) with ⟨-, hr⟩ | ⟨-, hr⟩
      · exact Or.inr hr
      · exact Or.inl hr
    · rw [if_neg hn]
      exact Or.inl rfl

/-! ### Examples -/

/-- The quotient `1 / x` is such an inverse. -/
theorem FloatColour.exInverse : GoodInverse fun x => div (fin false 1) x := by
  intro q q0 hd
  have e : div (fin false 1) (fin false q) = ofMag false (1 / q) := by
    simp only [div, if_neg q0.ne', bne_self_eq_false]
  have one : IsDouble 1 := ⟨1, 0, by norm_num, by norm_num, by norm_num, by norm_num⟩
  simp only [e, ofMag]
  constructor
  · intro h
    have := FloatCoords.le_fl0 one (one_div_pos.2 q0) ((le_div_iff₀ q0).2 (by linarith))
    split_ifs
    · rfl
    · simpa [FloatClose.le, PyFloat.num] using this
  · intro h
    have := FloatCoords.fl0_le one (one_div_pos.2 q0).le ((div_le_one q0).2 h)
    rw [if_neg (by have : (1 : ℚ) < 2 ^ (1024 : ℤ) := one_lt_zpow₀ (by norm_num) (by norm_num)
                   linarith)]
    simpa [FloatClose.le, PyFloat.num] using this

example := C135_range (fun x => div (fin false 1) x) exQuad (by simp [exQuad]) (by simp [exQuad])
  (fun r hr => RowIn.mono (by norm_num) (exQuad_ok r hr).1) .total
example := C135_nonnegative (fun x => div (fin false 1) x) exQuad (by simp [exQuad]) (by simp [exQuad])
  (fun r hr => RowIn.mono (by norm_num) (exQuad_ok r hr).1) .poloidal
example := C135_reversed _ FloatColour.exInverse exQuad (by simp [exQuad]) (by simp [exQuad])
  (fun r hr => RowIn.mono (by norm_num) (exQuad_ok r hr).1) .radial

example := C135_field (fun x => div (fin false 1) x) exQuad (by simp [exQuad]) (by simp [exQuad]) (by decide)
  (fun r hr => ⟨RowIn.mono (by norm_num) (exQuad_ok r hr).1, (exQuad_ok r hr).2⟩) .total

example := C135_overflow (fun x => div (fin false 1) x) exQuad [] ⟨2, 2, (fin false (2 ^ 512), fin false 0), exInt 0, exInt 0⟩ (by simp [exQuad])
  (by simp) .radial ⟨by norm_num, _, Or.inl rfl, Or.inr ⟨_, _, rfl, by norm_num⟩⟩

example := C135_overflow_nonnegative (fun x => div (fin false 1) x) exQuad [] ⟨2, -2, (fin false (2 ^ 512), fin false 0), exInt 0, exInt 0⟩
  (by simp [exQuad]) (by simp) .radial ⟨by norm_num, _, Or.inl rfl, Or.inr ⟨_, _, rfl, by norm_num⟩⟩

example := C132_nan exQuad [] ⟨2, 2, (fin false (2 ^ 512), fin false 0), exInt 0, exInt 0⟩ (by simp [exQuad]) (by simp)

/-- Both cases of overflow. -/
example : (plotEnergy (fun x => div (fin false 1) x) [⟨1, 1, (inf false, fin false 0), exInt 0, exInt 0⟩] .radial true = .error .value) ∧
    plotEnergy (fun x => div (fin false 1) x) [⟨1, 1, (inf false, fin false 0), exInt 0, exInt 0⟩, ⟨1, 0, exInt 2, exInt 0, exInt 0⟩] .radial true =
      .ok (fin false (1 / 4), nan) := by decide +kernel

/-- A radial coefficient of order 0 that overflows: the scale goes from 0 to infinity. -/
example : plotEnergy (fun x => div (fin false 1) x) [⟨1, 0, (fin false (2 ^ 600), fin false 0), exInt 0, exInt 0⟩] .radial true =
    .ok (fin false 0, inf false) := by decide +kernel

/-- The radial energies of this field are at most 1/2: the scale goes from 2 to 1/2. -/
example : plotEnergy (fun x => div (fin false 1) x) exQuad .radial true = .ok (fin false 2, fin false (1 / 2)) := by decide +kernel

/-- The poloidal energies reach up to 3.5. -/
example : (plotEnergy (fun x => div (fin false 1) x) exQuad .poloidal false).toOption.map Prod.snd = some (fin false (7 / 2)) := by
  decide +kernel

/-- The case of a negative order. -/
example : plotEnergy (fun x => div (fin false 1) x) [⟨1, -1, exInt 1, exInt 0, exInt 0⟩] .total false = .error .assertion := by
  decide +kernel

end Verif
