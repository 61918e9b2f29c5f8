import Verif.Model.EnergyFigure
import Verif.Props.Plots
import Verif.Lemmas.Zdi

/-!
# C89: the figure of energy matrices
-/

namespace Verif
open Plots EnergyFigure

/-- A well-formed magnetogram: some rows, orders within their degrees, no pair twice. -/
def Spec.GoodRows (z : Zdi) : Prop := z ≠ [] ∧ (∀ r ∈ z, |r.m| ≤ r.l) ∧ (z.map fun r => (r.l, r.m)).Nodup

/-- The four words and what they stand for. -/
inductive Spec.Word : String → Plots.Name → Prop
  | total : Word "total" .total
  | radial : Word "radial" .radial
  | poloidal : Word "poloidal" .poloidal
  | toroidal : Word "toroidal" .toroidal

/-- The energy of a degree and an order: that of the row, if there is one. -/
def Spec.IsEnergy (z : Zdi) (n : Plots.Name) (l m : ℤ) (e : ℝ) : Prop :=
  (∃ r ∈ z, r.l = l ∧ r.m = m ∧ e = Spec.plotValue n r) ∨ (∀ r ∈ z, ¬ (r.l = l ∧ r.m = m)) ∧ e = 0

open Spec

namespace EnergyFigure

theorem nameOf_iff (s : String) (n : Plots.Name) : nameOf s = .ok n ↔ Word s n := by
  constructor
  · intro h
    rw [nameOf.eq_def] at h
    split at h <;> cases h <;> constructor
  · rintro (_ | _ | _ | _) <;> rfl

theorem nameOf_word {s : String} {n : Plots.Name} (h : Word s n) : nameOf s = .ok n := (nameOf_iff s n).2 h

theorem nameOf_error {s : String} (h : ∀ n, ¬ Word s n) : nameOf s = .error .key := by
  rw [nameOf.eq_def]
  split
  · exact absurd Word.total (h _)
  · exact absurd Word.radial (h _)
  · exact absurd Word.poloidal (h _)
  · exact absurd Word.toroidal (h _)
  · rfl

/-- What one panel is. -/
theorem panel_spec {z : Zdi} (hz : GoodRows z) : ∃ L : ℕ, (∃ r ∈ z, r.l = L) ∧ (∀ r ∈ z, r.l ≤ L) ∧
    ∀ (n : Plots.Name), ∃ a : ℕ → ℕ → ℝ, (∀ i j : ℕ, j ≤ 2 * L → IsEnergy z n i ((j : ℤ) - L) (a i j)) ∧
    ∀ (s : String) (negative : Bool), Word s n → ∀ c, plotEnergy z n negative = .ok c → panel z negative s = .ok {
      rows := L + 1
      cols := if negative then 2 * L + 1 else L + 1
      image := if negative then a else fun i j => a i (j + L)
      scale := c
      title := s
      label := fun t => if L + 1 ≠ (if negative then 2 * L + 1 else L + 1) then
        (toInt (t - ((if negative then 2 * L + 1 else L + 1) / 2 : ℕ)) : ℝ) else t } := by
  obtain ⟨hne, h, hn⟩ := hz
  obtain ⟨L, er, ep, et, hm, h1, h2, h3, h4, -⟩ := C43_matrix z hne h hn
  refine ⟨L, h1, h2, fun n => ⟨pick n er ep et, fun i j hj => ?_, fun s negative hw c hc => ?_⟩⟩
  · by_cases hr : ∃ r ∈ z, r.l = i ∧ r.m + L = j
    · obtain ⟨r, hr, e1, e2⟩ := hr
      obtain ⟨k1, k2, k3⟩ := h3 r hr i j e1.symm e2.symm
      refine Or.inl ⟨r, hr, e1, by omega, ?_⟩
      cases n <;> simp only [pick, Spec.plotValue, k1, k2, k3]
    · push Not at hr
      obtain ⟨k1, k2, k3⟩ := h4 i j hj fun r hr' hc => hr r hr' hc.1 hc.2
      refine Or.inr ⟨fun r hr' hc => hr r hr' hc.1 (by omega), ?_⟩
      cases n <;> simp only [pick, k1, k2, k3, add_zero]
  · rw [panel, hm]
    simp only [bind, Except.bind, nameOf_word hw, hc]
    rfl

/-- Errors of one panel. -/
theorem panel_error {z : Zdi} (hz : GoodRows z) {s : String} (negative : Bool) (h : ∀ n, ¬ Word s n) :
    panel z negative s = .error .key := by
  obtain ⟨hne, h', hn⟩ := hz
  obtain ⟨L, er, ep, et, hm, -⟩ := C43_matrix z hne h' hn
  rw [panel, hm]
  simp only [bind, Except.bind, nameOf_error h]

theorem panel_refused {z : Zdi} (hz : GoodRows z) {s : String} {n : Plots.Name} (hw : Word s n) {negative : Bool} {e : Err}
    (h : plotEnergy z n negative = .error e) : panel z negative s = .error e := by
  obtain ⟨hne, h', hn⟩ := hz
  obtain ⟨L, er, ep, et, hm, -⟩ := C43_matrix z hne h' hn
  rw [panel, hm]
  simp only [bind, Except.bind, nameOf_word hw, h]

theorem mapM_ok_iff {β γ : Type} (f : β → Res γ) (xs : List β) : (∃ ys, xs.mapM f = .ok ys) ↔ ∀ x ∈ xs, ∃ y, f x = .ok y := by
  induction xs with
  | nil => simp [pure, Except.pure]
  | cons x xs ih =>
    rw [List.mapM_cons]
    rcases hx : f x with e | y
    · simp [hx, bind, Except.bind]
    · rcases hm : xs.mapM f with e | ys
      · have : ¬ ∀ x ∈ xs, ∃ y, f x = .ok y := by
          rw [← ih, hm]
          simp
        simp only [bind, Except.bind, reduceCtorEq, exists_false, false_iff]
        exact fun h => this fun x hx => h x (List.mem_cons_of_mem _ hx)
      · have : ∀ x ∈ xs, ∃ y, f x = .ok y := ih.1 ⟨ys, hm⟩
        simp only [bind, Except.bind, pure, Except.pure, Except.ok.injEq, exists_eq', List.mem_cons, forall_eq_or_imp, hx,
          true_and, true_iff]
        exact this

theorem mapM_forall {β γ : Type} (f : β → Res γ) (xs : List β) (ys : List γ) (h : xs.mapM f = .ok ys) :
    List.Forall₂ (fun x y => f x = .ok y) xs ys := by
  induction xs generalizing ys with
  | nil =>
    cases h
    exact .nil
  | cons x xs ih =>
    rw [List.mapM_cons] at h
    rcases hx : f x with e | y
    · simp [hx, bind, Except.bind] at h
    · rcases hm : xs.mapM f with e | ys'
      · simp [hx, hm, bind, Except.bind] at h
      · simp only [hx, hm, bind, Except.bind, pure, Except.pure, Except.ok.injEq] at h
        subst h
        exact .cons hx (ih _ hm)

theorem plot_iff (z : Zdi) (types : TypesArg) (negative : Bool) (axs : Option ℕ) (ps : List Panel) :
    plotMatrix z types negative axs = .ok ps ↔
      (types.list.take (axs.getD types.list.length)).mapM (panel z negative) = .ok ps ∧ ps ≠ [] := by
  rw [plotMatrix]
  cases axs with
  | none =>
    rw [axesCount, Option.getD_none]
    by_cases h : types.list.length = 0
    · rw [if_pos h]
      have : types.list = [] := List.length_eq_zero_iff.1 h
      simp only [bind, Except.bind, reduceCtorEq, this, List.take_nil, List.mapM_nil, pure, Except.pure, Except.ok.injEq,
        false_iff]
      rintro ⟨rfl, h⟩
      exact h rfl
    · rw [if_neg h]
      simp only [bind, Except.bind]
      rcases hm : (types.list.take types.list.length).mapM (panel z negative) with e | ys
      · simp
      · simp only [Except.ok.injEq]
        split_ifs with h0
        · have := List.length_eq_zero_iff.1 h0
          simp only [reduceCtorEq, false_iff, this]
          rintro ⟨rfl, h⟩
          exact h rfl
        · simp only [Except.ok.injEq]
          constructor
          · rintro rfl
            exact ⟨rfl, fun h => h0 (by rw [h]; rfl)⟩
          · exact And.left
  | some n =>
    rw [axesCount, Option.getD_some]
    simp only [bind, Except.bind]
    rcases hm : (types.list.take n).mapM (panel z negative) with e | ys
    · simp
    · simp only [Except.ok.injEq]
      split_ifs with h0
      · have := List.length_eq_zero_iff.1 h0
        simp only [reduceCtorEq, false_iff, this]
        rintro ⟨rfl, h⟩
        exact h rfl
      · simp only [Except.ok.injEq]
        constructor
        · rintro rfl
          exact ⟨rfl, fun h => h0 (by rw [h]; rfl)⟩
        · exact And.left

end EnergyFigure

/-- **C89.** With negative orders the figure is drawn for all magnetograms exactly if the types that get axes are known words,
and there is one. -/
theorem C89_defined (z : Zdi) (hz : GoodRows z) (types : TypesArg) (axs : Option ℕ) :
    (∃ ps, plotMatrix z types true axs = .ok ps) ↔
      (∀ s ∈ types.list.take (axs.getD types.list.length), ∃ n, Word s n) ∧ types.list.take (axs.getD types.list.length) ≠ [] := by
  simp only [plot_iff]
  set xs := types.list.take (axs.getD types.list.length) with hxs
  have hp : ∀ s, (∃ p, panel z true s = .ok p) ↔ ∃ n, Word s n := by
    intro s
    constructor
    · rintro ⟨p, h⟩
      by_contra hw
      push Not at hw
      rw [panel_error hz true hw] at h
      cases h
    · rintro ⟨n, hw⟩
      obtain ⟨c, hc, -⟩ := C63_colour z n hz.1 hz.2.1 hz.2.2
      obtain ⟨L, -, -, h⟩ := panel_spec hz
      obtain ⟨a, -, ha⟩ := h n
      exact ⟨_, ha s true hw c hc⟩
  simp only [← hp, ← mapM_ok_iff]
  constructor
  · rintro ⟨ps, h1, h2⟩
    refine ⟨⟨ps, h1⟩, fun h => h2 ?_⟩
    rw [h] at h1
    cases h1
    rfl
  · rintro ⟨⟨ps, h1⟩, h2⟩
    refine ⟨ps, h1, fun h => h2 ?_⟩
    have := (mapM_forall _ _ _ h1).length_eq
    rw [h] at this
    exact List.length_eq_zero_iff.1 this

/-- **C89.** Without negative orders it is drawn exactly if in addition no coefficient of negative order has energy of a drawn
type. -/
theorem C89_nonnegative (z : Zdi) (hz : GoodRows z) (types : TypesArg) (axs : Option ℕ) :
    (∃ ps, plotMatrix z types false axs = .ok ps) ↔
      (∀ s ∈ types.list.take (axs.getD types.list.length), ∃ n, Word s n ∧ ∀ r ∈ z, r.m < 0 → Spec.plotValue n r ≤ 1e-8) ∧
        types.list.take (axs.getD types.list.length) ≠ [] := by
  simp only [plot_iff]
  set xs := types.list.take (axs.getD types.list.length) with hxs
  have hp : ∀ s, (∃ p, panel z false s = .ok p) ↔ ∃ n, Word s n ∧ ∀ r ∈ z, r.m < 0 → Spec.plotValue n r ≤ 1e-8 := by
    intro s
    constructor
    · rintro ⟨p, h⟩
      by_contra hw
      push Not at hw
      by_cases hk : ∃ n, Word s n
      · obtain ⟨n, hn⟩ := hk
        obtain ⟨r, hr, h1, h2⟩ := hw n hn
        rw [panel_refused hz hn ((C63_colour_nonneg z n hz.1 hz.2.1 hz.2.2).1 ⟨r, hr, h1, h2⟩)] at h
        cases h
      · push Not at hk
        rw [panel_error hz false hk] at h
        cases h
    · rintro ⟨n, hw, hr⟩
      obtain ⟨c, hc, -⟩ := (C63_colour_nonneg z n hz.1 hz.2.1 hz.2.2).2 hr
      obtain ⟨L, -, -, h⟩ := panel_spec hz
      obtain ⟨a, -, ha⟩ := h n
      exact ⟨_, ha s false hw c hc⟩
  simp only [← hp, ← mapM_ok_iff]
  constructor
  · rintro ⟨ps, h1, h2⟩
    refine ⟨⟨ps, h1⟩, fun h => h2 ?_⟩
    rw [h] at h1
    cases h1
    rfl
  · rintro ⟨⟨ps, h1⟩, h2⟩
    refine ⟨ps, h1, fun h => h2 ?_⟩
    have := (mapM_forall _ _ _ h1).length_eq
    rw [h] at this
    exact List.length_eq_zero_iff.1 this

/-- **C89.** Each panel shows the energies of its type: at row `l` and column `m + L` (with negative orders) or `m` (without) that
of degree `l` and order `m`, up to the highest degree; the colour scale is that of the energies shown. -/
theorem C89_shows (z : Zdi) (hz : GoodRows z) (types : TypesArg) (negative : Bool) (axs : Option ℕ) (ps : List Panel)
    (h : plotMatrix z types negative axs = .ok ps) : ∃ L : ℕ, (∃ r ∈ z, r.l = L) ∧ (∀ r ∈ z, r.l ≤ L) ∧
      List.Forall₂ (fun s p => p.title = s ∧ p.rows = L + 1 ∧ p.cols = (if negative then 2 * L + 1 else L + 1) ∧
        ∃ n, Word s n ∧ (∀ i : ℕ, i < p.rows → ∀ j : ℕ, j < p.cols → IsEnergy z n i (if negative then (j : ℤ) - L else j) (p.image i j)) ∧
          ColourScale ((z.filter fun r : ZRow => negative || decide (0 ≤ r.m)).map (Spec.plotValue n)) p.scale)
        (types.list.take (axs.getD types.list.length)) ps := by
  obtain ⟨L, h1, h2, hspec⟩ := panel_spec hz
  refine ⟨L, h1, h2, ?_⟩
  refine (mapM_forall _ _ _ ((plot_iff _ _ _ _ _).1 h).1).imp ?_
  intro s p hp
  have hw : ∃ n, Word s n := by
    by_contra hk
    push Not at hk
    rw [panel_error hz negative hk] at hp
    cases hp
  obtain ⟨n, hw⟩ := hw
  rcases hc : plotEnergy z n negative with e | c
  · rw [panel_refused hz hw hc] at hp
    cases hp
  · obtain ⟨a, ha, hs⟩ := hspec n
    rw [hs s negative hw c hc] at hp
    cases hp
    refine ⟨rfl, rfl, rfl, n, hw, fun i hi j hj => ?_, ?_⟩
    swap
    · cases negative with
      | true =>
        obtain ⟨c', hc', hs'⟩ := C63_colour z n hz.1 hz.2.1 hz.2.2
        rw [hc] at hc'
        cases hc'
        simpa using hs'
      | false =>
        by_cases hr : ∃ r ∈ z, r.m < 0 ∧ 1e-8 < Spec.plotValue n r
        · rw [(C63_colour_nonneg z n hz.1 hz.2.1 hz.2.2).1 hr] at hc
          cases hc
        · push Not at hr
          obtain ⟨c', hc', hs'⟩ := (C63_colour_nonneg z n hz.1 hz.2.1 hz.2.2).2 hr
          rw [hc] at hc'
          cases hc'
          simpa using hs'
    cases negative with
    | true =>
      simp only [if_true] at hj ⊢
      exact ha i j (by omega)
    | false =>
      simp only [Bool.false_eq_true, if_false] at hj ⊢
      have := ha i (j + L) (by omega)
      rwa [show (((j + L : ℕ) : ℤ) - L) = j by push_cast; ring] at this

/-- **C89 (violated).** Of more types than axes the last are left out without a word: there are as many panels as the smaller of
the two numbers; with the default axes there is one for each type. -/
theorem C89_count (z : Zdi) (types : TypesArg) (negative : Bool) (axs : Option ℕ) (ps : List Panel)
    (h : plotMatrix z types negative axs = .ok ps) :
    ps.length = min (axs.getD types.list.length) types.list.length ∧
    (ps.length = types.list.length ↔ types.list.length ≤ axs.getD types.list.length) := by
  have := (mapM_forall _ _ _ ((plot_iff _ _ _ _ _).1 h).1).length_eq
  rw [List.length_take] at this
  rw [← this]
  exact ⟨rfl, min_eq_right_iff⟩

/-- **C89.** One name not in a list gives one panel, however many axes there are, and is as good as a list of that name; the names
of a list have a panel each if the axes are to be made. -/
theorem C89_single (z : Zdi) (s : String) (l : List String) (negative : Bool) (axs : Option ℕ) (ps : List Panel) :
    (plotMatrix z (.one s) negative axs = .ok ps → ps.length = 1 ∧ plotMatrix z (.many [s]) negative axs = .ok ps) ∧
    (plotMatrix z (.many l) negative = .ok ps → ps.length = l.length) := by
  refine ⟨fun h => ⟨?_, h⟩, fun h => (C89_count z _ negative none ps h).1.trans (min_self _)⟩
  have hc := (C89_count z _ negative axs ps h).1
  cases axs with
  | none => exact hc
  | some n =>
    cases n with
    | zero =>
      have e : plotMatrix z (.one s) negative (some 0) = .error .unbound := by
        simp [plotMatrix, axesCount, bind, Except.bind, pure, Except.pure]
      rw [e] at h
      cases h
    | succ n => simpa [TypesArg.list] using hc

/-- **C89.** With no types, or no axes, there is no figure: UnboundLocalError, or ValueError if the axes are to be made. -/
theorem C89_nothing (z : Zdi) (types : TypesArg) (negative : Bool) (n : ℕ) :
    plotMatrix z (.many []) negative = .error .value ∧ plotMatrix z (.many []) negative (some n) = .error .unbound ∧
    plotMatrix z types negative (some 0) = .error .unbound := by
  refine ⟨rfl, ?_, ?_⟩
  · simp [plotMatrix, TypesArg.list, axesCount, bind, Except.bind, pure, Except.pure]
  · simp [plotMatrix, axesCount, bind, Except.bind, pure, Except.pure]

/-- **C89.** A tick on a column is labelled with the order of that column. (Violated between columns, where matplotlib may put
ticks: the label is the next order towards 0, so that two ticks next to 0 may have the same label.) -/
theorem C89_labels (z : Zdi) (hz : GoodRows z) (types : TypesArg) (negative : Bool) (axs : Option ℕ) (ps : List Panel)
    (h : plotMatrix z types negative axs = .ok ps) (p : Panel) (hp : p ∈ ps) : ∃ L : ℕ, p.rows = L + 1 ∧
      (∀ t : ℤ, p.label t = if negative then (t : ℝ) - L else t) ∧
      (negative = true → 0 < L → p.label (L - 1 / 2) = 0 ∧ p.label (L + 1 / 2) = 0) := by
  obtain ⟨L, h1, h2, hspec⟩ := panel_spec hz
  have hs := mapM_forall _ _ _ ((plot_iff _ _ _ _ _).1 h).1
  have hmem : ∃ s, panel z negative s = .ok p := by
    clear h
    generalize types.list.take (axs.getD types.list.length) = xs at hs
    induction hs with
    | nil => cases hp
    | cons hx _ ih =>
      rcases List.mem_cons.1 hp with rfl | hp
      · exact ⟨_, hx⟩
      · exact ih hp
  obtain ⟨s, hp⟩ := hmem
  have hw : ∃ n, Word s n := by
    by_contra hk
    push Not at hk
    rw [panel_error hz negative hk] at hp
    cases hp
  obtain ⟨n, hw⟩ := hw
  rcases hc : plotEnergy z n negative with e | c
  · rw [panel_refused hz hw hc] at hp
    cases hp
  · obtain ⟨a, ha, hs⟩ := hspec n
    rw [hs s negative hw c hc] at hp
    cases hp
    refine ⟨L, rfl, fun t => ?_, ?_⟩
    · cases negative with
      | false => simp
      | true =>
        simp only [if_true]
        rw [show (2 * L + 1) / 2 = L by omega]
        have : ∀ k : ℤ, toInt (k : ℝ) = k := by
          intro k
          rw [toInt]
          split_ifs <;> simp
        split_ifs with hL
        · rw [show (t : ℝ) - (L : ℝ) = ((t - L : ℤ) : ℝ) by push_cast; ring, this]
        · have : L = 0 := by omega
          simp [this]
    · rintro rfl hL
      simp only [if_true]
      rw [if_pos (by omega), if_pos (by omega), show (2 * L + 1) / 2 = L by omega]
      constructor
      · rw [show ((L : ℝ) - 1 / 2 - L) = -(1 / 2) by ring, toInt, if_neg (by norm_num)]
        norm_num [Int.ceil_eq_iff]
      · rw [show ((L : ℝ) + 1 / 2 - L) = 1 / 2 by ring, toInt, if_pos (by norm_num)]
        norm_num [Int.floor_eq_iff]

/-- A case meeting the hypotheses. -/
example : ∃ z : Zdi, GoodRows z ∧ (∃ ps, plotMatrix z (.many ["radial", "toroidal"]) true = .ok ps) ∧
    (∃ ps, plotMatrix z (.many ["radial", "toroidal"]) true (some 1) = .ok ps ∧ ps.length = 1) ∧
    ¬ ∃ ps, plotMatrix z (.one "Radial") true = .ok ps := by
  have hz : GoodRows [⟨1, 0, 1, 0, 0⟩, ⟨1, -1, 0, 1, 2⟩] := ⟨by simp, by simp, by simp⟩
  have h2 : ∃ ps, plotMatrix [⟨1, 0, 1, 0, 0⟩, ⟨1, -1, 0, 1, 2⟩] (.many ["radial", "toroidal"]) true (some 1) = .ok ps := by
    rw [C89_defined _ hz]
    exact ⟨by simp only [TypesArg.list, Option.getD_some, List.take_succ_cons, List.take_zero, List.mem_singleton, forall_eq]
              exact ⟨_, .radial⟩, by simp [TypesArg.list]⟩
  refine ⟨_, hz, ?_, ?_, ?_⟩
  · rw [C89_defined _ hz]
    refine ⟨?_, by simp [TypesArg.list]⟩
    simp only [TypesArg.list, Option.getD_none, List.take_length, List.mem_cons, List.not_mem_nil, or_false]
    rintro s (rfl | rfl)
    · exact ⟨_, .radial⟩
    · exact ⟨_, .toroidal⟩
  · obtain ⟨ps, h⟩ := h2
    exact ⟨ps, h, (C89_count _ _ _ _ _ h).1⟩
  · rw [C89_defined _ hz]
    rintro ⟨h, -⟩
    obtain ⟨n, hn⟩ := h "Radial" (by simp [TypesArg.list])
    have := nameOf_word hn
    simp [nameOf] at this

end Verif
