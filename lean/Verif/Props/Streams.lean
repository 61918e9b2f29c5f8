import Verif.Model.Streams
import Verif.Props.MapsPfss
import Verif.Props.Slice
import Mathlib.Data.List.GetD

/-!
# C81: the plot of stream traces
-/

namespace Verif
open Spec Coefs Geometry Maps Streams

/-- Centre `i` of a list of corners, in degrees. -/
noncomputable def Spec.centreDeg (xs : List ℝ) (i : ℕ) : ℝ := (xs.getD i 0 + xs.getD (i + 1) 0) / 2 * 180 / Real.pi

/-- The centres increase and are evenly spaced up to numpy's tolerance. -/
structure Spec.EvenCentres (xs : List ℝ) : Prop where
  increase : ∀ i, i + 2 < xs.length → centreDeg xs i < centreDeg xs (i + 1)
  even : ∀ i, i + 2 < xs.length →
    |centreDeg xs (i + 1) - centreDeg xs i - (centreDeg xs (xs.length - 2) - centreDeg xs 0) / ((xs.length : ℝ) - 2)| ≤
      1e-8 + 1e-5 * |(centreDeg xs (xs.length - 2) - centreDeg xs 0) / ((xs.length : ℝ) - 2)|

/-- The field at the surface of the star at the centre of facet `i, j`. -/
def Spec.FacetField (s : Coefs ℂ) (P A : List ℝ) (i j : ℕ) (br bp ba : ℝ) : Prop :=
  ∃ (hi : i + 1 < P.length) (hj : j + 1 < A.length),
    Pfss.evalSpherical s 1 ((P[i] + P[i + 1]) / 2) ((A[j] + A[j + 1]) / 2) = .ok (br, bp, ba)

/-- The strengths of the tangential field on the grid. -/
def Spec.strengths (s : Coefs ℂ) (P A : List ℝ) : Set ℝ :=
  {t | 0 ≤ t ∧ ∃ i j br bp ba, FacetField s P A i j br bp ba ∧ t ^ 2 = bp ^ 2 + ba ^ 2}

namespace Streams

/-- The transposed array over the facets. -/
def gridT {α : Type} (P A : List ℝ) (f : ℝ × ℝ → ℝ × ℝ → α) : Arr2 α :=
  (steps P).map fun p => (steps A).map fun a => f p a

theorem tr_rect {α β γ : Type} (xs : List β) (ys : List γ) (f : β → γ → α) (h : ys ≠ []) :
    tr (ys.map fun y => xs.map fun x => f x y) = xs.map fun x => ys.map fun y => f x y := by
  have h0 : ((ys.map fun y => xs.map fun x => f x y).headD []).length = xs.length := by
    cases ys with
    | nil => exact absurd rfl h
    | cons y ys => simp
  rw [tr, h0]
  apply List.ext_getElem
  · simp
  · intro i h1 h2
    have hi : i < xs.length := by simpa using h1
    simp only [List.getElem_map, List.getElem_range]
    have : ∀ zs : List γ, (zs.map fun y => xs.map fun x => f x y).filterMap (·[i]?) = zs.map fun y => f xs[i] y := by
      intro zs
      induction zs with
      | nil => rfl
      | cons z zs ih =>
        rw [List.map_cons, List.filterMap_cons, ih]
        simp [hi]
    exact this ys

theorem steps_length (P : List ℝ) : (steps P).length = P.length - 1 := by simp [steps]

theorem tr_grid {α : Type} (P A : List ℝ) (f : ℝ × ℝ → ℝ × ℝ → α) (h : 2 ≤ A.length) : tr (grid P A f) = gridT P A f := by
  rw [grid, gridT]
  apply tr_rect
  intro e
  have := congrArg List.length e
  rw [steps_length] at this
  simp at this
  omega

theorem map1_gridT {α β : Type} (P A : List ℝ) (f : ℝ × ℝ → ℝ × ℝ → α) (g : α → β) :
    map1 g (gridT P A f) = gridT P A fun p a => g (f p a) := by
  simp [map1, gridT, Function.comp_def]

theorem at2_gridT {α : Type} (P A : List ℝ) (f : ℝ × ℝ → ℝ × ℝ → α) (i j : ℕ) (hi : i + 1 < P.length) (hj : j + 1 < A.length) :
    at2 (gridT P A f) i j = some (f (P[i], P[i + 1]) (A[j], A[j + 1])) := by
  rw [at2, gridT, List.getElem?_map, steps_get P i hi]
  simp [steps_get A j hj]

theorem ent_gridT (P A : List ℝ) (f : ℝ × ℝ → ℝ × ℝ → ℝ) (i j : ℕ) (hi : i + 1 < P.length) (hj : j + 1 < A.length) :
    ent (gridT P A f) i j = f (P[i], P[i + 1]) (A[j], A[j + 1]) := by
  have h := at2_gridT P A f i j hi hj
  rw [at2] at h
  rcases hr : (gridT P A f)[i]? with _ | r
  · rw [hr] at h; simp at h
  · rw [hr] at h
    have h' : r[j]? = some (f (P[i], P[i + 1]) (A[j], A[j + 1])) := h
    simp only [ent, List.getD, hr, Option.getD_some, h']

theorem gridT_rows {α : Type} (P A : List ℝ) (f : ℝ × ℝ → ℝ × ℝ → α) : (gridT P A f).length = P.length - 1 := by
  rw [gridT, List.length_map, steps_length]

theorem gridT_cols {α : Type} (P A : List ℝ) (f : ℝ × ℝ → ℝ × ℝ → α) (h : 2 ≤ P.length) :
    ((gridT P A f).headD []).length = A.length - 1 := by
  obtain ⟨x, y, P, rfl⟩ : ∃ x y Q, P = x :: y :: Q := by
    match P, h with
    | x :: y :: Q, _ => exact ⟨x, y, Q, rfl⟩
  rw [gridT, steps_cons, List.map_cons, List.headD_cons, List.length_map, steps_length]

theorem centre_eq (xs : List ℝ) (i : ℕ) (h : i + 1 < xs.length) : deg (mid (xs[i], xs[i + 1])) = centreDeg xs i := by
  rw [deg, mid, centreDeg, List.getD_eq_getElem _ _ (by omega), List.getD_eq_getElem _ _ h]
  ring

/-- The conditions of `streamplot` on a grid of centres. -/
theorem gridOk_iff (P A : List ℝ) (hP : 3 ≤ P.length) (hA : 3 ≤ A.length) :
    Slice.GridOk (P.length - 1) (A.length - 1) (ent (gridT P A fun _ a => deg (mid a))) (ent (gridT P A fun p _ => deg (mid p))) ↔
      EvenCentres P ∧ EvenCentres A := by
  have ex : ∀ i j, i < P.length - 1 → j < A.length - 1 → ent (gridT P A fun _ a => deg (mid a)) i j = centreDeg A j := by
    intro i j hi hj
    rw [ent_gridT P A _ i j (by omega) (by omega), centre_eq]
  have ey : ∀ i j, i < P.length - 1 → j < A.length - 1 → ent (gridT P A fun p _ => deg (mid p)) i j = centreDeg P i := by
    intro i j hi hj
    rw [ent_gridT P A _ i j (by omega) (by omega), centre_eq]
  have cP : ((P.length - 1 : ℕ) : ℝ) - 1 = (P.length : ℝ) - 2 := by rw [Nat.cast_sub (by omega)]; push_cast; ring
  have cA : ((A.length - 1 : ℕ) : ℝ) - 1 = (A.length : ℝ) - 2 := by rw [Nat.cast_sub (by omega)]; push_cast; ring
  constructor
  · intro h
    refine ⟨⟨fun i hi => ?_, fun i hi => ?_⟩, ⟨fun j hj => ?_, fun j hj => ?_⟩⟩
    · have := h.yInc i (by omega)
      rwa [ey _ _ (by omega) (by omega), ey _ _ (by omega) (by omega)] at this
    · have := h.yEven i (by omega)
      rw [ey _ _ (by omega) (by omega), ey _ _ (by omega) (by omega), ey _ _ (by omega) (by omega),
        ey _ _ (by omega) (by omega), cP, show P.length - 1 - 1 = P.length - 2 by omega] at this
      exact this
    · have := h.xInc j (by omega)
      rwa [ex _ _ (by omega) (by omega), ex _ _ (by omega) (by omega)] at this
    · have := h.xEven j (by omega)
      rw [ex _ _ (by omega) (by omega), ex _ _ (by omega) (by omega), ex _ _ (by omega) (by omega),
        ex _ _ (by omega) (by omega), cA, show A.length - 1 - 1 = A.length - 2 by omega] at this
      exact this
  · rintro ⟨h1, h2⟩
    refine ⟨fun i hi j hj => ?_, fun i hi j hj => ?_, fun j hj => ?_, fun i hi => ?_, fun j hj => ?_, fun i hi => ?_⟩
    · rw [ex _ _ (by omega) (by omega), ex _ _ (by omega) (by omega)]
      exact Slice.close_refl _
    · rw [ey _ _ (by omega) (by omega), ey _ _ (by omega) (by omega)]
      exact Slice.close_refl _
    · rw [ex _ _ (by omega) (by omega), ex _ _ (by omega) (by omega)]
      exact h2.increase j (by omega)
    · rw [ey _ _ (by omega) (by omega), ey _ _ (by omega) (by omega)]
      exact h1.increase i (by omega)
    · rw [ex _ _ (by omega) (by omega), ex _ _ (by omega) (by omega), ex _ _ (by omega) (by omega),
        ex _ _ (by omega) (by omega), cA, show A.length - 1 - 1 = A.length - 2 by omega]
      exact h2.even j (by omega)
    · rw [ey _ _ (by omega) (by omega), ey _ _ (by omega) (by omega), ey _ _ (by omega) (by omega),
        ey _ _ (by omega) (by omega), cP, show P.length - 1 - 1 = P.length - 2 by omega]
      exact h1.even i (by omega)

/-- The figure drawn of the field `B`. -/
noncomputable def figOf (P A : List ℝ) (B : ℝ → ℝ → ℝ × ℝ × ℝ) (m lo hi big : ℝ) (xt yt ts : List ℝ) (top : ℝ) : Streams.Figure :=
  open Classical in {
    cornerX := P.map fun _ => A.map deg
    cornerY := P.map fun p => A.map fun _ => deg p
    image := gridT P A fun p a => (B (mid p) (mid a)).1
    vmin := -m
    vmax := m
    black := decide (lo < 0 ∧ 0 < hi)
    xticks := xt
    yticks := yt
    x := gridT P A fun _ a => deg (mid a)
    y := gridT P A fun p _ => deg (mid p)
    u := gridT P A fun p a => (B (mid p) (mid a)).2.2
    v := gridT P A fun p a => (B (mid p) (mid a)).2.1
    width := gridT P A fun p a => over (3 * Real.sqrt ((B (mid p) (mid a)).2.1 ^ 2 + (B (mid p) (mid a)).2.2 ^ 2)) big
    contours := [gridT P A fun p a => (B (mid p) (mid a)).1, gridT P A fun p a => (B (mid p) (mid a)).2.1,
      gridT P A fun p a => (B (mid p) (mid a)).2.2]
    legend := ts.map fun t => (t, over (3 * t) top) }

/-- Nine or five ticks from the first to the last corner. -/
noncomputable def ticksOf (xs : List ℝ) (h : xs ≠ []) (n : ℕ) : List ℝ :=
  (List.range n).map fun (k : ℕ) => deg (xs.head h + (k : ℝ) * ((xs.getLast h - xs.head h) / ((n : ℝ) - 1)))

theorem ticks_azim (P A : List ℝ) (hP : P ≠ []) (hA : A ≠ []) (n : ℕ) :
    axisTicks (meshgrid P A).azim n = .ok (ticksOf A hA n) := by
  have h1 : item (meshgrid P A).azim (0, 0) = .ok (A.head hA) := by
    rw [item_ok, at2, meshgrid]
    cases A with
    | nil => exact absurd rfl hA
    | cons a A =>
      cases P with
      | nil => exact absurd rfl hP
      | cons p P => simp
  have h2 : item (meshgrid P A).azim ((meshgrid P A).azim.length - 1, ((meshgrid P A).azim.headD []).length - 1)
      = .ok (A.getLast hA) := by
    rw [item_ok, at2, meshgrid]
    have hl := List.length_pos_of_ne_nil hA
    have hp := List.length_pos_of_ne_nil hP
    have : ((List.map (fun y => List.map (fun _ => y) P) A).headD []).length = P.length := by
      cases A with
      | nil => exact absurd rfl hA
      | cons a A => simp
    simp only [this, List.length_map, List.getElem?_map]
    rw [List.getElem?_eq_getElem (by omega : A.length - 1 < A.length)]
    simp only [Option.map_some, Option.bind_some, List.getElem?_map]
    rw [List.getElem?_eq_getElem (by omega : P.length - 1 < P.length), Option.map_some, List.getLast_eq_getElem]
  rw [axisTicks, h1, h2]
  simp only [bind, Except.bind, pure, Except.pure]
  rw [linspace, if_neg (by omega)]
  simp only [Except.ok.injEq, ticksOf, List.map_map, Int.toNat_natCast]
  apply List.map_congr_left
  intro k _
  simp only [Function.comp, deg, Int.cast_natCast]
  ring

theorem ticks_polar (P A : List ℝ) (hP : P ≠ []) (hA : A ≠ []) (n : ℕ) :
    axisTicks (meshgrid P A).polar n = .ok (ticksOf P hP n) := by
  have h1 : item (meshgrid P A).polar (0, 0) = .ok (P.head hP) := by
    rw [item_ok, at2, meshgrid]
    cases A with
    | nil => exact absurd rfl hA
    | cons a A =>
      cases P with
      | nil => exact absurd rfl hP
      | cons p P => simp
  have h2 : item (meshgrid P A).polar ((meshgrid P A).polar.length - 1, ((meshgrid P A).polar.headD []).length - 1)
      = .ok (P.getLast hP) := by
    rw [item_ok, at2, meshgrid]
    have hl := List.length_pos_of_ne_nil hA
    have hp := List.length_pos_of_ne_nil hP
    have : ((List.map (fun _ => P) A).headD []).length = P.length := by
      cases A with
      | nil => exact absurd rfl hA
      | cons a A => simp
    simp only [this, List.length_map, List.getElem?_map]
    rw [List.getElem?_eq_getElem (by omega : A.length - 1 < A.length)]
    simp only [Option.map_some, Option.bind_some]
    rw [List.getElem?_eq_getElem (by omega : P.length - 1 < P.length), List.getLast_eq_getElem]
  rw [axisTicks, h1, h2]
  simp only [bind, Except.bind, pure, Except.pure]
  rw [linspace, if_neg (by omega)]
  simp only [Except.ok.injEq, ticksOf, List.map_map, Int.toNat_natCast]
  apply List.map_congr_left
  intro k _
  simp only [Function.comp, deg, Int.cast_natCast]
  ring

/-- Strength of the tangential field. -/
noncomputable def tang (B : ℝ → ℝ → ℝ × ℝ × ℝ) (p a : ℝ × ℝ) : ℝ :=
  Real.sqrt ((B (mid p) (mid a)).2.1 ^ 2 + (B (mid p) (mid a)).2.2 ^ 2)

theorem plot_ok_iff (P A : List ℝ) {s : Coefs ℂ} {B : ℝ → ℝ → ℝ × ℝ × ℝ}
    (h : ∀ θ φ, Pfss.evalSpherical s 1 θ φ = .ok (B θ φ)) (ticks : ℝ → ℝ → List ℝ) (fig : Streams.Figure) :
    plotStreams ticks s (meshgrid P A) = .ok fig ↔ 3 ≤ P.length ∧ 3 ≤ A.length ∧ EvenCentres P ∧ EvenCentres A ∧
      ∃ (hP : P ≠ []) (hA : A ≠ []) (m lo hi big small top : ℝ), IsGreatest (vals (grid P A fun p a => |(B (mid p) (mid a)).1|)) m ∧
        IsLeast (vals (grid P A fun p a => (B (mid p) (mid a)).1)) lo ∧
        IsGreatest (vals (grid P A fun p a => (B (mid p) (mid a)).1)) hi ∧
        IsGreatest (vals (grid P A (tang B))) big ∧ IsLeast (vals (grid P A (tang B))) small ∧
        (ticks small big).max? = some top ∧
        fig = figOf P A B m lo hi big (ticksOf A hA 9) (ticksOf P hP 5) (ticks small big) top := by
  have trm : ∀ f : ℝ × ℝ → ℝ × ℝ → ℝ, 2 ≤ A.length → tr (grid P A f) = gridT P A f := fun f hA => tr_grid P A f hA
  rw [plotStreams, centres_eq, mapM_grid_ok P A _ _ (fun p a => B (mid p) (mid a)) fun p _ a _ => h _ _, centers_eq]
  simp only [bind, Except.bind, pure, Except.pure, map1_grid, map2_grid]
  by_cases hne : (vals (grid P A fun p a => |(B (mid p) (mid a)).1|)).Nonempty
  swap
  · rw [amax_empty hne]
    constructor
    · intro hf; cases hf
    · rintro ⟨-, -, -, -, -, -, m, -, -, -, -, -, hm, -⟩
      exact absurd ⟨m, hm.1⟩ hne
  have hl : 2 ≤ P.length ∧ 2 ≤ A.length := by
    obtain ⟨v, hv⟩ := hne
    obtain ⟨p, hp, a, ha, -⟩ := vals_grid.1 hv
    have h1 := List.length_pos_of_mem hp
    have h2 := List.length_pos_of_mem ha
    rw [steps_length] at h1 h2
    omega
  have hP : P ≠ [] := by rintro rfl; simp at hl
  have hA : A ≠ [] := by rintro rfl; simp at hl
  obtain ⟨m, hm⟩ := amax_total hne
  obtain ⟨lo, hlo⟩ := amin_total (grid_nonempty hl.1 hl.2 fun p a => (B (mid p) (mid a)).1)
  obtain ⟨hi, hhi⟩ := amax_total (grid_nonempty hl.1 hl.2 fun p a => (B (mid p) (mid a)).1)
  obtain ⟨big, hbig⟩ := amax_total (grid_nonempty hl.1 hl.2 (tang B))
  obtain ⟨small, hsmall⟩ := amin_total (grid_nonempty hl.1 hl.2 (tang B))
  have hbig' := hbig
  have hsmall' := hsmall
  unfold tang at hbig' hsmall'
  have t9 : axisTicks (meshgrid P A).azim 9 = .ok (ticksOf A hA 9) := ticks_azim P A hP hA 9
  have t5 : axisTicks (meshgrid P A).polar 5 = .ok (ticksOf P hP 5) := ticks_polar P A hP hA 5
  rw [hm, hlo, hhi, t9, t5]
  simp only [hbig', hsmall', tr_grid P A _ hl.2, map1_gridT]
  have cok : contourOk (gridT P A fun p a => (B (mid p) (mid a)).1) =
      if P.length < 3 ∨ A.length < 3 then .error .type else .ok () := by
    rw [contourOk, gridT_rows, gridT_cols P A _ hl.1]
    congr 1
    simp only [eq_iff_iff]
    omega
  have sok : streamOk (gridT P A fun _ a => deg (mid a)) (gridT P A fun p _ => deg (mid p)) =
      open Classical in if P.length < 3 ∨ A.length < 3 then .error .index
        else if EvenCentres P ∧ EvenCentres A then .ok () else .error .value := by
    rw [streamOk, gridT_rows, gridT_cols P A _ hl.1]
    by_cases hs : P.length < 3 ∨ A.length < 3
    · rw [if_pos hs, if_pos (by omega)]
    · rw [if_neg hs, if_neg (by omega)]
      by_cases he : EvenCentres P ∧ EvenCentres A
      · rw [if_pos he, if_pos ((gridOk_iff P A (by omega) (by omega)).2 he)]
      · rw [if_neg he, if_neg fun hg => he ((gridOk_iff P A (by omega) (by omega)).1 hg)]
  rw [cok, sok]
  rw [amax_ok] at hm hhi hbig
  rw [amin_ok] at hlo hsmall
  by_cases hs : P.length < 3 ∨ A.length < 3
  · rw [if_pos hs, if_pos hs]
    constructor
    · intro hf
      split at hf
      · cases hf
      · cases hf
    · rintro ⟨h1, h2, -⟩
      omega
  rw [if_neg hs, if_neg hs]
  have bok : ∀ b, blackOk b (gridT P A fun p a => (B (mid p) (mid a)).1) = .ok () := by
    intro b
    rw [blackOk, cok, if_neg hs, ite_self]
  rw [bok]
  simp only
  by_cases he : EvenCentres P ∧ EvenCentres A
  swap
  · rw [if_neg he]
    constructor
    · intro hf; cases hf
    · rintro ⟨-, -, e1, e2, -⟩
      exact absurd ⟨e1, e2⟩ he
  rw [if_pos he]
  simp only
  have cx : map1 deg (tr (meshgrid P A).azim) = P.map fun _ => A.map deg := by
    rw [meshgrid, tr_rect P A (fun _ y => y) hA]
    simp [map1]
  have cy : map1 deg (tr (meshgrid P A).polar) = P.map fun p => A.map fun _ => deg p := by
    have e : (meshgrid P A).polar = A.map fun _ => P.map fun x => x := by simp [meshgrid]
    rw [e, tr_rect P A (fun x _ => x) hA]
    simp [map1]
  rcases ht : (ticks small big).max? with _ | top
  · simp only [Option.elim_none]
    constructor
    · intro hf; cases hf
    · rintro ⟨-, -, -, -, -, -, m', lo', hi', big', small', top', -, -, -, h4, h5, h6, -⟩
      rw [h4.unique hbig, h5.unique hsmall, ht] at h6
      cases h6
  · simp only [Option.elim_some, Except.ok.injEq]
    constructor
    · rintro rfl
      refine ⟨by omega, by omega, he.1, he.2, hP, hA, m, lo, hi, big, small, top, hm, hlo, hhi, hbig, hsmall, ht, ?_⟩
      rw [cx, cy]
      rfl
    · rintro ⟨-, -, -, -, -, -, m', lo', hi', big', small', top', h1, h2, h3, h4, h5, h6, rfl⟩
      rw [h4.unique hbig, h5.unique hsmall, ht] at h6
      cases h6
      rw [h1.unique hm, h2.unique hlo, h3.unique hhi, h4.unique hbig, h5.unique hsmall, cx, cy]
      rfl

theorem surface {s : Coefs ℂ} (h : RadialSet s) : ∃ B : ℝ → ℝ → ℝ × ℝ × ℝ, ∀ θ φ, Pfss.evalSpherical s 1 θ φ = .ok (B θ φ) :=
  ⟨_, fun θ φ => Pfss.evalSpherical_eq h (by norm_num) 1 θ φ⟩

theorem facet_iff {s : Coefs ℂ} {B : ℝ → ℝ → ℝ × ℝ × ℝ} (h : ∀ θ φ, Pfss.evalSpherical s 1 θ φ = .ok (B θ φ)) (P A : List ℝ)
    (i j : ℕ) (br bp ba : ℝ) : FacetField s P A i j br bp ba ↔ ∃ (hi : i + 1 < P.length) (hj : j + 1 < A.length),
      B (mid (P[i], P[i + 1])) (mid (A[j], A[j + 1])) = (br, bp, ba) := by
  constructor
  · rintro ⟨hi, hj, e⟩
    rw [h] at e
    exact ⟨hi, hj, Except.ok.inj e⟩
  · rintro ⟨hi, hj, e⟩
    exact ⟨hi, hj, by rw [h]; exact congrArg _ e⟩

theorem mem_steps_iff {P : List ℝ} {p : ℝ × ℝ} : p ∈ steps P ↔ ∃ i, ∃ hi : i + 1 < P.length, p = (P[i], P[i + 1]) := by
  constructor
  · intro hp
    obtain ⟨i, hi⟩ := List.mem_iff_getElem?.1 hp
    exact ⟨i, steps_get_inv hi⟩
  · rintro ⟨i, hi, rfl⟩
    exact List.mem_of_getElem? (steps_get P i hi)

theorem vals_facets {s : Coefs ℂ} {B : ℝ → ℝ → ℝ × ℝ × ℝ} (h : ∀ θ φ, Pfss.evalSpherical s 1 θ φ = .ok (B θ φ)) (P A : List ℝ)
    (f : ℝ × ℝ × ℝ → ℝ) (v : ℝ) : v ∈ vals (grid P A fun p a => f (B (mid p) (mid a))) ↔
      ∃ i j br bp ba, FacetField s P A i j br bp ba ∧ f (br, bp, ba) = v := by
  rw [vals_grid]
  constructor
  · rintro ⟨p, hp, a, ha, rfl⟩
    obtain ⟨i, hi, rfl⟩ := mem_steps_iff.1 hp
    obtain ⟨j, hj, rfl⟩ := mem_steps_iff.1 ha
    exact ⟨i, j, _, _, _, (facet_iff h P A i j _ _ _).2 ⟨hi, hj, rfl⟩, rfl⟩
  · rintro ⟨i, j, br, bp, ba, hf, rfl⟩
    obtain ⟨hi, hj, e⟩ := (facet_iff h P A i j _ _ _).1 hf
    exact ⟨_, mem_steps_iff.2 ⟨i, hi, rfl⟩, _, mem_steps_iff.2 ⟨j, hj, rfl⟩, by rw [e]⟩

theorem vals_tang {s : Coefs ℂ} {B : ℝ → ℝ → ℝ × ℝ × ℝ} (h : ∀ θ φ, Pfss.evalSpherical s 1 θ φ = .ok (B θ φ)) (P A : List ℝ) :
    vals (grid P A (tang B)) = strengths s P A := by
  ext v
  have := vals_facets h P A (fun b => Real.sqrt (b.2.1 ^ 2 + b.2.2 ^ 2)) v
  rw [show (grid P A (tang B)) = grid P A fun p a => Real.sqrt ((B (mid p) (mid a)).2.1 ^ 2 + (B (mid p) (mid a)).2.2 ^ 2) from rfl,
    this, strengths, Set.mem_setOf_eq]
  constructor
  · rintro ⟨i, j, br, bp, ba, hf, rfl⟩
    exact ⟨Real.sqrt_nonneg _, i, j, br, bp, ba, hf, Real.sq_sqrt (by positivity)⟩
  · rintro ⟨h0, i, j, br, bp, ba, hf, e⟩
    refine ⟨i, j, br, bp, ba, hf, ?_⟩
    simp only
    rw [← e, Real.sqrt_sq h0]

end Streams

/-- **C81.** The stream traces of a potential field can be drawn exactly on the grids of at least two by two facets whose
centres are evenly spaced in both directions, provided the locator gives a tick. -/
theorem C81_iff (s : Coefs ℂ) (h : RadialSet s) (P A : List ℝ) (g : Geom) (hg : Geom.init (.arr P) (.arr A) = .ok g)
    (ticks : ℝ → ℝ → List ℝ) : (∃ fig, plotStreams ticks s g = .ok fig) ↔
      3 ≤ P.length ∧ 3 ≤ A.length ∧ EvenCentres P ∧ EvenCentres A ∧
      ∃ lo hi, IsLeast (strengths s P A) lo ∧ IsGreatest (strengths s P A) hi ∧ ticks lo hi ≠ [] := by
  obtain ⟨B, hB⟩ := surface h
  rw [(init_arr hg).1]
  simp only [plot_ok_iff P A hB, vals_tang hB]
  constructor
  · rintro ⟨fig, h1, h2, h3, h4, -, -, m, lo, hi, big, small, top, -, -, -, h5, h6, h7, -⟩
    refine ⟨h1, h2, h3, h4, small, big, h6, h5, fun e => ?_⟩
    rw [e] at h7
    cases h7
  · rintro ⟨h1, h2, h3, h4, small, big, h5, h6, h7⟩
    obtain ⟨m, hm⟩ := amax_total (grid_nonempty (by omega) (by omega) fun p a => |(B (mid p) (mid a)).1| : (vals (grid P A _)).Nonempty)
    obtain ⟨lo, hlo⟩ := amin_total (grid_nonempty (by omega) (by omega) fun p a => (B (mid p) (mid a)).1 : (vals (grid P A _)).Nonempty)
    obtain ⟨hi, hhi⟩ := amax_total (grid_nonempty (by omega) (by omega) fun p a => (B (mid p) (mid a)).1 : (vals (grid P A _)).Nonempty)
    rcases ht : (ticks small big).max? with _ | top
    · exact absurd (List.max?_eq_none_iff.1 ht) h7
    · exact ⟨_, h1, h2, h3, h4, by rintro rfl; simp at h1, by rintro rfl; simp at h2, m, lo, hi, big, small, top, amax_ok.1 hm,
        amin_ok.1 hlo, amax_ok.1 hhi, h6, h5, ht, rfl⟩

namespace Streams

theorem lin_centre {b : ℝ} {n : ℕ} (i : ℕ) (hi : i + 1 < n) :
    centreDeg (lin b n) i = ((2 * i + 1 : ℕ) : ℝ) * (b / ((n : ℝ) - 1) / 2 * 180 / Real.pi) := by
  rw [centreDeg, List.getD_eq_getElem _ _ (by rw [lin_length]; omega), List.getD_eq_getElem _ _ (by rw [lin_length]; omega),
    lin_get, lin_get]
  push_cast
  ring

theorem lin_even {b : ℝ} (hb : 0 < b) {n : ℕ} (hn : 3 ≤ n) : EvenCentres (lin b n) := by
  have h3 : (3 : ℝ) ≤ n := by exact_mod_cast hn
  have hc : 0 < b / ((n : ℝ) - 1) / 2 * 180 / Real.pi := by
    have : (0 : ℝ) < n - 1 := by linarith
    have := Real.pi_pos
    positivity
  constructor
  · intro i hi
    rw [lin_length] at hi
    rw [lin_centre i (by omega), lin_centre (i + 1) (by omega)]
    apply mul_lt_mul_of_pos_right _ hc
    exact_mod_cast (by omega : 2 * i + 1 < 2 * (i + 1) + 1)
  · intro i hi
    rw [lin_length] at hi ⊢
    rw [lin_centre i (by omega), lin_centre (i + 1) (by omega), lin_centre (n - 2) (by omega), lin_centre 0 (by omega)]
    have e : (((2 * (n - 2) + 1 : ℕ) : ℝ) * (b / ((n : ℝ) - 1) / 2 * 180 / Real.pi)
        - ((2 * 0 + 1 : ℕ) : ℝ) * (b / ((n : ℝ) - 1) / 2 * 180 / Real.pi)) / ((n : ℝ) - 2)
        = ((2 * (i + 1) + 1 : ℕ) : ℝ) * (b / ((n : ℝ) - 1) / 2 * 180 / Real.pi)
        - ((2 * i + 1 : ℕ) : ℝ) * (b / ((n : ℝ) - 1) / 2 * 180 / Real.pi) := by
      have h2 : (n : ℝ) - 2 ≠ 0 := by linarith
      rw [div_eq_iff h2]
      have : ((n - 2 : ℕ) : ℝ) = (n : ℝ) - 2 := by rw [Nat.cast_sub (by omega)]; push_cast; ring
      push_cast [this]
      ring
    rw [e, sub_self, abs_zero]
    positivity

theorem strengths_bounds {s : Coefs ℂ} (h : RadialSet s) {P A : List ℝ} (hP : 2 ≤ P.length) (hA : 2 ≤ A.length) :
    ∃ lo hi, IsLeast (strengths s P A) lo ∧ IsGreatest (strengths s P A) hi := by
  obtain ⟨B, hB⟩ := surface h
  rw [← vals_tang hB]
  obtain ⟨big, hbig⟩ := amax_total (grid_nonempty hP hA (tang B))
  obtain ⟨small, hsmall⟩ := amin_total (grid_nonempty hP hA (tang B))
  exact ⟨small, big, amin_ok.1 hsmall, amax_ok.1 hbig⟩

end Streams

/-- **C81.** On the grids of the whole sphere with at least two by two facets, the default one in particular, the stream
traces of every potential field can be drawn. -/
theorem C81_full (s : Coefs ℂ) (h : RadialSet s) (n k : ℕ) (hn : 3 ≤ n) (hk : 3 ≤ k) (g : Geom)
    (hg : Geom.init (.int n) (.int k) = .ok g ∨ (n = 65 ∧ k = 130 ∧ Geom.init .none .none = .ok g))
    (ticks : ℝ → ℝ → List ℝ) (ht : ∀ lo hi, ticks lo hi ≠ []) : ∃ fig, plotStreams ticks s g = .ok fig := by
  have hg' : Geom.init (.arr (lin Real.pi n)) (.arr (lin (2 * Real.pi) k)) = .ok g := by
    rcases hg with hg | ⟨rfl, rfl, hg⟩
    · rwa [init_ints] at hg
    · rwa [init_none_none] at hg
  obtain ⟨lo, hi, h1, h2⟩ := strengths_bounds h (P := lin Real.pi n) (A := lin (2 * Real.pi) k) (by rw [lin_length]; omega)
    (by rw [lin_length]; omega)
  exact (C81_iff s h _ _ g hg' ticks).2 ⟨by rw [lin_length]; omega, by rw [lin_length]; omega, lin_even Real.pi_pos hn,
    lin_even (by have := Real.pi_pos; linarith) hk, lo, hi, h1, h2, ht _ _⟩

/-- **C81.** Every facet shows the radial field, between its corners; the stream lines have at the centre of the facet the
azimuthal and the polar component, and the three components are those whose zero contours are drawn. -/
theorem C81_shows (s : Coefs ℂ) (h : RadialSet s) (P A : List ℝ) (g : Geom) (hg : Geom.init (.arr P) (.arr A) = .ok g)
    (ticks : ℝ → ℝ → List ℝ) (fig : Streams.Figure) (hf : plotStreams ticks s g = .ok fig) :
    (HasShape fig.image (P.length - 1) (A.length - 1) ∧ HasShape fig.x (P.length - 1) (A.length - 1)) ∧
    ∀ i j br bp ba, FacetField s P A i j br bp ba → at2 fig.image i j = some br ∧
      at2 fig.x i j = some (centreDeg A j) ∧ at2 fig.y i j = some (centreDeg P i) ∧
      at2 fig.u i j = some ba ∧ at2 fig.v i j = some bp ∧
      fig.contours.map (at2 · i j) = [some br, some bp, some ba] ∧
      ∀ i' ∈ [i, i + 1], ∀ j' ∈ [j, j + 1], at2 fig.cornerX i' j' = A[j']?.map (· * 180 / Real.pi) ∧
        at2 fig.cornerY i' j' = P[i']?.map (· * 180 / Real.pi) := by
  obtain ⟨B, hB⟩ := surface h
  rw [(init_arr hg).1, plot_ok_iff P A hB] at hf
  obtain ⟨-, -, -, -, -, -, m, lo, hi, big, small, top, -, -, -, -, -, -, rfl⟩ := hf
  have sh : ∀ f : ℝ × ℝ → ℝ × ℝ → ℝ, HasShape (gridT P A f) (P.length - 1) (A.length - 1) := by
    intro f
    refine ⟨gridT_rows P A f, fun r hr => ?_⟩
    obtain ⟨p, -, rfl⟩ := List.mem_map.1 hr
    rw [List.length_map, steps_length]
  refine ⟨⟨sh _, sh _⟩, fun i j br bp ba hF => ?_⟩
  obtain ⟨hi, hj, e⟩ := (facet_iff hB P A i j br bp ba).1 hF
  refine ⟨?_, ?_, ?_, ?_, ?_, ?_, fun i' hi' j' hj' => ?_⟩
  · simp only [figOf]
    rw [at2_gridT P A _ i j hi hj, e]
  · simp only [figOf]
    rw [at2_gridT P A _ i j hi hj, centre_eq]
  · simp only [figOf]
    rw [at2_gridT P A _ i j hi hj, centre_eq]
  · simp only [figOf]
    rw [at2_gridT P A _ i j hi hj, e]
  · simp only [figOf]
    rw [at2_gridT P A _ i j hi hj, e]
  · simp only [figOf, List.map_cons, List.map_nil]
    rw [at2_gridT P A _ i j hi hj, at2_gridT P A _ i j hi hj, at2_gridT P A _ i j hi hj, e]
  · have h1 : i' < P.length := by simp at hi'; omega
    have h2 : j' < A.length := by simp at hj'; omega
    have hd : ∀ x, deg x = x * 180 / Real.pi := fun x => by rw [deg]; ring
    simp only [figOf, at2, List.getElem?_map, List.getElem?_eq_getElem h1, List.getElem?_eq_getElem h2, Option.map_some,
      Option.bind_some, hd, and_self]

/-- **C81.** The ticks divide the range of the corners evenly, into eight and four parts. -/
theorem C81_ticks (s : Coefs ℂ) (h : RadialSet s) (P A : List ℝ) (g : Geom) (hg : Geom.init (.arr P) (.arr A) = .ok g)
    (ticks : ℝ → ℝ → List ℝ) (fig : Streams.Figure) (hf : plotStreams ticks s g = .ok fig) :
    ∃ (hP : P ≠ []) (hA : A ≠ []), fig.xticks.length = 9 ∧ fig.yticks.length = 5 ∧
      (∀ k : ℕ, k < 9 → fig.xticks[k]? = some (((8 - k : ℝ) * A.head hA + k * A.getLast hA) / 8 * 180 / Real.pi)) ∧
      ∀ k : ℕ, k < 5 → fig.yticks[k]? = some (((4 - k : ℝ) * P.head hP + k * P.getLast hP) / 4 * 180 / Real.pi) := by
  obtain ⟨B, hB⟩ := surface h
  rw [(init_arr hg).1, plot_ok_iff P A hB] at hf
  obtain ⟨-, -, -, -, hP, hA, m, lo, hi, big, small, top, -, -, -, -, -, -, rfl⟩ := hf
  refine ⟨hP, hA, by simp [figOf, ticksOf], by simp [figOf, ticksOf], fun k hk => ?_, fun k hk => ?_⟩
  · simp only [figOf, ticksOf, List.getElem?_map, List.getElem?_range hk, Option.map_some, deg]
    push_cast
    congr 1
    ring
  · simp only [figOf, ticksOf, List.getElem?_map, List.getElem?_range hk, Option.map_some, deg]
    push_cast
    congr 1
    ring

/-- **C81.** The colour scale is symmetric and as small as it can be while holding every value; the black zero contour is
drawn if and only if the radial field has both signs. -/
theorem C81_scale (s : Coefs ℂ) (h : RadialSet s) (P A : List ℝ) (g : Geom) (hg : Geom.init (.arr P) (.arr A) = .ok g)
    (ticks : ℝ → ℝ → List ℝ) (fig : Streams.Figure) (hf : plotStreams ticks s g = .ok fig) :
    fig.vmin = -fig.vmax ∧ (∀ i j br bp ba, FacetField s P A i j br bp ba → fig.vmin ≤ br ∧ br ≤ fig.vmax) ∧
    (∃ i j br bp ba, FacetField s P A i j br bp ba ∧ (br = fig.vmin ∨ br = fig.vmax)) ∧
    (fig.black = true ↔ (∃ i j br bp ba, FacetField s P A i j br bp ba ∧ br < 0) ∧
      ∃ i j br bp ba, FacetField s P A i j br bp ba ∧ 0 < br) := by
  obtain ⟨B, hB⟩ := surface h
  rw [(init_arr hg).1, plot_ok_iff P A hB] at hf
  obtain ⟨-, -, -, -, -, -, m, lo, hi, big, small, top, hm, hlo, hhi, -, -, -, rfl⟩ := hf
  have va := vals_facets hB P A (fun b => |b.1|)
  have vr := vals_facets hB P A (fun b => b.1)
  refine ⟨rfl, fun i j br bp ba hF => ?_, ?_, ?_⟩
  · have := hm.2 ((va _).2 ⟨i, j, br, bp, ba, hF, rfl⟩)
    exact abs_le.1 this
  · obtain ⟨i, j, br, bp, ba, hF, e⟩ := (va _).1 hm.1
    refine ⟨i, j, br, bp, ba, hF, ?_⟩
    rcases abs_eq (by rw [← e]; exact abs_nonneg _ : 0 ≤ m) |>.1 e with e | e
    · exact Or.inr e
    · exact Or.inl e
  · simp only [figOf, decide_eq_true_eq]
    constructor
    · rintro ⟨h1, h2⟩
      obtain ⟨i, j, br, bp, ba, hF, e⟩ := (vr _).1 hlo.1
      obtain ⟨i', j', br', bp', ba', hF', e'⟩ := (vr _).1 hhi.1
      exact ⟨⟨i, j, br, bp, ba, hF, by simp only at e; rw [e]; exact h1⟩, ⟨i', j', br', bp', ba', hF', by simp only at e'; rw [e']; exact h2⟩⟩
    · rintro ⟨⟨i, j, br, bp, ba, hF, e⟩, ⟨i', j', br', bp', ba', hF', e'⟩⟩
      exact ⟨lt_of_le_of_lt (hlo.2 ((vr _).2 ⟨i, j, br, bp, ba, hF, rfl⟩)) e,
        lt_of_lt_of_le e' (hhi.2 ((vr _).2 ⟨i', j', br', bp', ba', hF', rfl⟩))⟩

/-- **C81.** The lines are as wide as the tangential field is strong, from 0 to 3; without a tangential field the widths
are not numbers. -/
theorem C81_width (s : Coefs ℂ) (h : RadialSet s) (P A : List ℝ) (g : Geom) (hg : Geom.init (.arr P) (.arr A) = .ok g)
    (ticks : ℝ → ℝ → List ℝ) (fig : Streams.Figure) (hf : plotStreams ticks s g = .ok fig) :
    ∃ big, IsGreatest (strengths s P A) big ∧ ∀ i j br bp ba, FacetField s P A i j br bp ba →
      (big = 0 → at2 fig.width i j = some none) ∧
      (big ≠ 0 → ∃ w, at2 fig.width i j = some (some w) ∧ 0 ≤ w ∧ w ≤ 3 ∧
        ∀ t, 0 ≤ t → t ^ 2 = bp ^ 2 + ba ^ 2 → w * big = 3 * t) := by
  obtain ⟨B, hB⟩ := surface h
  rw [(init_arr hg).1, plot_ok_iff P A hB] at hf
  obtain ⟨-, -, -, -, hP, hA, m, lo, up, big, small, top, -, -, -, hb, -, -, rfl⟩ := hf
  rw [vals_tang hB] at hb
  refine ⟨big, hb, fun i j br bp ba hF => ?_⟩
  obtain ⟨hi, hj, e⟩ := (facet_iff hB P A i j br bp ba).1 hF
  have hw : at2 (figOf P A B m lo up big (ticksOf A hA 9) (ticksOf P hP 5) (ticks small big) top).width i j
      = some (over (3 * Real.sqrt (bp ^ 2 + ba ^ 2)) big) := by
    simp only [figOf]
    rw [at2_gridT P A _ i j hi hj, e]
  have hle : Real.sqrt (bp ^ 2 + ba ^ 2) ≤ big :=
    hb.2 ⟨Real.sqrt_nonneg _, i, j, br, bp, ba, hF, Real.sq_sqrt (by positivity)⟩
  have h0 := Real.sqrt_nonneg (bp ^ 2 + ba ^ 2)
  constructor
  · intro hz
    rw [hw, over, if_pos hz]
  · intro hz
    have hpos : 0 < big := lt_of_le_of_ne (le_trans h0 hle) (Ne.symm hz)
    refine ⟨3 * Real.sqrt (bp ^ 2 + ba ^ 2) / big, by rw [hw, over, if_neg hz], by positivity, ?_, fun t ht e2 => ?_⟩
    · rw [div_le_iff₀ hpos]
      linarith
    · rw [div_mul_cancel₀ _ hz, ← e2, Real.sqrt_sq ht]

/-- **C81 is violated** by the legend: it shows the ticks the locator chooses for the range of the strengths, but with widths
relative to the largest tick. They are the widths of the stream lines (3 times the strength over the largest strength) if
and only if the largest tick is the largest strength; if it is above, all lines of the legend are too thin. -/
theorem C81_legend (s : Coefs ℂ) (h : RadialSet s) (P A : List ℝ) (g : Geom) (hg : Geom.init (.arr P) (.arr A) = .ok g)
    (ticks : ℝ → ℝ → List ℝ) (fig : Streams.Figure) (hf : plotStreams ticks s g = .ok fig) :
    ∃ lo hi top, IsLeast (strengths s P A) lo ∧ IsGreatest (strengths s P A) hi ∧ IsGreatest {t | t ∈ ticks lo hi} top ∧
      fig.legend.map Prod.fst = ticks lo hi ∧
      ∀ t w, (t, w) ∈ fig.legend → 0 < t → 0 < hi → ∃ w', w = some w' ∧ w' * top = 3 * t ∧ w' ≤ 3 ∧
        (w' * hi = 3 * t ↔ top = hi) ∧ (hi < top → w' * hi < 3 * t) := by
  obtain ⟨B, hB⟩ := surface h
  rw [(init_arr hg).1, plot_ok_iff P A hB] at hf
  obtain ⟨-, -, -, -, -, -, m, lo, hi, big, small, top, -, -, -, hb, hs, ht, rfl⟩ := hf
  rw [vals_tang hB] at hb hs
  rw [List.max?_eq_some_iff] at ht
  refine ⟨small, big, top, hs, hb, ⟨ht.1, fun t h => ht.2 t h⟩, ?_, fun t w hw h0 hbig => ?_⟩
  · simp [figOf, Function.comp_def]
  · simp only [figOf, List.mem_map, Prod.mk.injEq] at hw
    obtain ⟨t', ht', rfl, rfl⟩ := hw
    have hpos : 0 < top := lt_of_lt_of_le h0 (ht.2 _ ht')
    have e : 3 * t' / top * top = 3 * t' := div_mul_cancel₀ _ hpos.ne'
    have hwp : 0 < 3 * t' / top := by positivity
    refine ⟨_, by rw [over, if_neg hpos.ne'], e, ?_, ?_, fun hlt => ?_⟩
    · rw [div_le_iff₀ hpos]
      linarith [ht.2 _ ht']
    · constructor
      · intro e'
        exact (mul_left_cancel₀ hwp.ne' (e'.trans e.symm)).symm
      · rintro rfl
        exact e
    · exact lt_of_lt_of_eq (mul_lt_mul_of_pos_left hlt hwp) e

/-- **C81 is violated** by the direction of the stream lines. Let a line on the unit sphere follow the tangential field with
components `bp`, `ba`. On the map of polar angle against azimuth it moves along `(φ', θ')`, whereas the stream lines are
drawn along `(ba, bp)`: the same direction only at the equator or where one component vanishes. -/
theorem C81_direction (θ φ : ℝ → ℝ) (t dθ dφ bp ba : ℝ) (hθ : HasDerivAt θ dθ t) (hφ : HasDerivAt φ dφ t)
    (off : OffAxis (θ t))
    (hx : HasDerivAt (fun τ => (rectFromSpherical 1 (θ τ) (φ τ)).1) (toCartesian (θ t) (φ t) 0 bp ba 0) t)
    (hy : HasDerivAt (fun τ => (rectFromSpherical 1 (θ τ) (φ τ)).2.1) (toCartesian (θ t) (φ t) 0 bp ba 1) t)
    (hz : HasDerivAt (fun τ => (rectFromSpherical 1 (θ τ) (φ τ)).2.2) (toCartesian (θ t) (φ t) 0 bp ba 2) t) :
    ba * dθ = bp * dφ ↔ ba = 0 ∨ bp = 0 ∨ θ t = Real.pi / 2 := by
  have hs : 0 < Real.sin (θ t) := Real.sin_pos_of_pos_of_lt_pi off.1 off.2
  simp only [rectFromSpherical, one_mul] at hx hy hz
  have ex := hx.unique (hθ.sin.mul hφ.cos)
  have ey := hy.unique (hθ.sin.mul hφ.sin)
  have ez := hz.unique hθ.cos
  simp [toCartesian, sphToRectMatrix, Matrix.mulVec, dotProduct, Fin.sum_univ_three] at ex ey ez
  have e1 : dθ = bp := by
    rcases ez with h | h
    · exact h.symm
    · exact absurd h hs.ne'
  have e2 : Real.sin (θ t) * dφ = ba := by
    have h1 := Real.sin_sq_add_cos_sq (φ t)
    subst e1
    linear_combination (ba - Real.sin (θ t) * dφ) * h1 + Real.sin (φ t) * ex - Real.cos (φ t) * ey
  rw [e1, ← e2]
  constructor
  · intro e
    by_cases h1 : bp = 0
    · exact Or.inr (Or.inl h1)
    by_cases h2 : dφ = 0
    · exact Or.inl (by rw [h2, mul_zero])
    refine Or.inr (Or.inr ?_)
    have e3 : Real.sin (θ t) = 1 := by
      have : (Real.sin (θ t) - 1) * (dφ * bp) = 0 := by linear_combination e
      rcases mul_eq_zero.1 this with h | h
      · linarith
      · exact absurd h (mul_ne_zero h2 h1)
    have e4 : Real.cos (θ t) = 0 := by
      have := Real.sin_sq_add_cos_sq (θ t)
      rw [e3] at this
      nlinarith
    have := Real.injOn_cos ⟨off.1.le, off.2.le⟩ ⟨by positivity, by linarith [Real.pi_pos]⟩ (e4.trans Real.cos_pi_div_two.symm)
    exact this
  · rintro (h | h | h)
    · rcases mul_eq_zero.1 h with h | h
      · exact absurd h hs.ne'
      · rw [h]; ring
    · rw [h]; ring
    · rw [h, Real.sin_pi_div_two]; ring

/-! ### Cases meeting the hypotheses -/

private noncomputable def exRod : Coefs ℂ := ⟨[0], .cplx, [((1, 0), [1])], 1, 0⟩

private theorem exRod_radial : RadialSet exRod := by
  have hw : exRod.WF := by
    refine Reach.WF (Reach.append (s := Coefs.new [0] .cplx) (.int 1) (.int 0) [1] ?_ rfl)
    exact Reach.new _ _ (by simp)
  refine ⟨wellFormed_of_WF hw, rfl, ⟨1, 0, rfl⟩, fun l m hm => ?_⟩
  rw [stores, has_int] at hm
  simp [exRod, Coefs.keys] at hm
  omega

private theorem exRod_polar {θ : ℝ} (hθ : OffAxis θ) (φ : ℝ) : Pfss.fP exRod 1 2.5 1 θ φ ≠ 0 := by
  have hs : Real.sin θ ≠ 0 := (Real.sin_pos_of_pos_of_lt_pi hθ.1 hθ.2).ne'
  have hp : pairs exRod = {(1, 0)} := by rw [pairs_eq]; rfl
  have hc : coef exRod 1 0 = 1 := rfl
  have hd : ∀ x, deriv (legendreP 1 0) x = 1 := by
    intro x
    have : legendreP 1 0 = fun x => x := by
      funext x
      simp [legendreP, rodNorm, rod, rodBase]
      ring
    rw [this]
    exact (hasDerivAt_id' x).deriv
  rw [Pfss.fP, hp, Finset.sum_singleton, hc, Pfss.td]
  have ht : Pfss.thetaScale 1 0 = 1 := by
    simp [Pfss.thetaScale, spFactorial]
    norm_num
  simp only [Int.toNat_one, Int.toNat_zero, hd, ht, Pfss.rL, Pfss.phiLm]
  simp
  norm_num
  exact hs

/-- The stream traces of a dipole on the default grid, with a locator whose only tick is above the largest strength: the
legend has one line, which is too thin. -/
example : ∃ g fig t w hi, Geom.init .none .none = .ok g ∧ plotStreams (fun _ hi => [hi + 1]) exRod g = .ok fig ∧
    IsGreatest (strengths exRod (lin Real.pi 65) (lin (2 * Real.pi) 130)) hi ∧ 0 < hi ∧
    (t, some w) ∈ fig.legend ∧ w * hi < 3 * t := by
  have hg : Geom.init (.arr (lin Real.pi 65)) (.arr (lin (2 * Real.pi) 130)) = .ok (meshgrid (lin Real.pi 65) (lin (2 * Real.pi) 130)) :=
    init_lin (by norm_num) (by norm_num)
  have hg' : Geom.init .none .none = .ok (meshgrid (lin Real.pi 65) (lin (2 * Real.pi) 130)) := by
    rw [init_none_none]; exact hg
  obtain ⟨fig, hf⟩ := C81_full exRod exRod_radial 65 130 (by norm_num) (by norm_num) _ (Or.inr ⟨rfl, rfl, hg'⟩)
    (fun _ hi => [hi + 1]) (by simp)
  obtain ⟨lo, hi, top, -, h2, h3, h4, h5⟩ := C81_legend exRod exRod_radial _ _ _ hg _ _ hf
  have ht : top = hi + 1 := by simpa using h3.1
  have hpos : 0 < hi := by
    have hl : 0 + 1 < (lin Real.pi 65).length := by rw [lin_length]; norm_num
    have hl' : 0 + 1 < (lin (2 * Real.pi) 130).length := by rw [lin_length]; norm_num
    obtain ⟨B, hB⟩ := surface exRod_radial
    have off : OffAxis (mid ((lin Real.pi 65)[0], (lin Real.pi 65)[0 + 1])) :=
      full_offAxis (by norm_num : 2 ≤ 65) (mem_steps_iff.2 ⟨0, hl, rfl⟩)
    have e : (B (mid ((lin Real.pi 65)[0], (lin Real.pi 65)[0 + 1])) (mid ((lin (2 * Real.pi) 130)[0], (lin (2 * Real.pi) 130)[0 + 1]))).2.1 ≠ 0 := by
      have := hB (mid ((lin Real.pi 65)[0], (lin Real.pi 65)[0 + 1])) (mid ((lin (2 * Real.pi) 130)[0], (lin (2 * Real.pi) 130)[0 + 1]))
      rw [Pfss.evalSpherical_eq exRod_radial (by norm_num), if_neg (by norm_num), if_neg (by norm_num)] at this
      rw [← Except.ok.inj this]
      exact exRod_polar off _
    have := h2.2 ⟨Real.sqrt_nonneg _, 0, 0, _, _, _, (facet_iff hB _ _ 0 0 _ _ _).2 ⟨hl, hl', rfl⟩, Real.sq_sqrt (by positivity)⟩
    exact lt_of_lt_of_le (Real.sqrt_pos.2 (by positivity)) this
  have hm : (hi + 1) ∈ fig.legend.map Prod.fst := by rw [h4]; simp
  obtain ⟨⟨t, w⟩, hw, rfl⟩ := List.mem_map.1 hm
  obtain ⟨w', rfl, -, -, -, h6⟩ := h5 _ _ hw (by linarith) hpos
  exact ⟨_, fig, _, w', hi, hg', hf, h2, hpos, hw, h6 (by rw [ht]; linarith)⟩

/-- A line that follows a field with both components away from the equator: the drawn direction is another. -/
example : ∃ (θ φ : ℝ → ℝ) (bp ba : ℝ), OffAxis (θ 0) ∧ HasDerivAt θ 1 0 ∧ HasDerivAt φ 1 0 ∧
    HasDerivAt (fun τ => (rectFromSpherical 1 (θ τ) (φ τ)).1) (toCartesian (θ 0) (φ 0) 0 bp ba 0) 0 ∧
    HasDerivAt (fun τ => (rectFromSpherical 1 (θ τ) (φ τ)).2.1) (toCartesian (θ 0) (φ 0) 0 bp ba 1) 0 ∧
    HasDerivAt (fun τ => (rectFromSpherical 1 (θ τ) (φ τ)).2.2) (toCartesian (θ 0) (φ 0) 0 bp ba 2) 0 ∧
    ba * 1 ≠ bp * 1 := by
  have off : OffAxis (1 + 0 : ℝ) := ⟨by norm_num, by linarith [Real.pi_gt_three]⟩
  have h1 : HasDerivAt (fun τ : ℝ => 1 + τ) 1 0 := (hasDerivAt_id' (0 : ℝ)).const_add 1
  have h2 : HasDerivAt (fun τ : ℝ => τ) 1 0 := hasDerivAt_id' 0
  have hx : HasDerivAt (fun τ : ℝ => (rectFromSpherical 1 (1 + τ) τ).1) (toCartesian (1 + 0) 0 0 1 (Real.sin (1 + 0)) 0) 0 := by
    have := h1.sin.mul h2.cos
    simp only [rectFromSpherical, one_mul]
    convert this using 1
    all_goals first | rfl | simp [toCartesian, sphToRectMatrix, Matrix.mulVec, dotProduct, Fin.sum_univ_three]
  have hy : HasDerivAt (fun τ : ℝ => (rectFromSpherical 1 (1 + τ) τ).2.1) (toCartesian (1 + 0) 0 0 1 (Real.sin (1 + 0)) 1) 0 := by
    have := h1.sin.mul h2.sin
    simp only [rectFromSpherical, one_mul]
    convert this using 1
    all_goals first | rfl | simp [toCartesian, sphToRectMatrix, Matrix.mulVec, dotProduct, Fin.sum_univ_three]
  have hz : HasDerivAt (fun τ : ℝ => (rectFromSpherical 1 (1 + τ) τ).2.2) (toCartesian (1 + 0) 0 0 1 (Real.sin (1 + 0)) 2) 0 := by
    have := h1.cos
    simp only [rectFromSpherical, one_mul]
    convert this using 1
    all_goals first | rfl | simp [toCartesian, sphToRectMatrix, Matrix.mulVec, dotProduct, Fin.sum_univ_three]
  refine ⟨fun τ => 1 + τ, fun τ => τ, 1, Real.sin (1 + 0), off, h1, h2, hx, hy, hz, fun e => ?_⟩
  rcases (C81_direction (fun τ => 1 + τ) (fun τ => τ) 0 1 1 1 (Real.sin (1 + 0)) h1 h2 off hx hy hz).1 e with h | h | h
  · exact (Real.sin_pos_of_pos_of_lt_pi off.1 off.2).ne' h
  · norm_num at h
  · simp only [add_zero] at h
    linarith [Real.pi_gt_three]

end Verif
