import Verif.Model.ZdiStreams
import Verif.Props.Streams
import Verif.Spec.Fields

/-!
# C85: the plot of stream traces of a ZDI magnetogram
-/

namespace Verif
open Spec Coefs Geometry Maps

/-- The components of a magnetogram at the centre of facet `i, j`. -/
def Spec.ZdiFacet (z : Zdi) (P A : List ℝ) (i j : ℕ) (br bp ba : ℝ) : Prop :=
  ∃ (hi : i + 1 < P.length) (hj : j + 1 < A.length),
    z.radial ((P[i] + P[i + 1]) / 2) ((A[j] + A[j + 1]) / 2) = br ∧
    z.polar ((P[i] + P[i + 1]) / 2) ((A[j] + A[j + 1]) / 2) = .ok bp ∧
    z.azimuthal ((P[i] + P[i + 1]) / 2) ((A[j] + A[j + 1]) / 2) = .ok ba

/-- The strengths of the tangential field of a magnetogram on the grid. -/
def Spec.zdiStrengths (z : Zdi) (P A : List ℝ) : Set ℝ :=
  {t | 0 ≤ t ∧ ∃ i j br bp ba, ZdiFacet z P A i j br bp ba ∧ t ^ 2 = bp ^ 2 + ba ^ 2}

namespace ZdiStreams
open Streams (tr gridT tr_rect tr_grid steps_length map1_gridT at2_gridT gridT_rows gridT_cols centre_eq gridOk_iff ticksOf
  ticks_azim ticks_polar over blackOk contourOk streamOk axisTicks mem_steps_iff lin_even)

/-- The field is defined everywhere. -/
theorem total {z : Zdi} (h : NonnegOrders z) : ∃ fp fa : ℝ → ℝ → ℝ, ∀ θ φ, z.polar θ φ = .ok (fp θ φ) ∧
    z.azimuthal θ φ = .ok (fa θ φ) := by
  have h1 : ∀ θ φ, ∃ x, z.polar θ φ = .ok x := by
    intro θ φ
    rw [Zdi.polar, Zdi.polarPoloidal, calcLpmn_ok (Zdi.lm_ne h) (Zdi.lm_ok h)]
    exact ⟨_, rfl⟩
  have h2 : ∀ θ φ, ∃ x, z.azimuthal θ φ = .ok x := by
    intro θ φ
    rw [Zdi.azimuthal, Zdi.azimuthalToroidal, calcLpmn_ok (Zdi.lm_ne h) (Zdi.lm_ok h)]
    exact ⟨_, rfl⟩
  choose fp hp using h1
  choose fa ha using h2
  exact ⟨fp, fa, fun θ φ => ⟨hp θ φ, ha θ φ⟩⟩

/-- Strength of the whole field at a centre. -/
noncomputable def full (z : Zdi) (fp fa : ℝ → ℝ → ℝ) (p a : ℝ × ℝ) : ℝ :=
  Real.sqrt (z.radial (mid p) (mid a) ^ 2 + fp (mid p) (mid a) ^ 2 + fa (mid p) (mid a) ^ 2)

/-- Strength of the tangential field at a centre. -/
noncomputable def tang (fp fa : ℝ → ℝ → ℝ) (p a : ℝ × ℝ) : ℝ :=
  Real.sqrt (fp (mid p) (mid a) ^ 2 + fa (mid p) (mid a) ^ 2)

/-- The figure drawn. -/
noncomputable def figOf (P A : List ℝ) (z : Zdi) (fp fa : ℝ → ℝ → ℝ) (big : ℝ) (xt yt ts : List ℝ) (top : ℝ) :
    ZdiStreams.Figure := {
  cornerX := P.map fun _ => A.map deg
  cornerY := P.map fun p => A.map fun _ => deg p
  image := gridT P A (full z fp fa)
  vmin := 0
  black := false
  xticks := xt
  yticks := yt
  x := gridT P A fun _ a => deg (mid a)
  y := gridT P A fun p _ => deg (mid p)
  u := gridT P A fun p a => fa (mid p) (mid a)
  v := gridT P A fun p a => fp (mid p) (mid a)
  width := gridT P A fun p a => over (3 * tang fp fa p a) big
  legend := ts.map fun t => (t, over (3 * t) top) }

theorem plot_ok_iff (P A : List ℝ) {z : Zdi} {fp fa : ℝ → ℝ → ℝ}
    (h : ∀ θ φ, z.polar θ φ = .ok (fp θ φ) ∧ z.azimuthal θ φ = .ok (fa θ φ)) (ticks : ℝ → ℝ → List ℝ) (fig : ZdiStreams.Figure) :
    plotStreams ticks z (meshgrid P A) = .ok fig ↔ 3 ≤ P.length ∧ 3 ≤ A.length ∧ EvenCentres P ∧ EvenCentres A ∧
      ∃ (hP : P ≠ []) (hA : A ≠ []) (big small top : ℝ),
        IsGreatest (vals (grid P A (tang fp fa))) big ∧ IsLeast (vals (grid P A (tang fp fa))) small ∧
        (ticks small big).max? = some top ∧
        fig = figOf P A z fp fa big (ticksOf A hA 9) (ticksOf P hP 5) (ticks small big) top := by
  have hf : ∀ p a : ℝ × ℝ, fieldAt z (mid p, mid a) = .ok (fp (mid p) (mid a), fa (mid p) (mid a), full z fp fa p a) := by
    intro p a
    rw [fieldAt, Zdi.strength, (h _ _).1, (h _ _).2]
    rfl
  rw [plotStreams, centres_eq, mapM_grid_ok P A _ _ (fun p a => (fp (mid p) (mid a), fa (mid p) (mid a), full z fp fa p a))
    fun p _ a _ => hf p a, centers_eq]
  simp only [bind, Except.bind, pure, Except.pure, map1_grid, map2_grid]
  by_cases hne : (vals (grid P A fun p a => full z fp fa p a)).Nonempty
  swap
  · rw [amin_empty hne]
    constructor
    · intro hf; cases hf
    · rintro ⟨h1, h2, -⟩
      exact absurd (grid_nonempty (by omega) (by omega) _) hne
  have hl : 2 ≤ P.length ∧ 2 ≤ A.length := by
    obtain ⟨v, hv⟩ := hne
    obtain ⟨p, hp, a, ha, -⟩ := vals_grid.1 hv
    have h1 := List.length_pos_of_mem hp
    have h2 := List.length_pos_of_mem ha
    rw [steps_length] at h1 h2
    omega
  have hP : P ≠ [] := by rintro rfl; simp at hl
  have hA : A ≠ [] := by rintro rfl; simp at hl
  obtain ⟨lo, hlo⟩ := amin_total hne
  obtain ⟨hi, hhi⟩ := amax_total hne
  obtain ⟨big, hbig⟩ := amax_total (grid_nonempty hl.1 hl.2 (tang fp fa))
  obtain ⟨small, hsmall⟩ := amin_total (grid_nonempty hl.1 hl.2 (tang fp fa))
  have hbig' := hbig
  have hsmall' := hsmall
  unfold tang at hbig' hsmall'
  have t9 : axisTicks (meshgrid P A).azim 9 = .ok (ticksOf A hA 9) := ticks_azim P A hP hA 9
  have t5 : axisTicks (meshgrid P A).polar 5 = .ok (ticksOf P hP 5) := ticks_polar P A hP hA 5
  rw [hlo, hhi, t9, t5]
  simp only [hbig', hsmall', tr_grid P A _ hl.2, map1_gridT]
  have sok : streamOk (gridT P A fun _ a => deg (mid a)) (gridT P A fun p _ => deg (mid p)) =
      open Classical in if P.length < 3 ∨ A.length < 3 then .error .index
        else if EvenCentres P ∧ EvenCentres A then .ok () else .error .value := by
    rw [streamOk, gridT_rows, gridT_cols P A _ hl.1]
    by_cases hs : P.length < 3 ∨ A.length < 3
    · rw [if_pos hs, if_pos (by omega)]
    · rw [if_neg hs, if_neg (by omega)]
      by_cases he : EvenCentres P ∧ EvenCentres A
      · rw [if_pos he, if_pos ((gridOk_iff P A (by omega) (by omega)).2 he)]
      · rw [if_neg he, if_neg fun hg => he ((gridOk_iff P A (by omega) (by omega)).1 hg)]
  rw [amax_ok] at hhi hbig
  rw [amin_ok] at hlo hsmall
  have hlo0 : ¬(lo < 0 ∧ 0 < hi) := by
    obtain ⟨p, -, a, -, rfl⟩ := vals_grid.1 hlo.1
    exact fun hx => absurd hx.1 (not_lt.2 (Real.sqrt_nonneg _))
  simp only [hlo0, decide_false, blackOk, sok, Bool.false_eq_true, if_false]
  by_cases hs : P.length < 3 ∨ A.length < 3
  · rw [if_pos hs]
    constructor
    · intro hf; cases hf
    · rintro ⟨h1, h2, -⟩
      omega
  rw [if_neg hs]
  by_cases he : EvenCentres P ∧ EvenCentres A
  swap
  · rw [if_neg he]
    constructor
    · intro hf; cases hf
    · rintro ⟨-, -, e1, e2, -⟩
      exact absurd ⟨e1, e2⟩ he
  rw [if_pos he]
  simp only
  have cx : map1 deg (tr (meshgrid P A).azim) = P.map fun _ => A.map deg := by
    rw [meshgrid, tr_rect P A (fun _ y => y) hA]
    simp [map1]
  have cy : map1 deg (tr (meshgrid P A).polar) = P.map fun p => A.map fun _ => deg p := by
    have e : (meshgrid P A).polar = A.map fun _ => P.map fun x => x := by simp [meshgrid]
    rw [e, tr_rect P A (fun x _ => x) hA]
    simp [map1]
  rcases ht : (ticks small big).max? with _ | top
  · simp only [Option.elim_none]
    constructor
    · intro hf; cases hf
    · rintro ⟨-, -, -, -, -, -, big', small', top', h4, h5, h6, -⟩
      rw [h4.unique hbig, h5.unique hsmall, ht] at h6
      cases h6
  · simp only [Option.elim_some, Except.ok.injEq]
    constructor
    · rintro rfl
      refine ⟨by omega, by omega, he.1, he.2, hP, hA, big, small, top, hbig, hsmall, ht, ?_⟩
      rw [cx, cy]
      rfl
    · rintro ⟨-, -, -, -, -, -, big', small', top', h4, h5, h6, rfl⟩
      rw [h4.unique hbig, h5.unique hsmall, ht] at h6
      cases h6
      rw [h4.unique hbig, h5.unique hsmall, cx, cy]
      rfl

theorem facet_iff {z : Zdi} {fp fa : ℝ → ℝ → ℝ} (h : ∀ θ φ, z.polar θ φ = .ok (fp θ φ) ∧ z.azimuthal θ φ = .ok (fa θ φ))
    (P A : List ℝ) (i j : ℕ) (br bp ba : ℝ) : ZdiFacet z P A i j br bp ba ↔
      ∃ (hi : i + 1 < P.length) (hj : j + 1 < A.length), z.radial (mid (P[i], P[i + 1])) (mid (A[j], A[j + 1])) = br ∧
        fp (mid (P[i], P[i + 1])) (mid (A[j], A[j + 1])) = bp ∧ fa (mid (P[i], P[i + 1])) (mid (A[j], A[j + 1])) = ba := by
  constructor
  · rintro ⟨hi, hj, e1, e2, e3⟩
    rw [(h _ _).1] at e2
    rw [(h _ _).2] at e3
    exact ⟨hi, hj, e1, Except.ok.inj e2, Except.ok.inj e3⟩
  · rintro ⟨hi, hj, e1, e2, e3⟩
    exact ⟨hi, hj, e1, by rw [(h _ _).1]; exact congrArg _ e2, by rw [(h _ _).2]; exact congrArg _ e3⟩

theorem vals_tang {z : Zdi} {fp fa : ℝ → ℝ → ℝ} (h : ∀ θ φ, z.polar θ φ = .ok (fp θ φ) ∧ z.azimuthal θ φ = .ok (fa θ φ))
    (P A : List ℝ) : vals (grid P A (tang fp fa)) = zdiStrengths z P A := by
  ext v
  rw [vals_grid, zdiStrengths, Set.mem_setOf_eq]
  constructor
  · rintro ⟨p, hp, a, ha, rfl⟩
    obtain ⟨i, hi, rfl⟩ := mem_steps_iff.1 hp
    obtain ⟨j, hj, rfl⟩ := mem_steps_iff.1 ha
    exact ⟨Real.sqrt_nonneg _, i, j, _, _, _, (facet_iff h P A i j _ _ _).2 ⟨hi, hj, rfl, rfl, rfl⟩, Real.sq_sqrt (by positivity)⟩
  · rintro ⟨h0, i, j, br, bp, ba, hf, e⟩
    obtain ⟨hi, hj, -, rfl, rfl⟩ := (facet_iff h P A i j _ _ _).1 hf
    refine ⟨_, mem_steps_iff.2 ⟨i, hi, rfl⟩, _, mem_steps_iff.2 ⟨j, hj, rfl⟩, ?_⟩
    rw [tang, ← e, Real.sqrt_sq h0]

end ZdiStreams
open ZdiStreams

/-- **C85.** The stream traces of a magnetogram can be drawn exactly on the grids of at least two by two facets whose centres
are evenly spaced in both directions, provided the locator gives a tick. -/
theorem C85_iff (z : Zdi) (h : NonnegOrders z) (P A : List ℝ) (g : Geom) (hg : Geom.init (.arr P) (.arr A) = .ok g)
    (ticks : ℝ → ℝ → List ℝ) : (∃ fig, ZdiStreams.plotStreams ticks z g = .ok fig) ↔
      3 ≤ P.length ∧ 3 ≤ A.length ∧ EvenCentres P ∧ EvenCentres A ∧
      ∃ lo hi, IsLeast (zdiStrengths z P A) lo ∧ IsGreatest (zdiStrengths z P A) hi ∧ ticks lo hi ≠ [] := by
  obtain ⟨fp, fa, hB⟩ := total h
  rw [(init_arr hg).1]
  simp only [plot_ok_iff P A hB, vals_tang hB]
  constructor
  · rintro ⟨fig, h1, h2, h3, h4, -, -, big, small, top, h5, h6, h7, -⟩
    refine ⟨h1, h2, h3, h4, small, big, h6, h5, fun e => ?_⟩
    rw [e] at h7
    cases h7
  · rintro ⟨h1, h2, h3, h4, small, big, h5, h6, h7⟩
    rcases ht : (ticks small big).max? with _ | top
    · exact absurd (List.max?_eq_none_iff.1 ht) h7
    · exact ⟨_, h1, h2, h3, h4, by rintro rfl; simp at h1, by rintro rfl; simp at h2, big, small, top, h6, h5, ht, rfl⟩

/-- **C85.** On the grids of the whole sphere with at least two by two facets, the default one in particular, the stream
traces of every magnetogram of non-negative orders can be drawn. -/
theorem C85_full (z : Zdi) (h : NonnegOrders z) (n k : ℕ) (hn : 3 ≤ n) (hk : 3 ≤ k) (g : Geom)
    (hg : Geom.init (.int n) (.int k) = .ok g ∨ (n = 65 ∧ k = 130 ∧ Geom.init .none .none = .ok g))
    (ticks : ℝ → ℝ → List ℝ) (ht : ∀ lo hi, ticks lo hi ≠ []) : ∃ fig, ZdiStreams.plotStreams ticks z g = .ok fig := by
  have hg' : Geom.init (.arr (lin Real.pi n)) (.arr (lin (2 * Real.pi) k)) = .ok g := by
    rcases hg with hg | ⟨rfl, rfl, hg⟩
    · rwa [init_ints] at hg
    · rwa [init_none_none] at hg
  obtain ⟨fp, fa, hB⟩ := total h
  obtain ⟨big, hbig⟩ := amax_total (grid_nonempty (P := lin Real.pi n) (A := lin (2 * Real.pi) k) (by rw [lin_length]; omega)
    (by rw [lin_length]; omega) (ZdiStreams.tang fp fa))
  obtain ⟨small, hsmall⟩ := amin_total (grid_nonempty (P := lin Real.pi n) (A := lin (2 * Real.pi) k) (by rw [lin_length]; omega)
    (by rw [lin_length]; omega) (ZdiStreams.tang fp fa))
  rw [amax_ok, vals_tang hB] at hbig
  rw [amin_ok, vals_tang hB] at hsmall
  exact (C85_iff z h _ _ g hg' ticks).2 ⟨by rw [lin_length]; omega, by rw [lin_length]; omega, Streams.lin_even Real.pi_pos hn,
    Streams.lin_even (by have := Real.pi_pos; linarith) hk, small, big, hsmall, hbig, ht _ _⟩

/-- **C85.** Every facet shows the strength of the field, between its corners, on a colour scale that starts at zero; a black
contour is never drawn. The stream lines have at the centre of the facet the azimuthal and the polar component. -/
theorem C85_shows (z : Zdi) (h : NonnegOrders z) (P A : List ℝ) (g : Geom) (hg : Geom.init (.arr P) (.arr A) = .ok g)
    (ticks : ℝ → ℝ → List ℝ) (fig : ZdiStreams.Figure) (hf : ZdiStreams.plotStreams ticks z g = .ok fig) :
    (HasShape fig.image (P.length - 1) (A.length - 1) ∧ HasShape fig.x (P.length - 1) (A.length - 1) ∧ fig.vmin = 0 ∧
      fig.black = false) ∧
    ∀ i j br bp ba, ZdiFacet z P A i j br bp ba → (∃ b, at2 fig.image i j = some b ∧ 0 ≤ b ∧ b ^ 2 = br ^ 2 + bp ^ 2 + ba ^ 2) ∧
      at2 fig.x i j = some (centreDeg A j) ∧ at2 fig.y i j = some (centreDeg P i) ∧
      at2 fig.u i j = some ba ∧ at2 fig.v i j = some bp ∧
      ∀ i' ∈ [i, i + 1], ∀ j' ∈ [j, j + 1], at2 fig.cornerX i' j' = A[j']?.map (· * 180 / Real.pi) ∧
        at2 fig.cornerY i' j' = P[i']?.map (· * 180 / Real.pi) := by
  obtain ⟨fp, fa, hB⟩ := total h
  rw [(init_arr hg).1, plot_ok_iff P A hB] at hf
  obtain ⟨-, -, -, -, -, -, big, small, top, -, -, -, rfl⟩ := hf
  have sh : ∀ f : ℝ × ℝ → ℝ × ℝ → ℝ, HasShape (Streams.gridT P A f) (P.length - 1) (A.length - 1) := by
    intro f
    refine ⟨Streams.gridT_rows P A f, fun r hr => ?_⟩
    obtain ⟨p, -, rfl⟩ := List.mem_map.1 hr
    rw [List.length_map, Streams.steps_length]
  refine ⟨⟨sh _, sh _, rfl, rfl⟩, fun i j br bp ba hF => ?_⟩
  obtain ⟨hi, hj, rfl, rfl, rfl⟩ := (ZdiStreams.facet_iff hB P A i j br bp ba).1 hF
  refine ⟨⟨_, Streams.at2_gridT P A _ i j hi hj, Real.sqrt_nonneg _, Real.sq_sqrt (by positivity)⟩, ?_, ?_, ?_, ?_,
    fun i' hi' j' hj' => ?_⟩
  · simp only [ZdiStreams.figOf]
    rw [Streams.at2_gridT P A _ i j hi hj, Streams.centre_eq]
  · simp only [ZdiStreams.figOf]
    rw [Streams.at2_gridT P A _ i j hi hj, Streams.centre_eq]
  · exact Streams.at2_gridT P A _ i j hi hj
  · exact Streams.at2_gridT P A _ i j hi hj
  · have h1 : i' < P.length := by simp at hi'; omega
    have h2 : j' < A.length := by simp at hj'; omega
    have hd : ∀ x, deg x = x * 180 / Real.pi := fun x => by rw [deg]; ring
    simp only [ZdiStreams.figOf, at2, List.getElem?_map, List.getElem?_eq_getElem h1, List.getElem?_eq_getElem h2, Option.map_some,
      Option.bind_some, hd, and_self]

/-- **C85.** The ticks divide the range of the corners evenly, into eight and four parts. -/
theorem C85_ticks (z : Zdi) (h : NonnegOrders z) (P A : List ℝ) (g : Geom) (hg : Geom.init (.arr P) (.arr A) = .ok g)
    (ticks : ℝ → ℝ → List ℝ) (fig : ZdiStreams.Figure) (hf : ZdiStreams.plotStreams ticks z g = .ok fig) :
    ∃ (hP : P ≠ []) (hA : A ≠ []), fig.xticks.length = 9 ∧ fig.yticks.length = 5 ∧
      (∀ k : ℕ, k < 9 → fig.xticks[k]? = some (((8 - k : ℝ) * A.head hA + k * A.getLast hA) / 8 * 180 / Real.pi)) ∧
      ∀ k : ℕ, k < 5 → fig.yticks[k]? = some (((4 - k : ℝ) * P.head hP + k * P.getLast hP) / 4 * 180 / Real.pi) := by
  obtain ⟨fp, fa, hB⟩ := total h
  rw [(init_arr hg).1, plot_ok_iff P A hB] at hf
  obtain ⟨-, -, -, -, hP, hA, big, small, top, -, -, -, rfl⟩ := hf
  refine ⟨hP, hA, by simp [ZdiStreams.figOf, Streams.ticksOf], by simp [ZdiStreams.figOf, Streams.ticksOf], fun k hk => ?_, fun k hk => ?_⟩
  · simp only [ZdiStreams.figOf, Streams.ticksOf, List.getElem?_map, List.getElem?_range hk, Option.map_some, deg]
    push_cast
    congr 1
    ring
  · simp only [ZdiStreams.figOf, Streams.ticksOf, List.getElem?_map, List.getElem?_range hk, Option.map_some, deg]
    push_cast
    congr 1
    ring

/-- **C85.** The lines are as wide as the tangential field is strong, from 0 to 3; without a tangential field the widths
are not numbers. -/
theorem C85_width (z : Zdi) (h : NonnegOrders z) (P A : List ℝ) (g : Geom) (hg : Geom.init (.arr P) (.arr A) = .ok g)
    (ticks : ℝ → ℝ → List ℝ) (fig : ZdiStreams.Figure) (hf : ZdiStreams.plotStreams ticks z g = .ok fig) :
    ∃ big, IsGreatest (zdiStrengths z P A) big ∧ ∀ i j br bp ba, ZdiFacet z P A i j br bp ba →
      (big = 0 → at2 fig.width i j = some none) ∧
      (big ≠ 0 → ∃ w, at2 fig.width i j = some (some w) ∧ 0 ≤ w ∧ w ≤ 3 ∧
        ∀ t, 0 ≤ t → t ^ 2 = bp ^ 2 + ba ^ 2 → w * big = 3 * t) := by
  obtain ⟨fp, fa, hB⟩ := total h
  rw [(init_arr hg).1, plot_ok_iff P A hB] at hf
  obtain ⟨-, -, -, -, hP, hA, big, small, top, hb, -, -, rfl⟩ := hf
  rw [vals_tang hB] at hb
  refine ⟨big, hb, fun i j br bp ba hF => ?_⟩
  have hle : Real.sqrt (bp ^ 2 + ba ^ 2) ≤ big :=
    hb.2 ⟨Real.sqrt_nonneg _, i, j, br, bp, ba, hF, Real.sq_sqrt (by positivity)⟩
  obtain ⟨hi, hj, -, e2, e3⟩ := (ZdiStreams.facet_iff hB P A i j br bp ba).1 hF
  have hw : at2 (ZdiStreams.figOf P A z fp fa big (Streams.ticksOf A hA 9) (Streams.ticksOf P hP 5) (ticks small big) top).width i j
      = some (Streams.over (3 * Real.sqrt (bp ^ 2 + ba ^ 2)) big) := by
    simp only [ZdiStreams.figOf]
    rw [Streams.at2_gridT P A _ i j hi hj, ZdiStreams.tang, e2, e3]
  have h0 := Real.sqrt_nonneg (bp ^ 2 + ba ^ 2)
  constructor
  · intro hz
    rw [hw, Streams.over, if_pos hz]
  · intro hz
    have hpos : 0 < big := lt_of_le_of_ne (le_trans h0 hle) (Ne.symm hz)
    refine ⟨3 * Real.sqrt (bp ^ 2 + ba ^ 2) / big, by rw [hw, Streams.over, if_neg hz], by positivity, ?_, fun t ht e2 => ?_⟩
    · rw [div_le_iff₀ hpos]
      linarith
    · rw [div_mul_cancel₀ _ hz, ← e2, Real.sqrt_sq ht]

/-- **C85 is violated** by the legend as C81 is: its widths are relative to the largest tick and are those of the stream lines
if and only if the largest tick is the largest strength. (The direction of the stream lines is as in `C81_direction`.) -/
theorem C85_legend (z : Zdi) (h : NonnegOrders z) (P A : List ℝ) (g : Geom) (hg : Geom.init (.arr P) (.arr A) = .ok g)
    (ticks : ℝ → ℝ → List ℝ) (fig : ZdiStreams.Figure) (hf : ZdiStreams.plotStreams ticks z g = .ok fig) :
    ∃ lo hi top, IsLeast (zdiStrengths z P A) lo ∧ IsGreatest (zdiStrengths z P A) hi ∧ IsGreatest {t | t ∈ ticks lo hi} top ∧
      fig.legend.map Prod.fst = ticks lo hi ∧
      ∀ t w, (t, w) ∈ fig.legend → 0 < t → 0 < hi → ∃ w', w = some w' ∧ w' * top = 3 * t ∧ w' ≤ 3 ∧
        (w' * hi = 3 * t ↔ top = hi) ∧ (hi < top → w' * hi < 3 * t) := by
  obtain ⟨fp, fa, hB⟩ := total h
  rw [(init_arr hg).1, plot_ok_iff P A hB] at hf
  obtain ⟨-, -, -, -, -, -, big, small, top, hb, hs, ht, rfl⟩ := hf
  rw [vals_tang hB] at hb hs
  rw [List.max?_eq_some_iff] at ht
  refine ⟨small, big, top, hs, hb, ⟨ht.1, fun t h => ht.2 t h⟩, ?_, fun t w hw h0 hbig => ?_⟩
  · simp [ZdiStreams.figOf, Function.comp_def]
  · simp only [ZdiStreams.figOf, List.mem_map, Prod.mk.injEq] at hw
    obtain ⟨t', ht', rfl, rfl⟩ := hw
    have hpos : 0 < top := lt_of_lt_of_le h0 (ht.2 _ ht')
    have e : 3 * t' / top * top = 3 * t' := div_mul_cancel₀ _ hpos.ne'
    have hwp : 0 < 3 * t' / top := by positivity
    refine ⟨_, by rw [Streams.over, if_neg hpos.ne'], e, ?_, ?_, fun hlt => ?_⟩
    · rw [div_le_iff₀ hpos]
      linarith [ht.2 _ ht']
    · constructor
      · intro e'
        exact (mul_left_cancel₀ hwp.ne' (e'.trans e.symm)).symm
      · rintro rfl
        exact e
    · exact lt_of_lt_of_eq (mul_lt_mul_of_pos_left hlt hwp) e

/-- A magnetogram of degree 2 and order 1 with all three parts on the default grid. -/
example : ∃ g fig, Geom.init .none .none = .ok g ∧
    ZdiStreams.plotStreams (fun _ hi => [hi]) [⟨2, 1, 1, Complex.I, 2⟩] g = .ok fig ∧ fig.vmin = 0 ∧ fig.black = false := by
  have hz : NonnegOrders [⟨2, 1, 1, Complex.I, 2⟩] := ⟨by simp, by simp⟩
  have hg : Geom.init (.arr (lin Real.pi 65)) (.arr (lin (2 * Real.pi) 130)) = .ok (meshgrid (lin Real.pi 65) (lin (2 * Real.pi) 130)) :=
    init_lin (by norm_num) (by norm_num)
  have hg' : Geom.init .none .none = .ok (meshgrid (lin Real.pi 65) (lin (2 * Real.pi) 130)) := by
    rw [init_none_none]; exact hg
  obtain ⟨fig, hf⟩ := C85_full _ hz 65 130 (by norm_num) (by norm_num) _ (Or.inr ⟨rfl, rfl, hg'⟩) (fun _ hi => [hi]) (by simp)
  have := C85_shows _ hz _ _ _ hg _ _ hf
  exact ⟨_, fig, hg', hf, this.1.2.2.1, this.1.2.2.2⟩

end Verif
