import Verif.Model.LongitudinalPlot
import Verif.Props.Longitudinal
import Verif.Props.Maps

/-!
# C87: the plot of the longitudinal field
-/

namespace Verif
open Geometry Spec LfPlot

/-- The mean over one rotation of values the last of which is again the first. -/
noncomputable def Spec.rotationMean (ys : List ℝ) : ℝ := ys.dropLast.sum / (ys.length - 1)

namespace LfPlot

theorem visible_iff {P A : List ℝ} (iP : Increasing P) (iA : Increasing A) (h0 : ∀ p ∈ P, 0 ≤ p ∧ p ≤ Real.pi) (θ φ : ℝ) :
    visibleArea (meshgrid P A) θ φ ≠ 0 ↔ Sees (meshgrid P A) θ φ := by
  constructor
  · intro h
    by_contra hs
    exact h (C48_invisible _ _ _ hs)
  · intro h
    have := weight_sum_pos iP iA h0 h
    rw [visibleArea, areas_eq, projFrac_eq]
    simp only [map2_grid]
    exact this.ne'

theorem curve_iff (g : Geom) (z : Zdi) (θ : ℝ) (φs ys : List ℝ) : curve g z θ φs = .ok ys ↔
    longitudinalCurve g z θ (.floats φs) = .ok ys ∧ ∀ φ ∈ φs, visibleArea g θ φ ≠ 0 := by
  rw [curve]
  rcases h : longitudinalCurve g z θ (.floats φs) with e | ys'
  · simp [bind, Except.bind]
  · simp only [bind, Except.bind]
    split_ifs with hv
    · exact ⟨fun h => ⟨h, hv⟩, And.left⟩
    · simp [hv]

theorem style_iff (ys φs : List ℝ) (fig : LfFigure) : plotStyle ys φs = .ok fig ↔ ∃ m, (ys.map fun y => |y|).max? = some m ∧
    fig = ⟨(φs.map fun x => x * (180 / Real.pi)).zip ys, ys.sum / ys.length, (-1 * m * 1.1, 1 * m * 1.1), (φs, ys)⟩ := by
  rw [plotStyle]
  rcases h : (ys.map fun y => |y|).max? with _ | m
  · simp
  · simp [eq_comm]

theorem plot_iff (g : Geom) (z : Zdi) (θ : ℝ) (obs : Option (List ℝ)) (fig : LfFigure) : plotCurve g z θ obs = .ok fig ↔
    ∃ φs ys, azimuths g obs = .ok φs ∧ longitudinalCurve g z θ (.floats φs) = .ok ys ∧ (∀ φ ∈ φs, visibleArea g θ φ ≠ 0) ∧
      plotStyle ys φs = .ok fig := by
  rw [plotCurve]
  rcases h : azimuths g obs with e | φs
  · simp [bind, Except.bind]
  · simp only [bind, Except.bind]
    rcases hc : curve g z θ φs with e | ys
    · simp only [reduceCtorEq, false_iff]
      rintro ⟨φs', ys', h1, h2, h3, -⟩
      cases h1
      rw [(curve_iff g z θ φs ys').2 ⟨h2, h3⟩] at hc
      cases hc
    · obtain ⟨h1, h2⟩ := (curve_iff _ _ _ _ _).1 hc
      constructor
      · intro h3
        exact ⟨φs, ys, rfl, h1, h2, h3⟩
      · rintro ⟨φs', ys', h1', h2', h3, h4⟩
        cases h1'
        rw [h1] at h2'
        cases h2'
        exact h4

theorem azimuths_default {P A : List ℝ} {g : Geom} (hg : Geom.init (.arr P) (.arr A) = .ok g) : azimuths g none =
    .ok ((List.range A.length).map fun (i : ℕ) => (i : ℝ) * (2 * Real.pi / ((A.length : ℝ) - 1))) := by
  rw [azimuths]
  simp only [(C46_shape P A g hg).1, linspace_eq]
  show Except.ok _ = Except.ok _
  congr 1
  rw [lin, List.map_map]
  apply List.map_congr_left
  intro i _
  simp only [Function.comp]
  ring

theorem max_abs_iff {ys : List ℝ} {m : ℝ} (h : (ys.map fun y => |y|).max? = some m) :
    (∃ y ∈ ys, |y| = m) ∧ ∀ y ∈ ys, |y| ≤ m := by
  rw [List.max?_eq_some_iff] at h
  obtain ⟨h1, h2⟩ := h
  refine ⟨by simpa using h1, fun y hy => h2 _ (List.mem_map_of_mem hy)⟩

theorem abs_sum_le {ys : List ℝ} {m : ℝ} (h : ∀ y ∈ ys, |y| ≤ m) : |ys.sum| ≤ ys.length * m := by
  induction ys with
  | nil => simp
  | cons y ys ih =>
    rw [List.sum_cons, List.length_cons]
    have h1 := h y (by simp)
    have h2 := ih fun y hy => h y (List.mem_cons_of_mem _ hy)
    have h3 := abs_add_le y ys.sum
    push_cast
    linarith

end LfPlot

/-- **C87.** The curve is plotted exactly if there is an azimuth, the field is defined at the centres of the facets and from
every azimuth some facet is visible. -/
theorem C87_defined (P A : List ℝ) (g : Geom) (hg : Geom.init (.arr P) (.arr A) = .ok g) (iP : Increasing P)
    (iA : Increasing A) (h0 : ∀ p ∈ P, 0 ≤ p ∧ p ≤ Real.pi) (z : Zdi) (θ : ℝ) (φs : List ℝ) :
    (∃ fig, plotCurve g z θ (some φs) = .ok fig) ↔
      φs ≠ [] ∧ (∃ ys, longitudinalCurve g z θ (.floats φs) = .ok ys) ∧ ∀ φ ∈ φs, Sees g θ φ := by
  have hv : ∀ φ, visibleArea g θ φ ≠ 0 ↔ Sees g θ φ := by
    obtain ⟨rfl, _, _⟩ := init_arr hg
    exact visible_iff iP iA h0 θ
  simp only [plot_iff, hv]
  constructor
  · rintro ⟨fig, φs', ys, h1, h2, h3, h4⟩
    cases h1
    refine ⟨?_, ⟨ys, h2⟩, h3⟩
    rintro rfl
    obtain ⟨m, hm, -⟩ := (style_iff _ _ _).1 h4
    obtain ⟨F, -, rfl⟩ := curve_floats h2
    simp at hm
  · rintro ⟨h1, ⟨ys, h2⟩, h3⟩
    have hne : ys.map (fun y => |y|) ≠ [] := by
      obtain ⟨F, -, rfl⟩ := curve_floats h2
      simpa using h1
    obtain ⟨m, hm⟩ := Option.ne_none_iff_exists'.1 fun h => hne (List.max?_eq_none_iff.1 h)
    exact ⟨_, φs, ys, rfl, h2, h3, (style_iff _ _ _).2 ⟨m, hm, rfl⟩⟩

/-- **C87.** For all magnetograms of non-negative orders and all observers the curve is plotted on all full-sphere grids of at
least two by three facets, the default grid among them. -/
theorem C87_full (n k : ℕ) (hn : 3 ≤ n) (hk : 4 ≤ k) (g : Geom) (hg : Geom.init (.int n) (.int k) = .ok g) (z : Zdi)
    (hz : NonnegOrders z) (θ : ℝ) (obs : Option (List ℝ)) (ho : obs ≠ some []) : ∃ fig, plotCurve g z θ obs = .ok fig := by
  have hs := C48_full_sphere_visible n k hn hk g hg θ
  have hg' : Geom.init (.arr (lin Real.pi n)) (.arr (lin (2 * Real.pi) k)) = .ok g := by rw [← init_ints]; exact hg
  have hF : ∃ F, fieldXyz g z = .ok F := by
    rw [Maps.full_grid (by omega) (by omega) hg, fieldXyz_eq]
    have h : ∀ p ∈ steps (lin Real.pi n), ∀ a ∈ steps (lin (2 * Real.pi) k), ∃ v, cart z (mid p, mid a) = .ok v := by
      intro p _ a _
      have h1 : ∃ x, z.polar (mid p) (mid a) = .ok x := by
        rw [Zdi.polar, Zdi.polarPoloidal, calcLpmn_ok (Zdi.lm_ne hz) (Zdi.lm_ok hz)]
        exact ⟨_, rfl⟩
      have h2 : ∃ x, z.azimuthal (mid p) (mid a) = .ok x := by
        rw [Zdi.azimuthal, Zdi.azimuthalToroidal, calcLpmn_ok (Zdi.lm_ne hz) (Zdi.lm_ok hz)]
        exact ⟨_, rfl⟩
      obtain ⟨x, hx⟩ := h1
      obtain ⟨y, hy⟩ := h2
      rw [cart, Zdi.cartesian, hx, hy]
      exact ⟨_, rfl⟩
    refine ⟨_, mapM_grid_ok _ _ _ _ (fun p a => (cart z (mid p, mid a)).toOption.getD default) fun p hp a ha => ?_⟩
    obtain ⟨v, hv⟩ := h p hp a ha
    rw [hv]
    rfl
  obtain ⟨F, hF⟩ := hF
  have main : ∀ φs : List ℝ, φs ≠ [] → ∃ fig, plotCurve g z θ (some φs) = .ok fig := by
    intro φs hne
    refine (C87_defined _ _ g hg' (lin_increasing Real.pi_pos (by omega)) (lin_increasing (by positivity) (by omega))
      (fun p hp => lin_mem Real.pi_pos (by omega) hp) z θ φs).2 ⟨hne, ?_, fun φ _ => hs φ⟩
    rw [longitudinalCurve, hF]
    exact ⟨_, rfl⟩
  cases obs with
  | some φs => exact main φs fun h => ho (by rw [h])
  | none =>
    rw [plotCurve, azimuths_default hg']
    refine main _ ?_
    simp [lin_length]
    omega

/-- **C87.** The curve has the longitudinal field at each of the azimuths, in degrees; what is returned is the same in radians.
The dashed line is at their mean. -/
theorem C87_points (g : Geom) (z : Zdi) (θ : ℝ) (φs : List ℝ) (fig : LfFigure) (h : plotCurve g z θ (some φs) = .ok fig) :
    ∃ ys, longitudinalCurve g z θ (.floats φs) = .ok ys ∧ fig.stacked = (φs, ys) ∧
      fig.points = List.zipWith (fun φ y => (φ / Real.pi * 180, y)) φs ys ∧ fig.points.length = φs.length ∧
      fig.line * φs.length = ys.sum := by
  obtain ⟨φs', ys, h1, h2, h3, h4⟩ := (plot_iff _ _ _ _ _).1 h
  cases h1
  obtain ⟨m, hm, rfl⟩ := (style_iff _ _ _).1 h4
  have hl : ys.length = φs.length := (C48_periodic g z θ φs 0).2 ys h2
  refine ⟨ys, h2, rfl, ?_, ?_, ?_⟩
  · simp only [List.zip, List.zipWith_map_left]
    congr 1
    funext x y
    rw [mul_div_assoc', div_mul_eq_mul_div]
  · simp [hl]
  · have : (φs.length : ℝ) ≠ 0 := by
      rw [← hl]
      rintro h
      have : ys = [] := by simpa using h
      rw [this] at hm
      simp at hm
    simp only [hl]
    exact div_mul_cancel₀ _ this

/-- **C87.** Without azimuths, there are as many as there are azimuthal corners, from 0 to 360 degrees at equal distances, and the
last value is again the first. -/
theorem C87_default (P A : List ℝ) (g : Geom) (hg : Geom.init (.arr P) (.arr A) = .ok g) (z : Zdi) (θ : ℝ)
    (hA : 2 ≤ A.length) (fig : LfFigure) (h : plotCurve g z θ = .ok fig) :
    fig.points.map Prod.fst = (List.range A.length).map (fun (i : ℕ) => (i : ℝ) * (360 / ((A.length : ℝ) - 1))) ∧
    longitudinalCurve g z θ = .ok (fig.points.map Prod.snd) ∧
    (fig.points.map Prod.snd).head? = (fig.points.map Prod.snd).getLast? := by
  obtain ⟨φs, ys, h1, h2, h3, h4⟩ := (plot_iff _ _ _ _ _).1 h
  rw [azimuths_default hg] at h1
  cases h1
  obtain ⟨m, hm, rfl⟩ := (style_iff _ _ _).1 h4
  have hd := C48_default P A g hg z θ hA
  have h2' := hd.1.trans h2
  obtain ⟨e1, e2⟩ := hd.2 ys h2'
  have hp : (((List.range A.length).map fun (i : ℕ) => (i : ℝ) * (2 * Real.pi / ((A.length : ℝ) - 1))).map
      fun x => x * (180 / Real.pi)).length = ys.length := by simp [e1]
  simp only
  rw [List.map_fst_zip hp.le, List.map_snd_zip hp.ge]
  refine ⟨?_, h2', e2⟩
  rw [List.map_map]
  apply List.map_congr_left
  intro i _
  have := Real.pi_pos.ne'
  simp only [Function.comp]
  field_simp
  ring

/-- **C87.** The vertical axis is symmetric about 0 and leaves above and below the curve and the dashed line a tenth of the
largest magnitude, which some point of the curve has. -/
theorem C87_limits (g : Geom) (z : Zdi) (θ : ℝ) (obs : Option (List ℝ)) (fig : LfFigure) (h : plotCurve g z θ obs = .ok fig) :
    ∃ m, fig.ylim = (-(1.1 * m), 1.1 * m) ∧ (∀ y ∈ fig.stacked.2, |y| ≤ m) ∧ (∃ y ∈ fig.stacked.2, |y| = m) ∧ |fig.line| ≤ m ∧
      (fig.ylim.1 < fig.ylim.2 ↔ ∃ y ∈ fig.stacked.2, y ≠ 0) := by
  obtain ⟨φs, ys, h1, h2, h3, h4⟩ := (plot_iff _ _ _ _ _).1 h
  obtain ⟨m, hm, rfl⟩ := (style_iff _ _ _).1 h4
  obtain ⟨⟨y0, hy0, e0⟩, hle⟩ := max_abs_iff hm
  have hpos : (0 : ℝ) < ys.length := by exact_mod_cast List.length_pos_of_mem hy0
  refine ⟨m, by simp only [Prod.mk.injEq]; constructor <;> ring, hle, ⟨y0, hy0, e0⟩, ?_, ?_⟩
  · simp only
    rw [abs_div, abs_of_pos hpos, div_le_iff₀ hpos, mul_comm]
    exact abs_sum_le hle
  · simp only
    constructor
    · intro hlt
      refine ⟨y0, hy0, fun h => ?_⟩
      rw [h, abs_zero] at e0
      rw [← e0] at hlt
      norm_num at hlt
    · rintro ⟨y, hy, hne⟩
      have h5 := hle y hy
      have h6 := abs_pos.2 hne
      linarith

/-- **C87 (violated).** With the default azimuths the dashed line is not the mean over a rotation: 0 and 360 degrees are
counted both. It is so if and only if the field at 0 degrees happens to be that mean. -/
theorem C87_line (P A : List ℝ) (g : Geom) (hg : Geom.init (.arr P) (.arr A) = .ok g) (z : Zdi) (θ : ℝ)
    (hA : 2 ≤ A.length) (fig : LfFigure) (h : plotCurve g z θ = .ok fig) :
    ∃ y0, fig.points.head? = some (0, y0) ∧
      fig.line = rotationMean (fig.points.map Prod.snd) + (y0 - rotationMean (fig.points.map Prod.snd)) / A.length ∧
      (fig.line = rotationMean (fig.points.map Prod.snd) ↔ y0 = rotationMean (fig.points.map Prod.snd)) := by
  obtain ⟨c1, c2, c3⟩ := C87_default P A g hg z θ hA fig h
  obtain ⟨φs, ys, h1, h2, h3, h4⟩ := (plot_iff _ _ _ _ _).1 h
  rw [azimuths_default hg] at h1
  cases h1
  obtain ⟨m, hm, rfl⟩ := (style_iff _ _ _).1 h4
  have hl : ys.length = A.length := by
    have := (C48_periodic g z θ _ 0).2 ys h2
    simpa using this
  simp only at c1 c2 c3 ⊢
  have hp : (((List.range A.length).map fun (i : ℕ) => (i : ℝ) * (2 * Real.pi / ((A.length : ℝ) - 1))).map
      fun x => x * (180 / Real.pi)).length = ys.length := by simp [hl]
  rw [List.map_snd_zip hp.ge] at c2 c3 ⊢
  have hne : ys ≠ [] := by
    rintro rfl
    simp at hl
    omega
  obtain ⟨y0, t, rfl⟩ := List.exists_cons_of_ne_nil hne
  have hlast : (y0 :: t).getLast hne = y0 := by
    rw [List.getLast?_eq_getLast_of_ne_nil hne] at c3
    simpa using c3.symm
  have hsum : (y0 :: t).sum = (y0 :: t).dropLast.sum + y0 := by
    conv_lhs => rw [← List.dropLast_append_getLast hne, hlast]
    simp
  have hn2 : (2 : ℝ) ≤ A.length := by exact_mod_cast hA
  have hn1 : ((A.length : ℝ) - 1) ≠ 0 := by
    intro h
    linarith
  have hn : (A.length : ℝ) ≠ 0 := by
    intro h
    linarith
  have key : (y0 :: t).sum / ((y0 :: t).length : ℝ) = rotationMean (y0 :: t) + (y0 - rotationMean (y0 :: t)) / A.length := by
    rw [hsum, rotationMean, hl]
    field_simp
    ring
  refine ⟨y0, ?_, key, ?_⟩
  · obtain ⟨k, hk⟩ : ∃ k, A.length = k + 1 := ⟨A.length - 1, by omega⟩
    rw [hk, List.range_succ_eq_map]
    simp
  · rw [key]
    constructor
    · intro h
      have : (y0 - rotationMean (y0 :: t)) / A.length = 0 := by linarith
      rcases div_eq_zero_iff.1 this with h | h
      · linarith
      · exact absurd h hn
    · intro h
      rw [← h]
      simp

end Verif
