import Verif.Props.Maps
import Verif.Props.Pfss

/-!
# C72 for the maps of a potential field extrapolation
-/

namespace Verif
open Spec Coefs Geometry Maps

namespace Maps

theorem pfssComponents_eq (P A : List ℝ) {s : Coefs ℂ} {radius rss : ℝ} {B : ℝ → ℝ → ℝ × ℝ × ℝ}
    (h : ∀ θ φ, Pfss.evalSpherical s radius θ φ 1 rss = .ok (B θ φ)) :
    pfssComponents s (meshgrid P A) radius rss = components (grid P A fun p a => (B (mid p) (mid a)).1)
      (grid P A fun p a => (B (mid p) (mid a)).2.1) (grid P A fun p a => (B (mid p) (mid a)).2.2) := by
  rw [pfssComponents, centres_eq, mapM_grid_ok P A _ _ (fun p a => B (mid p) (mid a)) fun p _ a _ => h _ _]
  simp only [bind, Except.bind]
  rw [map1_grid, map1_grid, map1_grid]

end Maps

/-- **C72.** The maps of a potential field extrapolation are defined at every radius, each shows its own component of
`evaluate_spherical` at the centres, and no value lies outside the colour range of its map. -/
theorem C72_pfss_defined (s : Coefs ℂ) (h : RadialSet s) (n k : ℕ) (hn : 2 ≤ n) (hk : 2 ≤ k) (g : Geom)
    (hg : Geom.init (.int n) (.int k) = .ok g) (radius rss : ℝ) (hr : 1 < rss) :
    ∃ c, pfssComponents s g radius rss = .ok c ∧ ∀ p ∈ steps (lin Real.pi n), ∀ a ∈ steps (lin (2 * Real.pi) k), ∃ br bp ba,
      Pfss.evalSpherical s radius (mid p) (mid a) 1 rss = .ok (br, bp, ba) ∧
      (c.radial.vmin ≤ br ∧ br ≤ c.radial.vmax) ∧
      (c.polar.vmin ≤ bp ∧ bp ≤ c.polar.vmax) ∧ (c.azimuthal.vmin ≤ ba ∧ ba ≤ c.azimuthal.vmax) := by
  obtain ⟨B, hB⟩ : ∃ B : ℝ → ℝ → ℝ × ℝ × ℝ, ∀ θ φ, Pfss.evalSpherical s radius θ φ 1 rss = .ok (B θ φ) :=
    ⟨_, fun θ φ => Pfss.evalSpherical_eq h hr radius θ φ⟩
  rw [full_grid hn hk hg, pfssComponents_eq _ _ hB]
  have lP : 2 ≤ (lin Real.pi n).length := by rw [lin_length]; exact hn
  have lA : 2 ≤ (lin (2 * Real.pi) k).length := by rw [lin_length]; exact hk
  obtain ⟨c, hc⟩ := components_total none (grid_nonempty lP lA fun p a => (B (mid p) (mid a)).1)
    (grid_nonempty lP lA fun p a => (B (mid p) (mid a)).2.1) (grid_nonempty lP lA fun p a => (B (mid p) (mid a)).2.2)
  refine ⟨c, hc, fun p hp a ha => ⟨_, _, _, hB _ _, ?_⟩⟩
  obtain ⟨A, hA, h1, h2, h3, -⟩ := components_ok hc
  have up : ∀ f, (∀ v ∈ vals f, v ∈ vals (grid (lin Real.pi n) (lin (2 * Real.pi) k) fun p a => (B (mid p) (mid a)).1) ∨
      v ∈ vals (grid (lin Real.pi n) (lin (2 * Real.pi) k) fun p a => (B (mid p) (mid a)).2.1) ∨
      v ∈ vals (grid (lin Real.pi n) (lin (2 * Real.pi) k) fun p a => (B (mid p) (mid a)).2.2)) →
      ∀ m, some A = some m → ∀ v ∈ vals f, v ≤ m := by
    rintro f hf m ⟨⟩ v hv
    exact le_trans (le_abs_self v) (hA.2 ⟨v, hf v hv, rfl⟩)
  refine ⟨?_, ?_, ?_⟩
  · exact C72_no_clipping _ _ _ _ _ h1 (up _ fun v hv => Or.inl hv) _ (vals_grid.2 ⟨p, hp, a, ha, rfl⟩)
  · exact C72_no_clipping _ _ _ _ _ h2 (up _ fun v hv => Or.inr (Or.inl hv)) _ (vals_grid.2 ⟨p, hp, a, ha, rfl⟩)
  · exact C72_no_clipping _ _ _ _ _ h3 (up _ fun v hv => Or.inr (Or.inr hv)) _ (vals_grid.2 ⟨p, hp, a, ha, rfl⟩)

/-- **C72 is violated** for the maps at and outside the source surface, where the field is radial: the colour bar, that
of the azimuthal map, is viridis from 0 to the largest strength, while a radial map with both signs is red and blue on
twice that range. -/
theorem C72_pfss_bar (s : Coefs ℂ) (h : RadialSet s) (n k : ℕ) (hn : 2 ≤ n) (hk : 2 ≤ k) (g : Geom)
    (hg : Geom.init (.int n) (.int k) = .ok g) (radius rss : ℝ) (hr : 1 < rss) (hrad : rss ≤ radius) :
    ∃ c A, pfssComponents s g radius rss = .ok c ∧ 0 ≤ A ∧ c.bar = ⟨false, "viridis", 0, A⟩ ∧ c.polar = c.bar ∧
      ((∃ p ∈ steps (lin Real.pi n), ∃ a ∈ steps (lin (2 * Real.pi) k), ∃ br bp ba, br < 0 ∧
        Pfss.evalSpherical s radius (mid p) (mid a) 1 rss = .ok (br, bp, ba)) →
       (∃ p ∈ steps (lin Real.pi n), ∃ a ∈ steps (lin (2 * Real.pi) k), ∃ br bp ba, 0 < br ∧
        Pfss.evalSpherical s radius (mid p) (mid a) 1 rss = .ok (br, bp, ba)) → c.radial = ⟨true, "RdBu_r", -A, A⟩) := by
  obtain ⟨b, hb⟩ : ∃ b : ℝ → ℝ → ℝ, ∀ θ φ, Pfss.evalSpherical s radius θ φ 1 rss = .ok (b θ φ, 0, 0) := by
    choose b hb using fun θ φ => C30_source_surface s h 1 rss one_pos hr radius θ φ hrad
    exact ⟨b, hb⟩
  rw [full_grid hn hk hg, pfssComponents_eq _ _ hb]
  have lP : 2 ≤ (lin Real.pi n).length := by rw [lin_length]; exact hn
  have lA : 2 ≤ (lin (2 * Real.pi) k).length := by rw [lin_length]; exact hk
  obtain ⟨c, hc⟩ := components_total none (grid_nonempty lP lA fun p a => b (mid p) (mid a))
    (grid_nonempty lP lA fun _ _ => (0 : ℝ)) (grid_nonempty lP lA fun _ _ => (0 : ℝ))
  obtain ⟨A, hA, h1, h2, h3, h4⟩ := components_ok hc
  have hv0 : ∀ v, v ∈ vals (grid (lin Real.pi n) (lin (2 * Real.pi) k) fun _ _ => (0 : ℝ)) ↔ v = 0 := by
    intro v
    rw [vals_grid]
    constructor
    · rintro ⟨p, hp, a, ha, rfl⟩; rfl
    · rintro rfl
      obtain ⟨p, hp⟩ := steps_ne lP
      obtain ⟨a, ha⟩ := steps_ne lA
      exact ⟨p, hp, a, ha, rfl⟩
  have hpa : c.azimuthal = c.polar := by rw [h2] at h3; exact (Except.ok.inj h3).symm
  have hbar : c.azimuthal = ⟨false, "viridis", 0, A⟩ := by
    obtain ⟨lo, hi, l, -, sy, cm', -, nn⟩ := C72_scale _ _ _ _ _ h3
    have hlo := (hv0 lo).1 l.1
    simp only [reduceCtorEq, true_and, false_or] at sy
    have hf : c.azimuthal.symmetric = false := by
      cases hh : c.azimuthal.symmetric with
      | true =>
        obtain ⟨⟨v, hv, v0⟩, -⟩ := sy.1 hh
        rw [(hv0 v).1 hv] at v0
        exact absurd v0 (lt_irrefl _)
      | false => rfl
    obtain ⟨n1, n2⟩ := nn hf
    rw [hf] at cm'
    rw [hlo] at n1
    generalize c.azimuthal = q at *
    obtain ⟨a, b, c, d⟩ := q
    simp only [Option.getD_none, Bool.false_eq_true, if_false, Option.getD_some] at cm' n1 n2 hf
    subst cm' n1 n2 hf
    rfl
  refine ⟨c, A, hc, ?_, by rw [h4, hbar], by rw [h4, hpa], ?_⟩
  · obtain ⟨w, -, hw⟩ := hA.1
    rw [← hw]; exact abs_nonneg w
  · rintro ⟨p, hp, a, ha, br, bp, ba, neg, e⟩ ⟨p', hp', a', ha', br', bp', ba', pos, e'⟩
    rw [hb] at e e'
    cases e
    cases e'
    have hbs : BothSigns (grid (lin Real.pi n) (lin (2 * Real.pi) k) fun p a => b (mid p) (mid a)) :=
      ⟨⟨_, vals_grid.2 ⟨p, hp, a, ha, rfl⟩, neg⟩, ⟨_, vals_grid.2 ⟨p', hp', a', ha', rfl⟩, pos⟩⟩
    exact symmetric_panel hA (fun v hv => Or.inl hv) h1 (Or.inr ⟨rfl, hbs⟩)

private noncomputable def exDipole : Coefs ℂ := ⟨[0], .cplx, [((1, 0), [1])], 1, 0⟩

private theorem exDipole_WF : exDipole.WF := by
  refine Reach.WF (Reach.append (s := Coefs.new [0] .cplx) (.int 1) (.int 0) [1] ?_ rfl)
  exact Reach.new _ _ (by simp)

private theorem exDipole_radial : RadialSet exDipole := by
  refine ⟨wellFormed_of_WF exDipole_WF, rfl, ⟨1, 0, rfl⟩, fun l m hm => ?_⟩
  rw [stores, has_int] at hm
  simp [exDipole, Coefs.keys] at hm
  omega

/-- A dipole at the source surface. -/
example : ∃ g c A, Geom.init (.int (10 : ℕ)) (.int (20 : ℕ)) = .ok g ∧ pfssComponents exDipole g 3 (5 / 2) = .ok c ∧
    c.bar = ⟨false, "viridis", 0, A⟩ := by
  refine ⟨meshgrid (lin Real.pi 10) (lin (2 * Real.pi) 20), ?_⟩
  have hg : Geom.init (.int (10 : ℕ)) (.int (20 : ℕ)) = .ok (meshgrid (lin Real.pi 10) (lin (2 * Real.pi) 20)) := by
    rw [init_ints, init_lin (by norm_num) (by norm_num)]
  obtain ⟨c, A, h1, -, h2, -⟩ := C72_pfss_bar exDipole exDipole_radial 10 20 (by norm_num) (by norm_num) _ hg 3 (5 / 2)
    (by norm_num) (by norm_num)
  exact ⟨c, A, hg, h1, h2⟩

end Verif
