import Verif.Props.Geometry
import Verif.Props.Linear
import Verif.Props.Zdi
import Verif.Props.Parseval
import Mathlib.RingTheory.RootsOfUnity.Complex

/-!
# C48: the longitudinal field

The code divides by the total visible area; when no facet is visible the result is nan. The claims on the value
suppose a visible facet (`Sees`).
-/

namespace Verif
open Geometry Spec

/-- Some facet is visible from the observer. -/
def Spec.Sees (g : Geom) (θ φ : ℝ) : Prop :=
  ∃ j i w, at2 (g.projFrac (rectFromSpherical 1 θ φ)) j i = some w ∧ 0 < w

namespace Geometry

theorem mapM_inv {β γ : Type} [Inhabited γ] (xs : List β) (f : β → Res γ) (ys : List γ) (h : xs.mapM f = .ok ys) :
    (∀ x ∈ xs, f x = .ok ((f x).toOption.getD default)) ∧ ys = xs.map fun x => (f x).toOption.getD default := by
  induction xs generalizing ys with
  | nil => exact ⟨by simp, by cases h; rfl⟩
  | cons x xs ih =>
    rw [List.mapM_cons] at h
    rcases hx : f x with e | y
    · rw [hx] at h; cases h
    · rw [hx] at h
      rcases hr : xs.mapM f with e | r
      · rw [hr] at h; cases h
      · rw [hr] at h
        obtain ⟨h1, h2⟩ := ih r hr
        cases h
        refine ⟨?_, ?_⟩
        · intro x' hx'
          rcases List.mem_cons.1 hx' with rfl | hx'
          · rw [hx]; rfl
          · exact h1 x' hx'
        · rw [List.map_cons, ← h2, hx]; rfl

theorem mapM_grid_inv {α γ : Type} [Inhabited γ] (P A : List ℝ) (v : ℝ × ℝ → ℝ × ℝ → α) (f : α → Res γ) (F : Arr2 γ)
    (h : ((grid P A v).mapM fun row => row.mapM f) = .ok F) :
    (∀ p ∈ steps P, ∀ a ∈ steps A, f (v p a) = .ok ((f (v p a)).toOption.getD default)) ∧
    F = grid P A fun p a => (f (v p a)).toOption.getD default := by
  obtain ⟨h1, h2⟩ := mapM_inv _ _ _ h
  have h3 : ∀ a ∈ steps A, ((steps P).map fun p => v p a).mapM f
      = .ok ((((steps P).map fun p => v p a).mapM f).toOption.getD default) := fun a ha => h1 _ (List.mem_map.2 ⟨a, ha, rfl⟩)
  refine ⟨fun p hp a ha => ?_, ?_⟩
  · exact (mapM_inv _ _ _ (h3 a ha)).1 _ (List.mem_map.2 ⟨p, hp, rfl⟩)
  · rw [h2, grid, List.map_map, grid]
    apply List.map_congr_left
    intro a ha
    have := (mapM_inv _ _ _ (h3 a ha)).2
    rw [List.map_map] at this
    exact this

theorem mapM_grid_ok {α γ : Type} (P A : List ℝ) (v : ℝ × ℝ → ℝ × ℝ → α) (f : α → Res γ) (w : ℝ × ℝ → ℝ × ℝ → γ)
    (h : ∀ p ∈ steps P, ∀ a ∈ steps A, f (v p a) = .ok (w p a)) :
    ((grid P A v).mapM fun row => row.mapM f) = .ok (grid P A w) := by
  have h1 : ∀ a ∈ steps A, ((steps P).map fun p => v p a).mapM f = .ok ((steps P).map fun p => w p a) := by
    intro a ha
    rw [List.mapM_map]
    exact mapM_pure_ok _ _ _ fun p hp => h p hp a ha
  rw [grid, List.mapM_map]
  exact mapM_pure_ok (steps A) _ (fun a => (steps P).map fun p => w p a) h1

theorem centres_eq (P A : List ℝ) :
    map2 (fun θ φ => (θ, φ)) (meshgrid P A).centers.1 (meshgrid P A).centers.2 = grid P A fun p a => (mid p, mid a) := by
  rw [centers_eq, map2_grid]

/-- The weight of a facet. -/
noncomputable def weight (d : ℝ × ℝ × ℝ) (p a : ℝ × ℝ) : ℝ :=
  (Real.cos p.1 - Real.cos p.2) * (a.2 - a.1) * max 0 (dot3 d (rectFromSpherical 1 (mid p) (mid a)) / ‖vec d‖)

theorem projFrac_eq (P A : List ℝ) (d : ℝ × ℝ × ℝ) : (meshgrid P A).projFrac d
    = grid P A fun p a => max 0 (dot3 d (rectFromSpherical 1 (mid p) (mid a)) / ‖vec d‖) := by
  rw [Geom.projFrac, normals_eq, map1_grid, map1_grid]
  congr 1
  funext p a
  rw [norm_vec]
  have : ∀ n, dot3 (d.1 / Real.sqrt (d.1 ^ 2 + d.2.1 ^ 2 + d.2.2 ^ 2), d.2.1 / Real.sqrt (d.1 ^ 2 + d.2.1 ^ 2 + d.2.2 ^ 2),
      d.2.2 / Real.sqrt (d.1 ^ 2 + d.2.1 ^ 2 + d.2.2 ^ 2)) n = dot3 d n / Real.sqrt (d.1 ^ 2 + d.2.1 ^ 2 + d.2.2 ^ 2) := by
    intro n; simp only [dot3]; ring
  simp only [this]
  split_ifs with hp
  · rw [max_eq_right hp.le]
  · rw [max_eq_left (not_lt.1 hp)]

theorem longitudinal_eq (P A : List ℝ) (v : ℝ × ℝ → ℝ × ℝ → ℝ × ℝ × ℝ) (θ φ : ℝ) :
    let d := rectFromSpherical 1 θ φ
    longitudinal (meshgrid P A) (grid P A v) θ φ
      = sum2 (grid P A fun p a => dot3 (v p a) d * weight d p a) / sum2 (grid P A fun p a => weight d p a) := by
  intro d
  rw [longitudinal, areas_eq, projFrac_eq]
  simp only [map1_grid, map2_grid]
  rfl

theorem sum2_nonneg_pos (P A : List ℝ) (f : ℝ × ℝ → ℝ × ℝ → ℝ) (h : ∀ p ∈ steps P, ∀ a ∈ steps A, 0 ≤ f p a) :
    0 ≤ sum2 (grid P A f) ∧ ∀ p ∈ steps P, ∀ a ∈ steps A, f p a ≤ sum2 (grid P A f) := by
  have hnn : ∀ x ∈ (grid P A f).flatten, 0 ≤ x := by
    intro x hx
    obtain ⟨p, hp, a, ha, rfl⟩ := mem_flatten_grid.1 hx
    exact h p hp a ha
  refine ⟨List.sum_nonneg hnn, fun p hp a ha => ?_⟩
  exact List.single_le_sum hnn _ (mem_flatten_grid.2 ⟨p, hp, a, ha, rfl⟩)

theorem sum2_le (P A : List ℝ) (f g : ℝ × ℝ → ℝ × ℝ → ℝ) (h : ∀ p ∈ steps P, ∀ a ∈ steps A, f p a ≤ g p a) :
    sum2 (grid P A f) ≤ sum2 (grid P A g) := by
  rw [sum2_grid, sum2_grid]
  apply List.sum_le_sum
  intro a ha
  apply List.sum_le_sum
  intro p hp
  exact h p hp a ha

theorem sum2_add (P A : List ℝ) (f g : ℝ × ℝ → ℝ × ℝ → ℝ) (x y : ℝ) :
    sum2 (grid P A fun p a => x * f p a + y * g p a) = x * sum2 (grid P A f) + y * sum2 (grid P A g) := by
  simp only [sum2_grid, List.sum_map_add, List.sum_map_mul_left]

theorem weight_nonneg {P A : List ℝ} (iP : Increasing P) (iA : Increasing A) (h0 : ∀ p ∈ P, 0 ≤ p ∧ p ≤ Real.pi)
    (d : ℝ × ℝ × ℝ) {p a : ℝ × ℝ} (hp : p ∈ steps P) (ha : a ∈ steps A) :
    0 < (Real.cos p.1 - Real.cos p.2) * (a.2 - a.1) ∧ 0 ≤ weight d p a := by
  have h1 := steps_lt iP hp
  have h2 := steps_lt iA ha
  have h3 := mem_steps hp
  have := Real.cos_lt_cos_of_nonneg_of_le_pi (h0 _ h3.1).1 (h0 _ h3.2).2 h1
  have h4 : 0 < (Real.cos p.1 - Real.cos p.2) * (a.2 - a.1) := mul_pos (by linarith) (by linarith)
  exact ⟨h4, mul_nonneg h4.le (le_max_left _ _)⟩

theorem weight_sum_pos {P A : List ℝ} (iP : Increasing P) (iA : Increasing A) (h0 : ∀ p ∈ P, 0 ≤ p ∧ p ≤ Real.pi)
    {θ φ : ℝ} (hv : Sees (meshgrid P A) θ φ) : 0 < sum2 (grid P A fun p a => weight (rectFromSpherical 1 θ φ) p a) := by
  obtain ⟨j, i, w, hw, hpos⟩ := hv
  rw [projFrac_eq] at hw
  obtain ⟨p, hp, a, ha, _, _, rfl⟩ := at2_grid_inv hw
  refine lt_of_lt_of_le ?_ ((sum2_nonneg_pos P A _ fun p hp a ha => (weight_nonneg iP iA h0 _ hp ha).2).2 p hp a ha)
  exact mul_pos (weight_nonneg iP iA h0 (rectFromSpherical 1 θ φ) hp ha).1 hpos

theorem mid_offAxis {P : List ℝ} (iP : Increasing P) (h0 : ∀ p ∈ P, 0 ≤ p ∧ p ≤ Real.pi) {p : ℝ × ℝ}
    (hp : p ∈ steps P) : OffAxis (mid p) := by
  have h1 := steps_lt iP hp
  have h3 := mem_steps hp
  have := h0 _ h3.1
  have := h0 _ h3.2
  constructor <;> rw [mid] <;> linarith

/-- The cartesian field as a triple. -/
noncomputable def cart (z : Zdi) (c : ℝ × ℝ) : Res (ℝ × ℝ × ℝ) := do
  let v ← Zdi.cartesian z c.1 c.2
  pure (v 0, v 1, v 2)

theorem fieldXyz_eq (P A : List ℝ) (z : Zdi) : fieldXyz (meshgrid P A) z
    = (grid P A fun p a => (mid p, mid a)).mapM fun row => row.mapM (cart z) := by
  rw [fieldXyz, centres_eq]; rfl

theorem curve_floats {g : Geom} {z : Zdi} {θ : ℝ} {xs ys : List ℝ} (h : longitudinalCurve g z θ (.floats xs) = .ok ys) :
    ∃ F, fieldXyz g z = .ok F ∧ ys = xs.map fun x => longitudinal g F θ x := by
  rw [longitudinalCurve] at h
  rcases hF : fieldXyz g z with e | F
  · simp only [hF, bind, Except.bind] at h; cases h
  · simp only [hF, bind, Except.bind] at h
    exact ⟨F, rfl, (Except.ok.inj h).symm⟩

theorem mem_zip_map {β γ : Type} {xs : List β} {f : β → γ} {x : β} {y : γ} (h : (x, y) ∈ xs.zip (xs.map f)) :
    y = f x := by
  induction xs with
  | nil => simp at h
  | cons x' xs ih =>
    rw [List.map_cons, List.zip_cons_cons, List.mem_cons] at h
    rcases h with h | h
    · cases h; rfl
    · exact ih h

end Geometry

/-- **C48.** The longitudinal field lies between any bounds on the line-of-sight component of the field over the
visible facets. -/
theorem C48_between (P A : List ℝ) (g : Geom) (hg : Geom.init (.arr P) (.arr A) = .ok g) (iP : Increasing P)
    (iA : Increasing A) (h0 : ∀ p ∈ P, 0 ≤ p ∧ p ≤ Real.pi) (z : Zdi) (F : Arr2 (ℝ × ℝ × ℝ)) (hF : fieldXyz g z = .ok F)
    (θ φ : ℝ) (hv : Sees g θ φ) (lo hi : ℝ)
    (hb : ∀ j i b w, at2 F j i = some b → at2 (g.projFrac (rectFromSpherical 1 θ φ)) j i = some w → 0 < w →
      lo ≤ dot3 b (rectFromSpherical 1 θ φ) ∧ dot3 b (rectFromSpherical 1 θ φ) ≤ hi)
    (xs ys : List ℝ) (hc : longitudinalCurve g z θ (.floats xs) = .ok ys) (y : ℝ) (hy : (φ, y) ∈ xs.zip ys) :
    lo ≤ y ∧ y ≤ hi := by
  obtain ⟨F', hF', rfl⟩ := curve_floats hc
  rw [hF] at hF'; cases hF'
  rw [mem_zip_map hy]
  obtain ⟨rfl, _, _⟩ := init_arr hg
  rw [fieldXyz_eq] at hF
  obtain ⟨_, rfl⟩ := mapM_grid_inv _ _ _ _ _ hF
  rw [projFrac_eq] at hb
  have hpos := weight_sum_pos iP iA h0 hv
  rw [longitudinal_eq]
  set d := rectFromSpherical 1 θ φ with hd
  have key : ∀ p ∈ steps P, ∀ a ∈ steps A, lo * weight d p a ≤ dot3 ((cart z (mid p, mid a)).toOption.getD default) d * weight d p a ∧
      dot3 ((cart z (mid p, mid a)).toOption.getD default) d * weight d p a ≤ hi * weight d p a := by
    intro p hp a ha
    have hw := weight_nonneg iP iA h0 d hp ha
    rcases eq_or_lt_of_le (le_max_left 0 (dot3 d (rectFromSpherical 1 (mid p) (mid a)) / ‖vec d‖)) with h | h
    · have : weight d p a = 0 := by rw [weight, ← h, mul_zero]
      simp [this]
    · obtain ⟨i, hi', rfl⟩ := List.getElem_of_mem hp
      obtain ⟨j, hj', rfl⟩ := List.getElem_of_mem ha
      have hi2 : (steps P)[i]? = some (steps P)[i] := List.getElem?_eq_getElem hi'
      have hj2 : (steps A)[j]? = some (steps A)[j] := List.getElem?_eq_getElem hj'
      have e : ∀ {α : Type} (f : ℝ × ℝ → ℝ × ℝ → α), at2 (grid P A f) j i = some (f (steps P)[i] (steps A)[j]) := by
        intro α f
        rw [at2, grid, List.getElem?_map, hj2]; simp [hi2]
      obtain ⟨k1, k2⟩ := hb j i _ _ (e _) (e _) h
      exact ⟨mul_le_mul_of_nonneg_right k1 hw.2, mul_le_mul_of_nonneg_right k2 hw.2⟩
  have c1 := sum2_le P A _ _ fun p hp a ha => (key p hp a ha).1
  have c2 := sum2_le P A _ _ fun p hp a ha => (key p hp a ha).2
  have e : ∀ c : ℝ, sum2 (grid P A fun p a => c * weight d p a) = c * sum2 (grid P A fun p a => weight d p a) := by
    intro c
    simp only [sum2_grid, List.sum_map_mul_left]
  rw [e] at c1 c2
  exact ⟨(le_div_iff₀ hpos).2 c1, (div_le_iff₀ hpos).2 c2⟩

/-- **C48.** Its magnitude is at most the largest field strength at the facet centres. -/
theorem C48_magnitude (P A : List ℝ) (g : Geom) (hg : Geom.init (.arr P) (.arr A) = .ok g) (iP : Increasing P)
    (iA : Increasing A) (h0 : ∀ p ∈ P, 0 ≤ p ∧ p ≤ Real.pi) (z : Zdi) (θ φ : ℝ) (hv : Sees g θ φ) (M : ℝ)
    (hM : ∀ j i t f s, at2 g.centers.1 j i = some t → at2 g.centers.2 j i = some f → Zdi.strength z t f = .ok s → s ≤ M)
    (xs ys : List ℝ) (hc : longitudinalCurve g z θ (.floats xs) = .ok ys) (y : ℝ) (hy : (φ, y) ∈ xs.zip ys) :
    |y| ≤ M := by
  obtain ⟨F, hF, _⟩ := curve_floats hc
  rw [abs_le]
  refine C48_between P A g hg iP iA h0 z F hF θ φ hv (-M) M ?_ xs ys hc y hy
  intro j i b w hb _ _
  obtain ⟨rfl, _, _⟩ := init_arr hg
  rw [fieldXyz_eq] at hF
  obtain ⟨hok, rfl⟩ := mapM_grid_inv _ _ _ _ _ hF
  obtain ⟨p, hp, a, ha, hpi, haj, rfl⟩ := at2_grid_inv hb
  have e := hok p hp a ha
  rw [cart] at e
  rcases hc : Zdi.cartesian z (mid p) (mid a) with er | v
  · simp only [hc, bind, Except.bind] at e; cases e
  · have hs := ((C37_cartesian z (mid p) (mid a)).2 v hc).1
    have hb' : (cart z (mid p, mid a)).toOption.getD default = (v 0, v 1, v 2) := by
      rw [cart]; simp only [hc, bind, Except.bind]; rfl
    rw [hb']
    have at_ : ∀ f : ℝ × ℝ → ℝ × ℝ → ℝ, at2 (grid P A f) j i = some (f p a) := by
      intro f; rw [at2, grid, List.getElem?_map, haj]; simp [hpi]
    have hle := hM j i (mid p) (mid a) _ (by rw [centers_eq]; exact at_ _) (by rw [centers_eq]; exact at_ _) hs
    have hn : ‖vec (v 0, v 1, v 2)‖ ≤ M := by rw [norm_vec]; exact hle
    have hu : ‖vec (rectFromSpherical 1 θ φ)‖ = 1 := by
      rw [norm_vec, Real.sqrt_eq_one]
      simp only [rectFromSpherical]
      have a := Real.sin_sq_add_cos_sq θ
      have b := Real.sin_sq_add_cos_sq φ
      linear_combination Real.sin θ ^ 2 * b + a
    have hcs := abs_real_inner_le_norm (vec (v 0, v 1, v 2)) (vec (rectFromSpherical 1 θ φ))
    rw [inner_vec, hu, mul_one] at hcs
    exact abs_le.1 (hcs.trans hn)

/-- **C48.** The curve has one value for each azimuth and is `2π` periodic in the azimuth. -/
theorem C48_periodic (g : Geom) (z : Zdi) (θ : ℝ) (xs : List ℝ) (k : ℤ) :
    longitudinalCurve g z θ (.floats (xs.map fun x => x + k * (2 * Real.pi))) = longitudinalCurve g z θ (.floats xs) ∧
    ∀ ys, longitudinalCurve g z θ (.floats xs) = .ok ys → ys.length = xs.length := by
  refine ⟨?_, fun ys h => ?_⟩
  · rw [longitudinalCurve, longitudinalCurve]
    simp only [List.map_map]
    congr 1
    funext F
    congr 1
    apply List.map_congr_left
    intro x _
    have : ∀ x, rectFromSpherical 1 θ (x + k * (2 * Real.pi)) = rectFromSpherical 1 θ x := by
      intro x; simp [rectFromSpherical, Real.cos_add_int_mul_two_pi, Real.sin_add_int_mul_two_pi]
    simp only [Function.comp, longitudinal, this]
  · obtain ⟨F, _, rfl⟩ := curve_floats h
    simp

/-- **C48.** When no facet is visible the visible areas add up to 0 and the code divides by it. -/
theorem C48_invisible (g : Geom) (θ φ : ℝ) (h : ¬ Sees g θ φ) :
    sum2 (map2 (· * ·) g.areas (g.projFrac (rectFromSpherical 1 θ φ))) = 0 := by
  apply List.sum_eq_zero
  intro x hx
  obtain ⟨r, hr, hxr⟩ := List.mem_flatten.1 hx
  rw [map2] at hr
  obtain ⟨j, hj, rfl⟩ := List.getElem_of_mem hr
  obtain ⟨i, hi, rfl⟩ := List.getElem_of_mem hxr
  simp only [List.getElem_zipWith]
  simp only [List.length_zipWith, List.getElem_zipWith, lt_inf_iff] at hi hj
  by_contra hne
  have hw : at2 (g.projFrac (rectFromSpherical 1 θ φ)) j i = some (g.projFrac (rectFromSpherical 1 θ φ))[j][i] := by
    rw [at2, List.getElem?_eq_getElem hj.2, Option.bind_some, List.getElem?_eq_getElem hi.2]
  refine h ⟨j, i, _, hw, lt_of_le_of_ne (C47_cosine g _ j i _ hw).1 fun h0 => hne ?_⟩
  rw [← h0, mul_zero]

private theorem sum_directions {N : ℕ} (hN : 2 ≤ N) (x y : ℝ) :
    ∑ j ∈ Finset.range N, (x * Real.cos ((2 * j + 1) * (Real.pi / N)) + y * Real.sin ((2 * j + 1) * (Real.pi / N))) = 0 := by
  have hN0 : (N : ℂ) ≠ 0 := by exact_mod_cast (show N ≠ 0 by omega)
  have h := (Complex.isPrimitiveRoot_exp N (by omega)).geom_sum_eq_zero (by omega)
  have h2 : ∑ j ∈ Finset.range N, Complex.exp (((2 * j + 1) * (Real.pi / N) : ℝ) * Complex.I) = 0 := by
    rw [← mul_zero (Complex.exp (Real.pi / N * Complex.I)), ← h, Finset.mul_sum]
    refine Finset.sum_congr rfl fun j _ => ?_
    rw [← Complex.exp_nat_mul, ← Complex.exp_add]
    congr 1
    push_cast; field_simp; ring
  have hr := congrArg Complex.re h2
  have hi := congrArg Complex.im h2
  simp only [Complex.re_sum, Complex.im_sum, Complex.exp_ofReal_mul_I_re, Complex.exp_ofReal_mul_I_im, Complex.zero_re,
    Complex.zero_im] at hr hi
  rw [Finset.sum_add_distrib, ← Finset.mul_sum, ← Finset.mul_sum, hr, hi]; ring

/-- **C48.** On a full-sphere grid with at least two by three facets (the default grid has 64 by 129) every observer
sees some facet. -/
theorem C48_full_sphere_visible (n k : ℕ) (hn : 3 ≤ n) (hk : 4 ≤ k) (g : Geom)
    (hg : Geom.init (.int n) (.int k) = .ok g) (θ φ : ℝ) : Sees g θ φ := by
  have hg' := (init_ints (n := n) (k := k)).trans (init_lin (by omega) (by omega))
  rw [hg] at hg'
  obtain rfl := Except.ok.inj hg'
  by_contra hno
  set d := rectFromSpherical 1 θ φ with hd
  have hunit : d.1 ^ 2 + d.2.1 ^ 2 + d.2.2 ^ 2 = 1 := by
    simp only [hd, rectFromSpherical]
    have a := Real.sin_sq_add_cos_sq θ
    have b := Real.sin_sq_add_cos_sq φ
    linear_combination Real.sin θ ^ 2 * b + a
  have hnorm : ‖vec d‖ = 1 := by rw [norm_vec, hunit, Real.sqrt_one]
  have hle : ∀ p ∈ steps (lin Real.pi n), ∀ a ∈ steps (lin (2 * Real.pi) k), dot3 d (rectFromSpherical 1 (mid p) (mid a)) ≤ 0 := by
    intro p hp a ha
    by_contra hpos
    push Not at hpos
    obtain ⟨i, hi', rfl⟩ := List.getElem_of_mem hp
    obtain ⟨j, hj', rfl⟩ := List.getElem_of_mem ha
    refine hno ⟨j, i, _, ?_, hpos⟩
    rw [projFrac_eq, at2, grid, List.getElem?_map, List.getElem?_eq_getElem hj', Option.map_some, Option.bind_some,
      List.getElem?_map, List.getElem?_eq_getElem hi', Option.map_some, hnorm, div_one, max_eq_right hpos.le]
  have hn1 : (0 : ℝ) < (n : ℝ) - 1 := by
    have : (3 : ℝ) ≤ n := by exact_mod_cast hn
    linarith
  obtain ⟨N, rfl⟩ : ∃ N, k = N + 1 := ⟨k - 1, by omega⟩
  have hN : (0 : ℝ) < N := by exact_mod_cast (show 0 < N by omega)
  set t := Real.pi / (2 * ((n : ℝ) - 1)) with ht
  have ht0 : 0 < t := by positivity
  have ht1 : t < Real.pi / 2 := by
    rw [ht]
    have : (3 : ℝ) ≤ n := by exact_mod_cast hn
    exact div_lt_div_of_pos_left Real.pi_pos two_pos (by linarith)
  have hfirst : ∃ p ∈ steps (lin Real.pi n), mid p = t := by
    refine ⟨_, List.mem_of_getElem? (steps_get _ 0 (by rw [lin_length]; omega)), ?_⟩
    rw [mid, lin_get, lin_get, ht]; push_cast; field_simp; ring
  have hlast : ∃ p ∈ steps (lin Real.pi n), mid p = Real.pi - t := by
    refine ⟨_, List.mem_of_getElem? (steps_get _ (n - 2) (by rw [lin_length]; omega)), ?_⟩
    rw [mid, lin_get, lin_get, ht]
    obtain ⟨q, rfl⟩ : ∃ q, n = q + 3 := ⟨n - 3, by omega⟩
    simp only [show q + 3 - 2 = q + 1 by omega]
    push_cast at hn1 ⊢
    field_simp; ring
  have hazim : ∀ j < N, ∃ a ∈ steps (lin (2 * Real.pi) (N + 1)), mid a = (2 * j + 1) * (Real.pi / N) := by
    intro j hj
    refine ⟨_, List.mem_of_getElem? (steps_get _ j (by rw [lin_length]; omega)), ?_⟩
    rw [mid, lin_get, lin_get]; push_cast; rw [add_sub_cancel_right]; ring
  obtain ⟨p1, hp1, e1⟩ := hfirst
  obtain ⟨p2, hp2, e2⟩ := hlast
  have hsin : 0 < Real.sin t := Real.sin_pos_of_pos_of_lt_pi ht0 (by linarith [Real.pi_pos])
  have hcos : 0 < Real.cos t := Real.cos_pos_of_mem_Ioo ⟨by linarith, ht1⟩
  have hxy : ∀ j ∈ Finset.range N,
      d.1 * Real.cos ((2 * j + 1) * (Real.pi / N)) + d.2.1 * Real.sin ((2 * j + 1) * (Real.pi / N)) ≤ 0 := by
    intro j hj
    obtain ⟨a, ha, ea⟩ := hazim j (Finset.mem_range.1 hj)
    have h1 := hle p1 hp1 a ha
    have h2 := hle p2 hp2 a ha
    rw [e1, ea] at h1
    rw [e2, ea] at h2
    simp only [dot3, rectFromSpherical, one_mul, Real.sin_pi_sub, Real.cos_pi_sub] at h1 h2
    by_contra hpos
    push Not at hpos
    have := mul_pos hsin hpos
    linarith
  have hzero := (Finset.sum_eq_zero_iff_of_nonpos hxy).1 (sum_directions (by omega) d.1 d.2.1)
  have hz0 := hzero 0 (Finset.mem_range.2 (by omega))
  have hz1 := hzero 1 (Finset.mem_range.2 (by omega))
  have hdz : d.2.2 = 0 := by
    obtain ⟨a, ha, ea⟩ := hazim 0 (by omega)
    have h1 := hle p1 hp1 a ha
    have h2 := hle p2 hp2 a ha
    rw [e1, ea] at h1
    rw [e2, ea] at h2
    simp only [dot3, rectFromSpherical, one_mul, Real.sin_pi_sub, Real.cos_pi_sub] at h1 h2
    have e : Real.sin t * (d.1 * Real.cos ((2 * (0 : ℕ) + 1) * (Real.pi / N)) + d.2.1 * Real.sin ((2 * (0 : ℕ) + 1) * (Real.pi / N))) = 0 := by
      rw [hz0, mul_zero]
    have l1 : d.2.2 * Real.cos t ≤ 0 := by linarith
    have l2 : 0 ≤ d.2.2 * Real.cos t := by linarith
    have := le_antisymm l1 l2
    rcases mul_eq_zero.1 this with h | h
    · exact h
    · exact absurd h hcos.ne'
  set u := ((2 * ((0 : ℕ) : ℝ) + 1) * (Real.pi / N)) with hu
  set v := ((2 * ((1 : ℕ) : ℝ) + 1) * (Real.pi / N)) with hv
  have hvu : v - u = 2 * Real.pi / N := by rw [hu, hv]; push_cast; ring
  have hsuv : 0 < Real.sin (v - u) := by
    rw [hvu]
    refine Real.sin_pos_of_pos_of_lt_pi (by positivity) ?_
    rw [div_lt_iff₀ hN]
    have : (3 : ℝ) ≤ N := by exact_mod_cast (show 3 ≤ N by omega)
    nlinarith [Real.pi_pos]
  rw [Real.sin_sub] at hsuv
  have hx : d.1 = 0 := by
    have : d.1 * (Real.sin v * Real.cos u - Real.cos v * Real.sin u) = 0 := by
      linear_combination Real.sin v * hz0 - Real.sin u * hz1
    exact (mul_eq_zero.1 this).resolve_right hsuv.ne'
  have hy : d.2.1 = 0 := by
    have : d.2.1 * (Real.sin v * Real.cos u - Real.cos v * Real.sin u) = 0 := by
      linear_combination Real.cos u * hz1 - Real.cos v * hz0
    exact (mul_eq_zero.1 this).resolve_right hsuv.ne'
  rw [hx, hy, hdz] at hunit
  norm_num at hunit

/-- **C48.** For non-negative orders the curve exists and is linear in the magnetogram. -/
theorem C48_linear (P A : List ℝ) (g : Geom) (hg : Geom.init (.arr P) (.arr A) = .ok g) (iP : Increasing P)
    (h0 : ∀ p ∈ P, 0 ≤ p ∧ p ≤ Real.pi) (d : DType) (n : ℕ) (a b c : Coefs ℂ) (x y : ℝ)
    (h : LinComb d n a b c x y) (ha : ZdiSet a) (hb : ZdiSet b) (oa : ∀ l m : ℤ, stores a l m → 0 ≤ m)
    (ob : ∀ l m : ℤ, stores b l m → 0 ≤ m) (za zb zc : Zdi) (ea : Zdi.fromCoefficients a = .ok za)
    (eb : Zdi.fromCoefficients b = .ok zb) (ec : Zdi.fromCoefficients c = .ok zc) (θ : ℝ) (xs : List ℝ) :
    ∃ ya yb, longitudinalCurve g za θ (.floats xs) = .ok ya ∧ longitudinalCurve g zb θ (.floats xs) = .ok yb ∧
      longitudinalCurve g zc θ (.floats xs) = .ok (List.zipWith (fun u v => x * u + y * v) ya yb) := by
  obtain ⟨rfl, _, _⟩ := init_arr hg
  have hfield : ∀ t f, OffAxis t → ∃ va vb, cart za (t, f) = .ok va ∧ cart zb (t, f) = .ok vb ∧
      cart zc (t, f) = .ok (x * va.1 + y * vb.1, x * va.2.1 + y * vb.2.1, x * va.2.2 + y * vb.2.2) := by
    intro t f ht
    obtain ⟨pa, pb, aa, ab, e1, e2, e3, e4, e5, e6⟩ :=
      C34_zdi_tangential_partial d n a b c x y h ha hb oa ob za zb zc ea eb ec t f ht
    have er := C34_zdi_radial d n a b c x y h ha hb za zb zc ea eb ec t f
    refine ⟨_, _, by rw [cart, Zdi.cartesian, e1, e4]; rfl, by rw [cart, Zdi.cartesian, e2, e5]; rfl, ?_⟩
    rw [cart, Zdi.cartesian, e3, e6, er]
    show Except.ok _ = Except.ok _
    congr 1
    simp [toCartesian, sphToRectMatrix, Matrix.mulVec, dotProduct, Fin.sum_univ_three]
    refine ⟨by ring, by ring, by ring⟩
  choose! va vb k1 k2 k3 using hfield
  have F := fun (z : Zdi) w (hz : ∀ p ∈ steps P, ∀ q ∈ steps A, cart z (mid p, mid q) = .ok (w p q)) =>
    (fieldXyz_eq P A z).trans (mapM_grid_ok P A (fun p a => (mid p, mid a)) (cart z) w hz)
  have Fa := F za _ fun p hp q _ => k1 (mid p) (mid q) (mid_offAxis iP h0 hp)
  have Fb := F zb _ fun p hp q _ => k2 (mid p) (mid q) (mid_offAxis iP h0 hp)
  have Fc := F zc _ fun p hp q _ => k3 (mid p) (mid q) (mid_offAxis iP h0 hp)
  refine ⟨_, _, by rw [longitudinalCurve, Fa]; rfl, by rw [longitudinalCurve, Fb]; rfl, ?_⟩
  rw [longitudinalCurve, Fc]
  show Except.ok _ = Except.ok _
  congr 1
  rw [List.zipWith_map, List.zipWith_self]
  apply List.map_congr_left
  intro φ _
  rw [longitudinal_eq, longitudinal_eq, longitudinal_eq, mul_div_assoc', mul_div_assoc', ← add_div, ← sum2_add]
  congr 3
  funext p q
  simp only [dot3]; ring

/-- **C48.** Without azimuths, the curve is taken at as many equidistant azimuths as there are azimuthal corners, from
0 to a full turn; its first and last values agree. -/
theorem C48_default (P A : List ℝ) (g : Geom) (hg : Geom.init (.arr P) (.arr A) = .ok g) (z : Zdi) (θ : ℝ)
    (hA : 2 ≤ A.length) :
    longitudinalCurve g z θ = longitudinalCurve g z θ
      (.floats ((List.range A.length).map fun (i : ℕ) => (i : ℝ) * (2 * Real.pi / ((A.length : ℝ) - 1)))) ∧
    ∀ ys, longitudinalCurve g z θ = .ok ys → ys.length = A.length ∧ ys.head? = ys.getLast? := by
  have e : longitudinalCurve g z θ = longitudinalCurve g z θ
      (.floats ((List.range A.length).map fun (i : ℕ) => (i : ℝ) * (2 * Real.pi / ((A.length : ℝ) - 1)))) := by
    rw [longitudinalCurve, longitudinalCurve]
    simp only [(C46_shape P A g hg).1, linspace_eq]
    show (fieldXyz g z >>= _) = _
    congr 1
    funext F
    simp only [lin, List.map_map]
    congr 1
    apply List.map_congr_left
    intro i _
    simp only [Function.comp]
    congr 1; ring
  refine ⟨e, fun ys h => ?_⟩
  rw [e] at h
  obtain ⟨F, _, rfl⟩ := curve_floats h
  refine ⟨by simp, ?_⟩
  obtain ⟨k, hk⟩ : ∃ k, A.length = k + 2 := ⟨A.length - 2, by omega⟩
  rw [hk, List.getLast?_eq_getElem?, List.head?_eq_getElem?]
  simp only [List.length_map, List.length_range, List.getElem?_map, List.getElem?_range, Nat.add_one_sub_one]
  rw [List.getElem?_range (by omega), List.getElem?_range (by omega)]
  simp only [Option.map_some, Option.some.injEq]
  have : ((k + 1 : ℕ) : ℝ) * (2 * Real.pi / (((k + 2 : ℕ) : ℝ) - 1)) = 2 * Real.pi := by
    have : ((k : ℝ) + 1) ≠ 0 := by positivity
    push_cast
    rw [show (k : ℝ) + 2 - 1 = k + 1 by ring, mul_div_cancel₀ _ this]
  rw [this]
  simp [longitudinal, rectFromSpherical]

/-- **C48.** With integer azimuths (an integer array, or a list of python ints) the values are truncated towards zero. -/
theorem C48_integer_azimuths (g : Geom) (z : Zdi) (θ : ℝ) (xs : List ℤ) (ys : List ℝ)
    (h : longitudinalCurve g z θ (.floats (xs.map fun k : ℤ => (k : ℝ))) = .ok ys) :
    longitudinalCurve g z θ (.ints xs) = .ok (ys.map truncZ) ∧ ∀ y ∈ ys.map truncZ, ∃ k : ℤ, y = k := by
  obtain ⟨F, hF, rfl⟩ := curve_floats h
  refine ⟨?_, ?_⟩
  · rw [longitudinalCurve, hF]
    show Except.ok _ = Except.ok _
    simp [Function.comp_def]
  · intro y hy
    obtain ⟨x, _, rfl⟩ := List.mem_map.1 hy
    rw [truncZ]; split_ifs
    · exact ⟨_, rfl⟩
    · exact ⟨_, rfl⟩

/-- A monopole of coefficient 1. -/
noncomputable def exMono : Zdi := [⟨0, 0, 1, 0, 0⟩]

theorem exMono_radial {θ : ℝ} (hθ : OffAxis θ) (φ : ℝ) : Zdi.radial exMono θ φ = Real.sqrt (1 / (4 * Real.pi)) := by
  have hs := Real.sin_pos_of_pos_of_lt_pi hθ.1 hθ.2
  have hn : NonnegOrders exMono := ⟨by simp [exMono], by simp [exMono]⟩
  rw [Zdi.radial_eq hn.2 hs.le]
  have h0 : Legendre.thP 0 0 θ = 1 := by
    simp [Legendre.thP, rodNorm, rod, rodBase]
  rw [Zdi.harm, exMono]
  simp only [List.map_cons, List.map_nil, List.sum_cons, List.sum_nil, Int.toNat_zero, h0, Zdi.expi, cLm]
  rw [show (spFactorial (0 - 0) : ℝ) = 1 by simp [spFactorial], show (spFactorial (0 + 0) : ℝ) = 1 by simp [spFactorial]]
  simp only [Int.cast_zero, mul_zero, zero_add, mul_one, div_one, zero_mul, Complex.exp_zero, one_mul, add_zero,
    Complex.ofReal_one, Complex.ofReal_re]

theorem exMono_cart {θ : ℝ} (hθ : OffAxis θ) (φ : ℝ) : cart exMono (θ, φ)
    = .ok (let n := rectFromSpherical 1 θ φ; let b := Real.sqrt (1 / (4 * Real.pi)); (b * n.1, b * n.2.1, b * n.2.2)) := by
  have hs := Real.sin_pos_of_pos_of_lt_pi hθ.1 hθ.2
  have hn : NonnegOrders exMono := ⟨by simp [exMono], by simp [exMono]⟩
  have hp : Zdi.polar exMono θ φ = .ok 0 := by
    rw [Zdi.polar, Zdi.polarPoloidal_eq hn hs, Zdi.polarToroidal_eq hn.2 hs.le]
    simp [Zdi.harm, exMono, bind, Except.bind, pure, Except.pure]
  have ha : Zdi.azimuthal exMono θ φ = .ok 0 := by
    rw [Zdi.azimuthal, Zdi.azimuthalToroidal_eq hn hs, Zdi.azimuthalPoloidal_eq hn.2 hs.le]
    simp [Zdi.harm, exMono, bind, Except.bind, pure, Except.pure]
  rw [cart, Zdi.cartesian, hp, ha, exMono_radial hθ]
  show Except.ok _ = Except.ok _
  congr 1
  simp [toCartesian, sphToRectMatrix, rectFromSpherical, Matrix.mulVec, dotProduct, Fin.sum_univ_three]
  refine ⟨by ring, by ring, by ring⟩

/-- **C48.** A monopole of coefficient 1 on the one-facet grid, seen from azimuth 3: the float array gives a non-zero
value, the integer array gives 0. -/
theorem C48_truncation_witness : ∃ g y, Geom.init (.int 2) (.int 2) = .ok g ∧ Sees g (Real.pi / 2) 3 ∧ 0 < y ∧
    longitudinalCurve g exMono (Real.pi / 2) (.floats [3]) = .ok [y] ∧
    longitudinalCurve g exMono (Real.pi / 2) (.ints [3]) = .ok [0] := by
  have hpi := Real.pi_gt_three
  have hpi' := Real.pi_le_four
  have hc : Real.cos 3 < 0 := Real.cos_neg_of_pi_div_two_lt_of_lt (by linarith) (by linarith)
  have hg : Geom.init (.int 2) (.int 2) = .ok (meshgrid [0, Real.pi] [0, 2 * Real.pi]) := by
    have h := (init_ints (n := 2) (k := 2)).trans (init_lin le_rfl le_rfl)
    have e : ∀ b, lin b 2 = [0, b] := by
      intro b; simp [lin, List.range_succ]; norm_num
    rw [e, e] at h
    exact_mod_cast h
  have hF : fieldXyz (meshgrid [0, Real.pi] [0, 2 * Real.pi]) exMono
      = .ok (grid [0, Real.pi] [0, 2 * Real.pi] fun _ _ => (-Real.sqrt (1 / (4 * Real.pi)), 0, 0)) := by
    rw [fieldXyz_eq]
    apply mapM_grid_ok
    intro p hp a ha
    simp only [steps, List.dropLast_cons₂, List.dropLast_singleton, List.tail_cons, List.zip_cons_cons, List.zip_nil_right,
      List.mem_singleton] at hp ha
    subst hp ha
    have hm : mid (0, Real.pi) = Real.pi / 2 := by rw [mid]; ring
    have hm' : mid (0, 2 * Real.pi) = Real.pi := by rw [mid]; ring
    rw [hm, hm', exMono_cart ⟨by linarith, by linarith⟩]
    simp [rectFromSpherical]
  have hnorm : ‖vec (rectFromSpherical 1 (Real.pi / 2) 3)‖ = 1 := by
    rw [norm_vec, Real.sqrt_eq_one]
    simp [rectFromSpherical]
  have hfrac : max 0 (dot3 (rectFromSpherical 1 (Real.pi / 2) 3) (rectFromSpherical 1 (mid (0, Real.pi)) (mid (0, 2 * Real.pi)))
      / ‖vec (rectFromSpherical 1 (Real.pi / 2) 3)‖) = -Real.cos 3 := by
    rw [hnorm, show mid (0, Real.pi) = Real.pi / 2 by rw [mid]; ring, show mid (0, 2 * Real.pi) = Real.pi by rw [mid]; ring]
    simp [rectFromSpherical, dot3]; exact hc.le
  have hsee : Sees (meshgrid [0, Real.pi] [0, 2 * Real.pi]) (Real.pi / 2) 3 := by
    refine ⟨0, 0, -Real.cos 3, ?_, by linarith⟩
    rw [projFrac_eq]
    simp only [at2, grid, steps, List.dropLast_cons₂, List.dropLast_singleton, List.tail_cons, List.zip_cons_cons,
      List.zip_nil_right, List.map_cons, List.map_nil, List.getElem?_cons_zero, Option.bind_some, hfrac]
  have hl : longitudinal (meshgrid [0, Real.pi] [0, 2 * Real.pi])
      (grid [0, Real.pi] [0, 2 * Real.pi] fun _ _ => (-Real.sqrt (1 / (4 * Real.pi)), 0, 0)) (Real.pi / 2) 3
      = Real.sqrt (1 / (4 * Real.pi)) * -Real.cos 3 := by
    rw [longitudinal_eq]
    simp only [sum2, grid, steps, List.dropLast_cons₂, List.dropLast_singleton, List.tail_cons, List.zip_cons_cons,
      List.zip_nil_right, List.map_cons, List.map_nil, List.flatten_cons, List.flatten_nil, List.append_nil,
      List.sum_cons, List.sum_nil, add_zero, weight, hfrac]
    rw [mul_div_assoc, div_self, mul_one]
    · simp [dot3, rectFromSpherical]
    · simp only [Real.cos_zero, Real.cos_pi]
      have : 0 < (1 - -1) * (2 * Real.pi - 0) * -Real.cos 3 := mul_pos (by linarith) (by linarith)
      exact this.ne'
  have hb : 0 < Real.sqrt (1 / (4 * Real.pi)) := by positivity
  have hb1 : Real.sqrt (1 / (4 * Real.pi)) < 1 := by
    rw [Real.sqrt_lt' one_pos, div_lt_iff₀ (by positivity)]; linarith
  have hy0 : 0 < Real.sqrt (1 / (4 * Real.pi)) * -Real.cos 3 := mul_pos hb (by linarith)
  have hy1 : Real.sqrt (1 / (4 * Real.pi)) * -Real.cos 3 < 1 := by
    have := Real.neg_one_le_cos 3
    nlinarith
  refine ⟨_, Real.sqrt (1 / (4 * Real.pi)) * -Real.cos 3, hg, hsee, hy0, ?_, ?_⟩
  · rw [longitudinalCurve, hF]
    show Except.ok _ = Except.ok _
    rw [List.map_cons, List.map_nil, hl]
  · rw [longitudinalCurve, hF]
    show Except.ok _ = Except.ok _
    rw [List.map_cons, List.map_nil, show ((3 : ℤ) : ℝ) = 3 by norm_num, hl, truncZ, if_pos hy0.le,
      Int.floor_eq_zero_iff.2 ⟨hy0.le, hy1⟩]
    simp

end Verif
