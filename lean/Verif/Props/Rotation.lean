import Verif.Lemmas.Rotation
import Verif.Props.LongitudinalPlot
import Verif.Props.Superseded

/-!
# C88: the mean of the longitudinal field over a rotation

On a full-sphere grid of `N` facets in azimuth the default azimuths are `N` distinct ones and the first again.
-/

namespace Verif
open Geometry Spec LfPlot Rotation Riemann

/-- Two magnetograms have the same coefficients in the orders that are multiples of `N`. -/
def Spec.SameMultiples (N : ℕ) (z z' : Zdi) : Prop :=
  (z.filter fun r => decide ((N : ℤ) ∣ r.m)) = z'.filter fun r => decide ((N : ℤ) ∣ r.m)

namespace Rotation

/-- The components where the code gives a value. -/
noncomputable def bp (z : Zdi) (t ψ : ℝ) : ℝ := (z.polar t ψ).toOption.getD 0
noncomputable def ba (z : Zdi) (t ψ : ℝ) : ℝ := (z.azimuthal t ψ).toOption.getD 0

theorem bp_eq {z : Zdi} (h : NonnegOrders z) {t : ℝ} (ht : OffAxis t) (ψ : ℝ) : z.polar t ψ = .ok (bp z t ψ) ∧
    bp z t ψ = -(Zdi.harm (fun r => r.b * cLm r.l r.m / (r.l + 1)) Legendre.thD z t ψ).re
      + (Zdi.harm (fun r => Complex.I * r.m * (r.g * cLm r.l r.m / (r.l + 1))) Legendre.thP z t ψ).re / Real.sin t := by
  have hs := Real.sin_pos_of_pos_of_lt_pi ht.1 ht.2
  have e : z.polar t ψ = .ok (-(Zdi.harm (fun r => r.b * cLm r.l r.m / (r.l + 1)) Legendre.thD z t ψ).re
      + (Zdi.harm (fun r => Complex.I * r.m * (r.g * cLm r.l r.m / (r.l + 1))) Legendre.thP z t ψ).re / Real.sin t) := by
    rw [Zdi.polar, Zdi.polarPoloidal_eq h hs, Zdi.polarToroidal_eq h.2 hs.le]
    rfl
  rw [bp, e]
  exact ⟨rfl, rfl⟩

theorem ba_eq {z : Zdi} (h : NonnegOrders z) {t : ℝ} (ht : OffAxis t) (ψ : ℝ) : z.azimuthal t ψ = .ok (ba z t ψ) ∧
    ba z t ψ = -(Zdi.harm (fun r => r.g * cLm r.l r.m / (r.l + 1)) Legendre.thD z t ψ).re
      + -((Zdi.harm (fun r => Complex.I * r.m * (r.b * cLm r.l r.m / (r.l + 1))) Legendre.thP z t ψ).re / Real.sin t) := by
  have hs := Real.sin_pos_of_pos_of_lt_pi ht.1 ht.2
  have e : z.azimuthal t ψ = .ok (-(Zdi.harm (fun r => r.g * cLm r.l r.m / (r.l + 1)) Legendre.thD z t ψ).re
      + -((Zdi.harm (fun r => Complex.I * r.m * (r.b * cLm r.l r.m / (r.l + 1))) Legendre.thP z t ψ).re / Real.sin t)) := by
    rw [Zdi.azimuthal, Zdi.azimuthalToroidal_eq h hs, Zdi.azimuthalPoloidal_eq h.2 hs.le]
    show Except.ok _ = Except.ok _
    congr 1
    ring
  rw [ba, e]
  exact ⟨rfl, rfl⟩

theorem field_ok {z : Zdi} (h : NonnegOrders z) {n k : ℕ} (hn : 2 ≤ n) :
    fieldXyz (meshgrid (lin Real.pi n) (lin (2 * Real.pi) k)) z
      = .ok (grid (lin Real.pi n) (lin (2 * Real.pi) k) (cartF z.radial (bp z) (ba z))) := by
  rw [fieldXyz_eq]
  refine mapM_grid_ok _ _ _ _ _ fun p hp a _ => ?_
  have ho := Maps.full_offAxis hn hp
  rw [cart, Zdi.cartesian]
  simp only [(bp_eq h ho _).1, (ba_eq h ho _).1]
  rfl

theorem node_offAxis {q i : ℕ} (hi : i < q) : OffAxis (node Real.pi q i) := node_mem Real.pi_pos hi

theorem sum_harm_re {N : ℕ} {z z' : Zdi} (h : SameMultiples N z z') (w : ZRow → ℂ) (p : ℕ → ℕ → ℝ → ℝ) (t : ℝ) :
    ∑ j ∈ Finset.range N, (Zdi.harm w p z t (node (2 * Real.pi) N j)).re
      = ∑ j ∈ Finset.range N, (Zdi.harm w p z' t (node (2 * Real.pi) N j)).re := by
  rw [← Complex.re_sum, ← Complex.re_sum, sum_harm, sum_harm w p z', h]

/-- The azimuthal sums. -/
theorem sums_eq {N : ℕ} {z z' : Zdi} (hz : NonnegOrders z) (hz' : NonnegOrders z') (h : SameMultiples N z z') {t : ℝ}
    (ht : OffAxis t) :
    ∑ j ∈ Finset.range N, z.radial t (node (2 * Real.pi) N j) = ∑ j ∈ Finset.range N, z'.radial t (node (2 * Real.pi) N j) ∧
    ∑ j ∈ Finset.range N, bp z t (node (2 * Real.pi) N j) = ∑ j ∈ Finset.range N, bp z' t (node (2 * Real.pi) N j) ∧
    ∑ j ∈ Finset.range N, ba z t (node (2 * Real.pi) N j) = ∑ j ∈ Finset.range N, ba z' t (node (2 * Real.pi) N j) := by
  have hs := Real.sin_pos_of_pos_of_lt_pi ht.1 ht.2
  refine ⟨?_, ?_, ?_⟩
  · simp only [Zdi.radial_eq hz.2 hs.le, Zdi.radial_eq hz'.2 hs.le]
    exact sum_harm_re h _ _ _
  · simp only [(bp_eq hz ht _).2, (bp_eq hz' ht _).2, Finset.sum_add_distrib, Finset.sum_neg_distrib, ← Finset.sum_div]
    rw [sum_harm_re h, sum_harm_re h _ Legendre.thP t]
  · simp only [(ba_eq hz ht _).2, (ba_eq hz' ht _).2, Finset.sum_add_distrib, Finset.sum_neg_distrib, ← Finset.sum_div]
    rw [sum_harm_re h, sum_harm_re h _ Legendre.thP t]

theorem default_values {z : Zdi} (h : NonnegOrders z) {n N : ℕ} (hn : 2 ≤ n) (hN : 1 ≤ N) {g : Geom}
    (hg : Geom.init (.int n) (.int (N + 1 : ℕ)) = .ok g) {θ : ℝ} {ys : List ℝ} (hy : longitudinalCurve g z θ = .ok ys) :
    ys = (List.range (N + 1)).map fun (i : ℕ) => longitudinal (meshgrid (lin Real.pi n) (lin (2 * Real.pi) (N + 1)))
      (grid (lin Real.pi n) (lin (2 * Real.pi) (N + 1)) (cartF z.radial (bp z) (ba z))) θ ((i : ℝ) * (2 * Real.pi / N)) := by
  have hg' : Geom.init (.arr (lin Real.pi n)) (.arr (lin (2 * Real.pi) (N + 1))) = .ok g := by rw [← init_ints]; exact hg
  rw [(C48_default _ _ g hg' z θ (by rw [lin_length]; omega)).1] at hy
  obtain ⟨F, hF, rfl⟩ := curve_floats hy
  obtain rfl := Maps.full_grid hn (by omega) hg
  rw [field_ok h hn] at hF
  cases hF
  rw [List.map_map, lin_length]
  apply List.map_congr_left
  intro i _
  simp only [Function.comp]
  push_cast
  rw [add_sub_cancel_right]

theorem rotationMean_map (N : ℕ) (f : ℕ → ℝ) :
    rotationMean ((List.range (N + 1)).map f) = (∑ i ∈ Finset.range N, f i) / N := by
  rw [rotationMean, List.range_succ, List.map_append, List.map_singleton, List.dropLast_concat, sum_range_list]
  simp

end Rotation

/-- **C88.** The mean over a rotation of the longitudinal field depends only on the coefficients whose orders are multiples of
the number of facets in azimuth. -/
theorem C88_orders (n N : ℕ) (hn : 3 ≤ n) (hN : 3 ≤ N) (g : Geom) (hg : Geom.init (.int n) (.int (N + 1 : ℕ)) = .ok g)
    (z z' : Zdi) (hz : NonnegOrders z) (hz' : NonnegOrders z') (h : SameMultiples N z z') (θ : ℝ) (ys ys' : List ℝ)
    (hy : longitudinalCurve g z θ = .ok ys) (hy' : longitudinalCurve g z' θ = .ok ys') : rotationMean ys = rotationMean ys' := by
  rw [default_values hz (by omega) (by omega) hg hy, default_values hz' (by omega) (by omega) hg hy', rotationMean_map,
    rotationMean_map]
  obtain ⟨q, rfl⟩ : ∃ q, n = q + 1 := ⟨n - 1, by omega⟩
  obtain ⟨cr, cp, ca, hc⟩ := rotation_sum (q := q) (N := N) (by omega) θ
  rw [hc, hc]
  congr 1
  refine Finset.sum_congr rfl fun i hi => ?_
  obtain ⟨h1, h2, h3⟩ := sums_eq hz hz' h (node_offAxis (Finset.mem_range.1 hi))
  rw [h1, h2, h3]

/-- **C88.** In particular, if all orders are below the number of facets in azimuth, the mean over a rotation is the longitudinal
field of the axisymmetric part alone, which is the same from all azimuths. -/
theorem C88_axisymmetric (n N : ℕ) (hn : 3 ≤ n) (hN : 3 ≤ N) (g : Geom) (hg : Geom.init (.int n) (.int (N + 1 : ℕ)) = .ok g)
    (z z0 : Zdi) (hz : NonnegOrders z) (hz0 : NonnegOrders z0) (hm : ∀ r ∈ z, r.m < N)
    (h : (z.filter fun r => decide (r.m = 0)) = z0) (θ : ℝ) (ys ys0 : List ℝ)
    (hy : longitudinalCurve g z θ = .ok ys) (hy0 : longitudinalCurve g z0 θ = .ok ys0) : ∀ y ∈ ys0, y = rotationMean ys := by
  have hm0 : ∀ r ∈ z0, r.m = 0 := by
    intro r hr
    rw [← h] at hr
    simpa using (List.mem_filter.1 hr).2
  have hs : SameMultiples N z z0 := by
    rw [SameMultiples, ← h, List.filter_filter]
    apply List.filter_congr
    intro r hr
    have h1 := hm r hr
    have h2 := (hz.2 r hr).1
    by_cases h0 : r.m = 0
    · simp [h0]
    · have : ¬ (N : ℤ) ∣ r.m := fun hd => h0 (Int.eq_zero_of_dvd_of_nonneg_of_lt h2 h1 hd)
      simp [this]
  rw [C88_orders n N hn hN g hg z z0 hz hz0 hs θ ys ys0 hy hy0]
  rw [default_values hz0 (by omega) (by omega) hg hy0]
  obtain ⟨q, rfl⟩ : ∃ q, n = q + 1 := ⟨n - 1, by omega⟩
  have hax : ∀ (w : ZRow → ℂ) (p : ℕ → ℕ → ℝ → ℝ) (t ψ : ℝ), Zdi.harm w p z0 t ψ = Zdi.harm w p z0 t 0 := by
    intro w p t ψ
    rw [Zdi.harm, Zdi.harm]
    congr 1
    apply List.map_congr_left
    intro r hr
    rw [hm0 r hr]
    simp [Zdi.expi]
  have hF : grid (lin Real.pi (q + 1)) (lin (2 * Real.pi) (N + 1)) (cartF z0.radial (bp z0) (ba z0))
      = grid (lin Real.pi (q + 1)) (lin (2 * Real.pi) (N + 1))
        (cartF (fun t _ => z0.radial t 0) (fun t _ => bp z0 t 0) fun t _ => ba z0 t 0) := by
    rw [grid, grid]
    apply List.map_congr_left
    intro a _
    apply List.map_congr_left
    intro p hp
    have ho := Maps.full_offAxis (by omega) hp
    have hsin := (Real.sin_pos_of_pos_of_lt_pi ho.1 ho.2).le
    have e1 : z0.radial (mid p) (mid a) = z0.radial (mid p) 0 := by
      rw [Zdi.radial_eq hz0.2 hsin, Zdi.radial_eq hz0.2 hsin, hax]
    have e2 : bp z0 (mid p) (mid a) = bp z0 (mid p) 0 := by
      rw [(bp_eq hz0 ho _).2, (bp_eq hz0 ho _).2, hax, hax _ Legendre.thP]
    have e3 : ba z0 (mid p) (mid a) = ba z0 (mid p) 0 := by
      rw [(ba_eq hz0 ho _).2, (ba_eq hz0 ho _).2, hax, hax _ Legendre.thP]
    simp only [cartF, e1, e2, e3]
  rw [hF, rotationMean_map]
  intro y hy
  obtain ⟨k, _, rfl⟩ := List.mem_map.1 hy
  have hN0 : N ≠ 0 := by omega
  have hNr : (N : ℝ) ≠ 0 := by exact_mod_cast hN0
  simp only [axisymmetric_const hN0 θ (fun t => z0.radial t 0) (fun t => bp z0 t 0) (fun t => ba z0 t 0)]
  rw [Finset.sum_const, Finset.card_range, nsmul_eq_mul, mul_div_cancel_left₀ _ hNr]

/-- **C88.** If no order is a multiple of the number of facets in azimuth (0 among them), the mean over a rotation is zero. -/
theorem C88_none (n N : ℕ) (hn : 3 ≤ n) (hN : 3 ≤ N) (g : Geom) (hg : Geom.init (.int n) (.int (N + 1 : ℕ)) = .ok g)
    (z : Zdi) (hz : NonnegOrders z) (hm : ∀ r ∈ z, ¬ (N : ℤ) ∣ r.m) (θ : ℝ) (ys : List ℝ)
    (hy : longitudinalCurve g z θ = .ok ys) : rotationMean ys = 0 := by
  rw [default_values hz (by omega) (by omega) hg hy, rotationMean_map]
  obtain ⟨q, rfl⟩ : ∃ q, n = q + 1 := ⟨n - 1, by omega⟩
  obtain ⟨cr, cp, ca, hc⟩ := rotation_sum (q := q) (N := N) (by omega) θ
  have hf : (z.filter fun r => decide ((N : ℤ) ∣ r.m)) = [] := by
    rw [List.filter_eq_nil_iff]
    intro r hr
    simpa using hm r hr
  have h0 : ∀ (w : ZRow → ℂ) (p : ℕ → ℕ → ℝ → ℝ) (t : ℝ),
      ∑ j ∈ Finset.range N, (Zdi.harm w p z t (node (2 * Real.pi) N j)).re = 0 := by
    intro w p t
    rw [← Complex.re_sum, sum_harm, hf]
    simp [Zdi.harm]
  rw [hc, Finset.sum_eq_zero, zero_div]
  intro i hi
  have ht := node_offAxis (Finset.mem_range.1 hi)
  have hsin := (Real.sin_pos_of_pos_of_lt_pi ht.1 ht.2).le
  have e1 : ∑ j ∈ Finset.range N, z.radial (node Real.pi q i) (node (2 * Real.pi) N j) = 0 := by
    simp only [Zdi.radial_eq hz.2 hsin]
    exact h0 _ _ _
  have e2 : ∑ j ∈ Finset.range N, bp z (node Real.pi q i) (node (2 * Real.pi) N j) = 0 := by
    simp only [(bp_eq hz ht _).2, Finset.sum_add_distrib, Finset.sum_neg_distrib, ← Finset.sum_div, h0]
    simp
  have e3 : ∑ j ∈ Finset.range N, ba z (node Real.pi q i) (node (2 * Real.pi) N j) = 0 := by
    simp only [(ba_eq hz ht _).2, Finset.sum_add_distrib, Finset.sum_neg_distrib, ← Finset.sum_div, h0]
    simp
  rw [e1, e2, e3]
  ring

/-! ### Cases meeting the hypotheses -/

/-- An equatorial dipole. -/
private noncomputable def exEquator : Zdi := [⟨1, 1, -1, 0, 0⟩]

private theorem exEquator_orders : NonnegOrders exEquator := ⟨by simp [exEquator], by simp [exEquator]⟩

private theorem exEquator_field {t : ℝ} (ht : OffAxis t) (ψ : ℝ) : exEquator.radial t ψ = cLm 1 1 * (Real.sin t * Real.cos ψ) ∧
    bp exEquator t ψ = 0 ∧ ba exEquator t ψ = 0 := by
  have hs := Real.sin_pos_of_pos_of_lt_pi ht.1 ht.2
  refine ⟨?_, ?_, ?_⟩
  · rw [Zdi.radial_eq exEquator_orders.2 hs.le]
    simp only [Zdi.harm, exEquator, List.map_cons, List.map_nil, List.sum_cons, List.sum_nil, add_zero, Int.toNat_one,
      Superseded.thP_11, Zdi.expi]
    have : Complex.exp (Complex.I * (1 : ℤ) * ψ) = Complex.cos ψ + Complex.sin ψ * Complex.I := by
      rw [← Complex.exp_mul_I]; congr 1; push_cast; ring
    rw [this]
    simp [Complex.sin_ofReal_re, Complex.cos_ofReal_re]
    ring
  · rw [(bp_eq exEquator_orders ht ψ).2]
    simp [Zdi.harm, exEquator]
  · rw [(ba_eq exEquator_orders ht ψ).2]
    simp [Zdi.harm, exEquator]

/-- **C87, C88.** The dashed line misses the mean over a rotation on every full-sphere grid of at least two by three facets: for
an equatorial dipole seen from the equator the mean is zero and the line is above it. -/
theorem C88_line (n N : ℕ) (hn : 3 ≤ n) (hN : 3 ≤ N) (g : Geom) (hg : Geom.init (.int n) (.int (N + 1 : ℕ)) = .ok g) :
    ∃ z fig, NonnegOrders z ∧ plotCurve g z (Real.pi / 2) = .ok fig ∧ rotationMean (fig.points.map Prod.snd) = 0 ∧
      0 < fig.line := by
  have hg' : Geom.init (.arr (lin Real.pi n)) (.arr (lin (2 * Real.pi) (N + 1))) = .ok g := by rw [← init_ints]; exact hg
  have hA : 2 ≤ (lin (2 * Real.pi) (N + 1)).length := by rw [lin_length]; omega
  obtain ⟨fig, hfig⟩ := C87_full n (N + 1) hn (by omega) g hg exEquator exEquator_orders (Real.pi / 2) none (by simp)
  obtain ⟨c1, c2, c3⟩ := C87_default _ _ g hg' exEquator _ hA fig hfig
  have hmean : rotationMean (fig.points.map Prod.snd) = 0 := by
    refine C88_none n N hn hN g hg exEquator exEquator_orders ?_ _ _ c2
    simp only [exEquator, List.mem_singleton, forall_eq]
    intro hd
    have := Int.le_of_dvd one_pos hd
    omega
  obtain ⟨y0, d1, d2, -⟩ := C87_line _ _ g hg' exEquator _ hA fig hfig
  refine ⟨exEquator, fig, exEquator_orders, hfig, hmean, ?_⟩
  rw [d2, hmean, zero_add, sub_zero, lin_length]
  refine div_pos ?_ (by positivity)
  have hy : y0 = longitudinal (meshgrid (lin Real.pi n) (lin (2 * Real.pi) (N + 1)))
      (grid (lin Real.pi n) (lin (2 * Real.pi) (N + 1)) (cartF exEquator.radial (bp exEquator) (ba exEquator))) (Real.pi / 2)
      (((0 : ℕ) : ℝ) * (2 * Real.pi / N)) := by
    have e := default_values exEquator_orders (by omega) (by omega) hg c2
    have e' := congrArg List.head? e
    rw [List.head?_map, d1] at e'
    rw [List.range_succ_eq_map] at e'
    simpa using e'
  obtain ⟨q, rfl⟩ : ∃ q, n = q + 1 := ⟨n - 1, by omega⟩
  have hD : 0 < ∑ j ∈ Finset.range N, ∑ i ∈ Finset.range q, wt q N i (Real.pi / 2) (off N ((j : ℤ) - (0 : ℕ))) := by
    have hv := C48_full_sphere_visible (q + 1) (N + 1) hn (by omega) g hg (Real.pi / 2) (((0 : ℕ) : ℝ) * (2 * Real.pi / N))
    obtain rfl := Maps.full_grid (by omega) (by omega) hg
    have := weight_sum_pos (lin_increasing Real.pi_pos (by omega)) (lin_increasing (by positivity) (by omega))
      (fun p hp => lin_mem Real.pi_pos (by omega) hp) hv
    rw [sum2_full] at this
    convert this using 4 with j hj i hi
    rw [weight, norm_dir, div_one, mid_step, mid_step, dot_dir, off_eq, wt]
    ring
  rw [hy, long_eq]
  refine div_pos ?_ hD
  have hw0 : ∀ i < q, ∀ x, 0 ≤ wt q N i (Real.pi / 2) x := by
    intro i hi x
    have hq : (0 : ℝ) < q := by exact_mod_cast (show 0 < q by omega)
    have hiq : (i : ℝ) + 1 ≤ q := by exact_mod_cast hi
    refine mul_nonneg (mul_nonneg (sub_nonneg.2 ?_) (by positivity)) (le_max_left _ _)
    refine Real.cos_le_cos_of_nonneg_of_le_pi (by positivity) ?_ ?_
    · calc ((i : ℝ) + 1) * (Real.pi / q) ≤ q * (Real.pi / q) := by gcongr
        _ = Real.pi := by field_simp
    · have : 0 < Real.pi / q := by positivity
      nlinarith
  have hc := Superseded.cLm_pos (l := 1) (m := 1) (by norm_num) (by norm_num)
  have hterm : ∀ i < q, ∀ j : ℕ,
      (exEquator.radial (node Real.pi q i) (node (2 * Real.pi) N j) * kr (Real.pi / 2) (node Real.pi q i) (off N ((j : ℤ) - (0 : ℕ)))
        + bp exEquator (node Real.pi q i) (node (2 * Real.pi) N j) * kp (Real.pi / 2) (node Real.pi q i) (off N ((j : ℤ) - (0 : ℕ)))
        + ba exEquator (node Real.pi q i) (node (2 * Real.pi) N j) * ka (Real.pi / 2) (off N ((j : ℤ) - (0 : ℕ))))
        * wt q N i (Real.pi / 2) (off N ((j : ℤ) - (0 : ℕ)))
      = cLm 1 1 * (kr (Real.pi / 2) (node Real.pi q i) (off N ((j : ℤ) - (0 : ℕ)))) ^ 2
        * wt q N i (Real.pi / 2) (off N ((j : ℤ) - (0 : ℕ))) := by
    intro i hi j
    obtain ⟨f1, f2, f3⟩ := exEquator_field (node_offAxis hi) (node (2 * Real.pi) N j)
    rw [f1, f2, f3, ← off_eq, Nat.cast_zero, zero_mul, sub_zero]
    simp only [kr, Real.sin_pi_div_two, Real.cos_pi_div_two]
    ring
  have hnn : ∀ j ∈ Finset.range N, ∀ i ∈ Finset.range q,
      0 ≤ cLm 1 1 * (kr (Real.pi / 2) (node Real.pi q i) (off N ((j : ℤ) - (0 : ℕ)))) ^ 2
        * wt q N i (Real.pi / 2) (off N ((j : ℤ) - (0 : ℕ))) := by
    intro j _ i hi
    exact mul_nonneg (by positivity) (hw0 i (Finset.mem_range.1 hi) _)
  rw [Finset.sum_congr rfl fun j _ => Finset.sum_congr rfl fun i hi => hterm i (Finset.mem_range.1 hi) j]
  obtain ⟨j, hj, hpj⟩ := Finset.exists_lt_of_sum_lt (f := fun _ => (0 : ℝ)) (lt_of_eq_of_lt Finset.sum_const_zero hD)
  obtain ⟨i, hi, hpi⟩ := Finset.exists_lt_of_sum_lt (f := fun _ => (0 : ℝ)) (lt_of_eq_of_lt Finset.sum_const_zero hpj)
  refine Finset.sum_pos' (fun j hj => Finset.sum_nonneg (hnn j hj)) ⟨j, hj, Finset.sum_pos' (hnn j hj) ⟨i, hi, ?_⟩⟩
  refine mul_pos (mul_pos hc (pow_pos ?_ 2)) hpi
  have hmax : 0 < max 0 (kr (Real.pi / 2) (node Real.pi q i) (off N ((j : ℤ) - (0 : ℕ)))) := by
    rcases eq_or_lt_of_le (le_max_left 0 (kr (Real.pi / 2) (node Real.pi q i) (off N ((j : ℤ) - (0 : ℕ))))) with h | h
    · rw [wt, ← h, mul_zero] at hpi
      exact absurd hpi (lt_irrefl _)
    · exact h
  rcases lt_max_iff.1 hmax with h | h
  · exact absurd h (lt_irrefl _)
  · exact h

/-- A tilted dipole and its axisymmetric part. -/
example : ∃ z z0 : Zdi, NonnegOrders z ∧ NonnegOrders z0 ∧ (∀ r ∈ z, r.m < (3 : ℕ)) ∧
    (z.filter fun r => decide (r.m = 0)) = z0 ∧ z ≠ z0 ∧ SameMultiples 3 z z0 :=
  ⟨[⟨1, 0, 2, 0, 0⟩, ⟨1, 1, 1, 1, 1⟩], [⟨1, 0, 2, 0, 0⟩], ⟨by simp, by simp⟩, ⟨by simp, by simp⟩, by simp, by simp, by simp,
    by simp [SameMultiples]⟩

end Verif
