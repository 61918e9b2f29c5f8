import Verif.Lemmas.PfssCartesian
import Verif.Props.Linear
import Verif.Props.Slice

/-!
# Property C98: the extrapolation is the only potential field with the given surface field
-/

namespace Verif
open Spec Legendre Coefs Pfss Shell Filter Topology InnerProductSpace

namespace Spec

/-- Points that are not on the axis of the coordinate system. -/
def OffPoleLine (x : E3) : Prop := x 0 ≠ 0 ∨ x 1 ≠ 0

/-- A potential of a field between two spheres: harmonic on the closed shell and constant on the outer sphere. -/
structure ShellPotential (V : E3 → ℝ) (r0 rss : ℝ) : Prop where
  harmonic : HarmonicOnNhd V {x | r0 ≤ ‖x‖ ∧ ‖x‖ ≤ rss}
  outer : ∃ c, ∀ x, ‖x‖ = rss → V x = c

end Spec

namespace Shell

theorem angles (x : E3) (hx : OffPoleLine x) :
    ∃ r θ φ, sphericalFromRect (x 0) (x 1) (x 2) = (r, θ, φ) ∧ r = ‖x‖ ∧ 0 < r ∧ OffAxis θ ∧ point r θ φ = x := by
  have hr := C35_rect_of_spherical (x 0) (x 1) (x 2)
  have hrad := C35_radius (x 0) (x 1) (x 2)
  have hra := C35_ranges (x 0) (x 1) (x 2)
  rcases hq : sphericalFromRect (x 0) (x 1) (x 2) with ⟨r, θ, φ⟩
  rw [hq] at hr hrad hra
  simp only [rectFromSpherical, Prod.mk.injEq] at hr hrad hra
  obtain ⟨e0, e1, e2⟩ := hr
  have hn : r = ‖x‖ := (pow_left_inj₀ hra.1 (norm_nonneg _) two_ne_zero).1 (by rw [normSq_eq]; exact hrad)
  have hs : r * Real.sin θ ≠ 0 := by
    intro h
    rw [h] at e0 e1
    rcases hx with h | h
    · exact h (by rw [← e0, zero_mul])
    · exact h (by rw [← e1, zero_mul])
  refine ⟨r, θ, φ, rfl, hn, lt_of_le_of_ne hra.1 (Ne.symm (left_ne_zero_of_mul hs)), ⟨?_, ?_⟩, ?_⟩
  · refine lt_of_le_of_ne hra.2.1 fun h => right_ne_zero_of_mul hs (by rw [← h, Real.sin_zero])
  · refine lt_of_le_of_ne hra.2.2.1 fun h => right_ne_zero_of_mul hs (by rw [h, Real.sin_pi])
  · ext i
    fin_cases i
    · exact (point_zero _ _ _).trans e0
    · exact (point_one _ _ _).trans e1
    · exact (point_two _ _ _).trans e2

/-- Every point has spherical coordinates. -/
theorem exists_point (x : E3) : ∃ θ φ, 0 ≤ θ ∧ θ ≤ Real.pi ∧ point ‖x‖ θ φ = x := by
  have hr := C35_rect_of_spherical (x 0) (x 1) (x 2)
  have hrad := C35_radius (x 0) (x 1) (x 2)
  have hra := C35_ranges (x 0) (x 1) (x 2)
  rcases hq : sphericalFromRect (x 0) (x 1) (x 2) with ⟨r, θ, φ⟩
  rw [hq] at hr hrad hra
  simp only [rectFromSpherical, Prod.mk.injEq] at hr hrad hra
  obtain ⟨e0, e1, e2⟩ := hr
  have hn : r = ‖x‖ := (pow_left_inj₀ hra.1 (norm_nonneg _) two_ne_zero).1 (by rw [normSq_eq]; exact hrad)
  refine ⟨θ, φ, hra.2.1, hra.2.2.1, ?_⟩
  rw [← hn]
  ext i
  fin_cases i
  · exact (point_zero _ _ _).trans e0
  · exact (point_one _ _ _).trans e1
  · exact (point_two _ _ _).trans e2

theorem offPoleLine_point {r θ : ℝ} (hr : 0 < r) (hθ : OffAxis θ) (φ : ℝ) : OffPoleLine (point r θ φ) := by
  have hs : 0 < Real.sin θ := Real.sin_pos_of_pos_of_lt_pi hθ.1 hθ.2
  rw [OffPoleLine, point_zero, point_one]
  by_contra h
  push Not at h
  have h1 : Real.cos φ = 0 := (mul_eq_zero.1 h.1).resolve_left (mul_pos hr hs).ne'
  have h2 : Real.sin φ = 0 := (mul_eq_zero.1 h.2).resolve_left (mul_pos hr hs).ne'
  have := Real.sin_sq_add_cos_sq φ
  rw [h1, h2] at this
  norm_num at this

/-- The unit vectors of spherical coordinates. -/
noncomputable def eR (θ φ : ℝ) : E3 := point 1 θ φ
noncomputable def eP (θ φ : ℝ) : E3 :=
  (Real.cos θ * Real.cos φ) • EuclideanSpace.single 0 1 + (Real.cos θ * Real.sin φ) • EuclideanSpace.single 1 1
    + (-Real.sin θ) • EuclideanSpace.single 2 1
noncomputable def eA (φ : ℝ) : E3 :=
  (-Real.sin φ) • EuclideanSpace.single 0 1 + (Real.cos φ) • EuclideanSpace.single 1 1

private theorem point_dr (r θ φ : ℝ) : HasDerivAt (fun t => point t θ φ) (eR θ φ) r := by
  have h := fun (c : ℝ) (e : E3) => ((hasDerivAt_id r).mul_const c).smul_const e
  have e : (fun t => point t θ φ) = fun t => (t * (Real.sin θ * Real.cos φ)) • EuclideanSpace.single 0 1
      + (t * (Real.sin θ * Real.sin φ)) • EuclideanSpace.single 1 1 + (t * Real.cos θ) • EuclideanSpace.single 2 1 := by
    funext t; simp only [point, mul_assoc]
  rw [e]
  refine (((h _ _).add (h _ _)).add (h _ _)).congr_deriv ?_
  simp only [eR, point, one_mul]

private theorem point_dp (r θ φ : ℝ) : HasDerivAt (fun t => point r t φ) (r • eP θ φ) θ := by
  have hs := fun (c : ℝ) (e : E3) => (((Real.hasDerivAt_sin θ).const_mul r).mul_const c).smul_const e
  have hc := fun (e : E3) => ((Real.hasDerivAt_cos θ).const_mul r).smul_const e
  refine (((hs _ _).add (hs _ _)).add (hc _)).congr_deriv ?_
  simp only [eP, smul_add, smul_smul, mul_assoc]

private theorem point_da (r θ φ : ℝ) : HasDerivAt (fun t => point r θ t) ((r * Real.sin θ) • eA φ) φ := by
  have hs := fun (e : E3) => ((Real.hasDerivAt_sin φ).const_mul (r * Real.sin θ)).smul_const e
  have hc := fun (e : E3) => ((Real.hasDerivAt_cos φ).const_mul (r * Real.sin θ)).smul_const e
  refine (((hc _).add (hs _)).add (hasDerivAt_const φ _)).congr_deriv ?_
  simp only [eA, smul_add, smul_smul, add_zero]

/-- The field of the code is minus the gradient of the cartesian potential, spherical components. -/
theorem sph_gradient {s : Coefs ℂ} (h : RadialSet s) {r0 rss : ℝ} (h0 : 0 < r0) (h1 : r0 < rss) {r θ φ : ℝ}
    (hr0 : r0 ≤ r) (hr1 : r ≤ rss) (hθ : OffAxis θ) :
    evalSpherical s r θ φ r0 rss = .ok (-(fderiv ℝ (pot s r0 rss) (point r θ φ) (eR θ φ)),
      -(fderiv ℝ (pot s r0 rss) (point r θ φ) (eP θ φ)), -(fderiv ℝ (pot s r0 rss) (point r θ φ) (eA φ))) := by
  have hr : 0 < r := lt_of_lt_of_le h0 hr0
  have hss := lt_trans h0 h1
  have hsin : 0 < Real.sin θ := Real.sin_pos_of_pos_of_lt_pi hθ.1 hθ.2
  obtain ⟨br, bp, ba, e, d1, d2, d3⟩ := C32_gradient s h r0 rss h0 h1 r θ φ hr0 hr1 hθ
  have hne : point r θ φ ≠ 0 := by
    rw [← norm_pos_iff, norm_point hr.le]; exact hr
  have hd : HasFDerivAt (pot s r0 rss) (fderiv ℝ (pot s r0 rss) (point r θ φ)) (point r θ φ) :=
    ((harmonicAt_pot h r0 rss hne).1.differentiableAt (by norm_num)).hasFDerivAt
  have c1 := (hd.comp_hasDerivAt r (point_dr r θ φ)).congr_of_eventuallyEq
    (f₁ := fun x => potential s r0 rss x θ φ) (by
      filter_upwards [lt_mem_nhds hr] with t ht using (pot_point h r0 rss hss ht hsin.le φ).symm)
  have c2 := (hd.comp_hasDerivAt θ (point_dp r θ φ)).congr_of_eventuallyEq
    (f₁ := fun x => potential s r0 rss r x φ) (by
      have : ∀ᶠ t in 𝓝 θ, 0 < Real.sin t := Real.continuous_sin.continuousAt.eventually (lt_mem_nhds hsin)
      filter_upwards [this] with t ht using (pot_point h r0 rss hss hr ht.le φ).symm)
  have c3 := (hd.comp_hasDerivAt φ (point_da r θ φ)).congr_of_eventuallyEq
    (f₁ := fun x => potential s r0 rss r θ x) (Eventually.of_forall fun t => (pot_point h r0 rss hss hr hsin.le t).symm)
  have q1 := c1.unique d1
  have q2 := c2.unique d2
  have q3 := c3.unique d3
  rw [map_smul, smul_eq_mul] at q2 q3
  have p2 : fderiv ℝ (pot s r0 rss) (point r θ φ) (eP θ φ) = -bp := by
    apply mul_left_cancel₀ hr.ne'; linarith
  have p3 : fderiv ℝ (pot s r0 rss) (point r θ φ) (eA φ) = -ba := by
    apply mul_left_cancel₀ (mul_pos hr hsin).ne'; linarith
  rw [e, q1, p2, p3, neg_neg, neg_neg, neg_neg]

/-- The field of the code in cartesian components. -/
theorem cart_gradient {s : Coefs ℂ} (h : RadialSet s) {r0 rss : ℝ} (h0 : 0 < r0) (h1 : r0 < rss) {x : E3}
    (hx : r0 ≤ ‖x‖ ∧ ‖x‖ ≤ rss) (ho : OffPoleLine x) {f : ℝ × ℝ × ℝ} {v : Fin 3 → ℝ}
    (he : evalCartesian s (x 0) (x 1) (x 2) r0 rss = .ok (f, v)) :
    (∀ i, v i = -fderiv ℝ (pot s r0 rss) x (EuclideanSpace.single i 1)) ∧
      ‖x‖ * f.1 = -fderiv ℝ (pot s r0 rss) x x := by
  obtain ⟨r, θ, φ, hp, hn, hr, hθ, rfl⟩ := angles x ho
  rw [← hn] at hx ⊢
  rw [evalCartesian, resAssert, if_pos h1] at he
  simp only [Bind.bind, Except.bind, Pure.pure, Except.pure, hp, sph_gradient h h0 h1 hx.1 hx.2 hθ, Except.ok.injEq,
    Prod.mk.injEq] at he
  obtain ⟨rfl, rfl⟩ := he
  set D := fderiv ℝ (pot s r0 rss) (point r θ φ) with hD
  have a := Real.sin_sq_add_cos_sq θ
  have b := Real.sin_sq_add_cos_sq φ
  constructor
  · intro i
    simp only [eR, eP, eA, point, map_add, map_smul, smul_eq_mul, one_mul]
    fin_cases i
    · simp [toCartesian, sphToRectMatrix, Matrix.mulVec, dotProduct, Fin.sum_univ_three]
      linear_combination (-D (EuclideanSpace.single 0 1) * Real.cos φ ^ 2 - D (EuclideanSpace.single 1 1) * Real.cos φ * Real.sin φ) * a - D (EuclideanSpace.single 0 1) * b
    · simp [toCartesian, sphToRectMatrix, Matrix.mulVec, dotProduct, Fin.sum_univ_three]
      linear_combination (-D (EuclideanSpace.single 1 1) * Real.sin φ ^ 2 - D (EuclideanSpace.single 0 1) * Real.cos φ * Real.sin φ) * a - D (EuclideanSpace.single 1 1) * b
    · simp [toCartesian, sphToRectMatrix, Matrix.mulVec, dotProduct, Fin.sum_univ_three]
      linear_combination -D (EuclideanSpace.single 2 1) * a
  · have : point r θ φ = r • eR θ φ := by simp only [eR, point, smul_add, smul_smul]; ring_nf
    conv_rhs => rw [this]
    rw [map_smul, smul_eq_mul]; ring

/-- The potential vanishes on the source surface. -/
theorem pot_outer {s : Coefs ℂ} (h : RadialSet s) (r0 : ℝ) {rss : ℝ} (hss : 0 < rss) {x : E3} (hx : ‖x‖ = rss) :
    pot s r0 rss x = 0 := by
  obtain ⟨θ, φ, h0, h1, e⟩ := exists_point x
  rw [← e, hx, pot_point h r0 rss hss hss (Real.sin_nonneg_of_nonneg_of_le_pi h0 h1), potential]
  refine Finset.sum_eq_zero fun k _ => ?_
  simp [radialFn, div_self hss.ne']

theorem potential_of_code {s : Coefs ℂ} (h : RadialSet s) {r0 rss : ℝ} (h0 : 0 < r0) (h1 : r0 < rss) :
    ShellPotential (pot s r0 rss) r0 rss :=
  ⟨fun x hx => harmonicAt_pot h r0 rss (norm_pos_iff.1 (lt_of_lt_of_le h0 hx.1)),
    0, fun _ hx => pot_outer h r0 (h0.trans h1) hx⟩

private theorem fderiv_continuousAt {u : E3 → ℝ} {x : E3} (h : HarmonicAt u x) : ContinuousAt (fderiv ℝ u) x :=
  (h.1.fderiv_right (m := 1) (by norm_num)).continuousAt

/-- Two potentials with the same normal derivative on the inner sphere, away from the poles, have the same gradient. -/
theorem same_gradient {V W : E3 → ℝ} {r0 rss : ℝ} (h0 : 0 < r0) (h1 : r0 < rss) (hV : ShellPotential V r0 rss)
    (hW : ShellPotential W r0 rss)
    (hi : ∀ x : E3, ‖x‖ = r0 → OffPoleLine x → fderiv ℝ V x x = fderiv ℝ W x x) {x : E3}
    (hx : r0 ≤ ‖x‖ ∧ ‖x‖ ≤ rss) : fderiv ℝ V x = fderiv ℝ W x := by
  set u : E3 → ℝ := V - W with hu
  have huh : HarmonicOnNhd u (shell r0 rss) := hV.harmonic.sub hW.harmonic
  have hfd : ∀ y : E3, r0 ≤ ‖y‖ ∧ ‖y‖ ≤ rss → fderiv ℝ u y = fderiv ℝ V y - fderiv ℝ W y := fun y hy =>
    fderiv_sub ((hV.harmonic y hy).1.differentiableAt (by norm_num)) ((hW.harmonic y hy).1.differentiableAt (by norm_num))
  obtain ⟨c, hc⟩ := hV.outer
  obtain ⟨d, hd⟩ := hW.outer
  have hin : ∀ y : E3, ‖y‖ = r0 → fderiv ℝ u y y = 0 := by
    intro y hy
    have hys : r0 ≤ ‖y‖ ∧ ‖y‖ ≤ rss := ⟨hy.ge, by rw [hy]; exact h1.le⟩
    obtain ⟨θ, φ, ha, hb, e⟩ := exists_point y
    rw [hy] at e
    have hcp : Continuous fun t => point r0 t φ := by simp only [point]; fun_prop
    have hct : ContinuousAt (fun t => fderiv ℝ u (point r0 t φ) (point r0 t φ)) θ := by
      have h2 : ContinuousAt (fderiv ℝ u) (point r0 θ φ) := by
        rw [e]; exact fderiv_continuousAt (huh y hys)
      exact (ContinuousAt.comp (f := fun t => point r0 t φ) h2 hcp.continuousAt).clm_apply hcp.continuousAt
    have hcl : θ ∈ closure (Set.Ioo 0 Real.pi) := by
      rw [closure_Ioo Real.pi_pos.ne]; exact ⟨ha, hb⟩
    have hnb : (𝓝[Set.Ioo 0 Real.pi] θ).NeBot := mem_closure_iff_nhdsWithin_neBot.1 hcl
    have hl : Tendsto (fun t => fderiv ℝ u (point r0 t φ) (point r0 t φ)) (𝓝[Set.Ioo 0 Real.pi] θ)
        (𝓝 (fderiv ℝ u (point r0 θ φ) (point r0 θ φ))) := hct.tendsto.mono_left nhdsWithin_le_nhds
    have hz : Tendsto (fun t => fderiv ℝ u (point r0 t φ) (point r0 t φ)) (𝓝[Set.Ioo 0 Real.pi] θ) (𝓝 0) := by
      refine tendsto_const_nhds.congr' ?_
      filter_upwards [self_mem_nhdsWithin] with t ht
      have hn := norm_point h0.le t φ
      rw [hfd _ ⟨hn.ge, by rw [hn]; exact h1.le⟩, ContinuousLinearMap.sub_apply,
        hi _ hn (offPoleLine_point h0 ht φ), sub_self]
    have := tendsto_nhds_unique hl hz
    rwa [e] at this
  have hconst : ∀ y ∈ shell r0 rss, u y = c - d := fun y hy =>
    eq_outer h0 h1 huh (fun z hz => by simp [hu, hc z hz, hd z hz]) hin hy
  have hmid : ∀ y : E3, r0 < ‖y‖ → ‖y‖ < rss → fderiv ℝ u y = 0 := by
    intro y ha hb
    have hloc : u =ᶠ[𝓝 y] fun _ => c - d := by
      have h2 : ∀ᶠ z : E3 in 𝓝 y, r0 < ‖z‖ := continuous_norm.continuousAt.eventually (lt_mem_nhds ha)
      have h3 : ∀ᶠ z : E3 in 𝓝 y, ‖z‖ < rss := continuous_norm.continuousAt.eventually (gt_mem_nhds hb)
      filter_upwards [h2, h3] with z hz hz' using hconst z ⟨hz.le, hz'.le⟩
    rw [hloc.fderiv_eq]; simp
  have hnx : 0 < ‖x‖ := lt_of_lt_of_le h0 hx.1
  have hall : fderiv ℝ u x = 0 := by
    have hcp : Continuous fun t : ℝ => (t / ‖x‖) • x := by fun_prop
    have e : (‖x‖ / ‖x‖) • x = x := by rw [div_self hnx.ne', one_smul]
    have hct : ContinuousAt (fun t : ℝ => fderiv ℝ u ((t / ‖x‖) • x)) ‖x‖ := by
      have h2 : ContinuousAt (fderiv ℝ u) ((‖x‖ / ‖x‖) • x) := by
        rw [e]; exact fderiv_continuousAt (huh x hx)
      exact ContinuousAt.comp (f := fun t : ℝ => (t / ‖x‖) • x) h2 hcp.continuousAt
    have hcl : ‖x‖ ∈ closure (Set.Ioo r0 rss) := by rw [closure_Ioo h1.ne]; exact hx
    have hnb : (𝓝[Set.Ioo r0 rss] ‖x‖).NeBot := mem_closure_iff_nhdsWithin_neBot.1 hcl
    have hl : Tendsto (fun t : ℝ => fderiv ℝ u ((t / ‖x‖) • x)) (𝓝[Set.Ioo r0 rss] ‖x‖)
        (𝓝 (fderiv ℝ u ((‖x‖ / ‖x‖) • x))) := hct.tendsto.mono_left nhdsWithin_le_nhds
    have hz : Tendsto (fun t : ℝ => fderiv ℝ u ((t / ‖x‖) • x)) (𝓝[Set.Ioo r0 rss] ‖x‖) (𝓝 0) := by
      refine tendsto_const_nhds.congr' ?_
      filter_upwards [self_mem_nhdsWithin] with t ht
      have hn : ‖(t / ‖x‖) • x‖ = t := by
        have : 0 < t := h0.trans ht.1
        rw [norm_smul, Real.norm_eq_abs, abs_of_pos (by positivity)]; field_simp
      rw [hmid _ (by rw [hn]; exact ht.1) (by rw [hn]; exact ht.2)]
    have := tendsto_nhds_unique hl hz
    rwa [e] at this
  rw [hfd x hx, sub_eq_zero] at hall
  exact hall

end Shell

/-- **C98.** Between the star and the source surface the field that `evaluate_cartesian` returns away from the axis is
minus the gradient of a function that is harmonic on the whole closed shell, the axis and both spheres included, and
zero on the source surface. -/
theorem C98_potential (s : Coefs ℂ) (h : RadialSet s) (r0 rss : ℝ) (h0 : 0 < r0) (h1 : r0 < rss) :
    ∃ V : E3 → ℝ, HarmonicOnNhd V {x | r0 ≤ ‖x‖ ∧ ‖x‖ ≤ rss} ∧ (∀ x, ‖x‖ = rss → V x = 0) ∧
      ∀ x : E3, r0 ≤ ‖x‖ → ‖x‖ ≤ rss → OffPoleLine x → ∃ f v,
        evalCartesian s (x 0) (x 1) (x 2) r0 rss = .ok (f, v) ∧
        ∀ i, v i = -fderiv ℝ V x (EuclideanSpace.single i 1) := by
  refine ⟨pot s r0 rss, (potential_of_code h h0 h1).harmonic, fun x hx => pot_outer h r0 (h0.trans h1) hx,
    fun x ha hb ho => ?_⟩
  obtain ⟨f, v, e⟩ := Slice.eval_ok h h1 (x 0) (x 1) (x 2)
  exact ⟨f, v, e, (cart_gradient h h0 h1 ⟨ha, hb⟩ ho e).1⟩

/-- **C98.** It is the only such field: whenever a function is harmonic on the closed shell, constant on the source
surface and has minus the returned radial component as its radial derivative at the surface of the star away from the
poles, then minus its gradient is the returned field in the whole shell away from the axis. -/
theorem C98_unique (s : Coefs ℂ) (h : RadialSet s) (r0 rss : ℝ) (h0 : 0 < r0) (h1 : r0 < rss) (V : E3 → ℝ)
    (hV : ShellPotential V r0 rss)
    (hs : ∀ x : E3, ‖x‖ = r0 → OffPoleLine x → ∀ f v, evalCartesian s (x 0) (x 1) (x 2) r0 rss = .ok (f, v) →
      fderiv ℝ V x (‖x‖⁻¹ • x) = -f.1) (x : E3) (ha : r0 ≤ ‖x‖) (hb : ‖x‖ ≤ rss) (ho : OffPoleLine x) :
    ∃ f v, evalCartesian s (x 0) (x 1) (x 2) r0 rss = .ok (f, v) ∧
      ∀ i, v i = -fderiv ℝ V x (EuclideanSpace.single i 1) := by
  obtain ⟨f, v, e⟩ := Slice.eval_ok h h1 (x 0) (x 1) (x 2)
  refine ⟨f, v, e, ?_⟩
  have hg := same_gradient h0 h1 hV (potential_of_code h h0 h1) (fun y hy hoy => by
    obtain ⟨f, v, e⟩ := Slice.eval_ok h h1 (y 0) (y 1) (y 2)
    have q1 := hs y hy hoy f v e
    have q2 := (cart_gradient h h0 h1 ⟨hy.ge, by rw [hy]; exact h1.le⟩ hoy e).2
    have hn : ‖y‖ ≠ 0 := by rw [hy]; exact h0.ne'
    rw [map_smul, smul_eq_mul] at q1
    have q3 : fderiv ℝ V y y = ‖y‖ * (‖y‖⁻¹ * fderiv ℝ V y y) := by field_simp
    rw [q3, q1]
    linarith) ⟨ha, hb⟩
  rw [hg]
  exact (cart_gradient h h0 h1 ⟨ha, hb⟩ ho e).1

/-- **C98.** Hence the radial field at the surface determines the field everywhere: two coefficient sets whose radial
components agree at the surface, away from the poles, give the same field at every radius away from the axis. -/
theorem C98_determined (s t : Coefs ℂ) (hs : RadialSet s) (ht : RadialSet t) (r0 rss : ℝ) (h0 : 0 < r0) (h1 : r0 < rss)
    (he : ∀ θ φ, OffAxis θ → ∀ f g, evalSpherical s r0 θ φ r0 rss = .ok f → evalSpherical t r0 θ φ r0 rss = .ok g →
      f.1 = g.1) (r θ φ : ℝ) (hθ : OffAxis θ) :
    evalSpherical s r θ φ r0 rss = evalSpherical t r θ φ r0 rss := by
  have hg : ∀ y : E3, ‖y‖ = r0 → OffPoleLine y → fderiv ℝ (pot s r0 rss) y y = fderiv ℝ (pot t r0 rss) y y := by
    intro y hy ho
    obtain ⟨f, v, e⟩ := Slice.eval_ok hs h1 (y 0) (y 1) (y 2)
    obtain ⟨f', v', e'⟩ := Slice.eval_ok ht h1 (y 0) (y 1) (y 2)
    have q := (cart_gradient hs h0 h1 ⟨hy.ge, by rw [hy]; exact h1.le⟩ ho e).2
    have q' := (cart_gradient ht h0 h1 ⟨hy.ge, by rw [hy]; exact h1.le⟩ ho e').2
    have p := ((C37_pfss_cartesian s (y 0) (y 1) (y 2) r0 rss).2 f v e).1
    have p' := ((C37_pfss_cartesian t (y 0) (y 1) (y 2) r0 rss).2 f' v' e').1
    obtain ⟨r, θ, φ, ha, hn, -, hθ, -⟩ := angles y ho
    rw [ha] at p p'
    have hr : r = r0 := hn.trans hy
    subst hr
    have := he θ φ hθ f f' p p'
    rw [this] at q
    linarith
  have shellEq : ∀ r, r0 ≤ r → r ≤ rss → evalSpherical s r θ φ r0 rss = evalSpherical t r θ φ r0 rss := by
    intro r ha hb
    have hn := norm_point (h0.le.trans ha) θ φ
    have := same_gradient h0 h1 (potential_of_code hs h0 h1) (potential_of_code ht h0 h1) hg
      (x := point r θ φ) (by rw [hn]; exact ⟨ha, hb⟩)
    rw [sph_gradient hs h0 h1 ha hb hθ, sph_gradient ht h0 h1 ha hb hθ, this]
  rcases lt_or_ge r r0 with ha | ha
  · rw [C30_inside s hs r0 rss h1 r θ φ ha, C30_inside t ht r0 rss h1 r θ φ ha]
  rcases le_or_gt r rss with hb | hb
  · exact shellEq r ha hb
  · obtain ⟨b, hb1, hb2⟩ := C31_falloff s hs r0 rss h0 h1 r θ φ hb.le
    obtain ⟨b', hb1', hb2'⟩ := C31_falloff t ht r0 rss h0 h1 r θ φ hb.le
    have := shellEq rss h1.le le_rfl
    rw [hb1, hb1'] at this
    simp only [Except.ok.injEq, Prod.mk.injEq, and_true] at this
    rw [hb2, hb2', this]

/-! ### Cases meeting the hypotheses -/

private noncomputable def exTilt (z : ℂ) : Coefs ℂ := ⟨[0], .cplx, [((1, 0), [z]), ((1, 1), [1])], 1, 0⟩

private theorem exTilt_WF (z : ℂ) : (exTilt z).WF := by
  refine Reach.WF (Reach.append (s := ⟨[0], .cplx, [((1, 0), [z])], 1, 0⟩) (.int 1) (.int 1) [1] ?_ rfl)
  refine Reach.append (s := Coefs.new [0] .cplx) (.int 1) (.int 0) [z] ?_ rfl
  exact Reach.new _ _ (by simp)

private theorem exTilt_radial (z : ℂ) : RadialSet (exTilt z) := by
  refine ⟨wellFormed_of_WF (exTilt_WF z), rfl, ⟨1, 0, rfl⟩, fun l m hm => ?_⟩
  rw [stores, Coefs.has_int] at hm
  simp [exTilt, Coefs.keys] at hm
  omega

private theorem exTilt_pairs (z : ℂ) : pairs (exTilt z) = {(1, 0), (1, 1)} := by rw [pairs_eq]; rfl

/-- The potential of a tilted dipole, with a constant added, meets the hypotheses of `C98_unique`. -/
example (c : ℝ) : ∃ V : E3 → ℝ, ShellPotential V 1 3 ∧ (∀ x, ‖x‖ = 3 → V x = c) ∧
    ∀ x : E3, ‖x‖ = 1 → OffPoleLine x → ∀ f v, evalCartesian (exTilt 1) (x 0) (x 1) (x 2) 1 3 = .ok (f, v) →
      fderiv ℝ V x (‖x‖⁻¹ • x) = -f.1 := by
  have h := exTilt_radial 1
  refine ⟨fun x => c + pot (exTilt 1) 1 3 x, ⟨fun x hx => ?_, c, fun x hx => ?_⟩, fun x hx => ?_,
    fun x hx ho f v e => ?_⟩
  · exact (harmonicAt_const c).add
      (harmonicAt_pot h 1 3 (norm_pos_iff.1 (lt_of_lt_of_le one_pos hx.1)))
  · rw [pot_outer h 1 (by norm_num) hx, add_zero]
  · change c + pot (exTilt 1) 1 3 x = c
    rw [pot_outer h 1 (by norm_num) hx, add_zero]
  · have q := (cart_gradient h one_pos (by norm_num) ⟨hx.ge, by rw [hx]; norm_num⟩ ho e).2
    rw [hx, inv_one, one_smul, fderiv_const_add]
    rw [hx, one_mul] at q
    linarith

/-- Two different coefficient sets with the same radial field at the surface: the imaginary part of a coefficient of
order zero has no effect there, and so it has none anywhere. -/
example (r θ φ : ℝ) (hθ : OffAxis θ) : exTilt 1 ≠ exTilt (1 + 5 * Complex.I) ∧
    evalSpherical (exTilt 1) r θ φ 1 3 = evalSpherical (exTilt (1 + 5 * Complex.I)) r θ φ 1 3 := by
  constructor
  · intro e
    have := congrArg (fun s => (coef s 1 0).im) e
    have h1 : ∀ z, coef (exTilt z) 1 0 = z := fun _ => rfl
    simp [h1] at this
  · refine C98_determined _ _ (exTilt_radial _) (exTilt_radial _) 1 3 one_pos (by norm_num) ?_ r θ φ hθ
    intro θ φ _ f g hf hg
    obtain ⟨_, _, e1⟩ := C30_surface _ (exTilt_radial 1) 1 3 one_pos (by norm_num) θ φ
    obtain ⟨_, _, e2⟩ := C30_surface _ (exTilt_radial (1 + 5 * Complex.I)) 1 3 one_pos (by norm_num) θ φ
    rw [e1] at hf
    rw [e2] at hg
    rw [← Except.ok.inj hf, ← Except.ok.inj hg]
    dsimp only
    rw [exTilt_pairs, exTilt_pairs]
    have h1 : ∀ z, coef (exTilt z) 1 0 = z := fun _ => rfl
    have h2 : ∀ z, coef (exTilt z) 1 1 = 1 := fun _ => rfl
    rw [Finset.sum_pair (by decide), Finset.sum_pair (by decide)]
    simp [h1, h2]

end Verif
