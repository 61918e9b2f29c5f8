import Verif.Lemmas.Pfss
import Verif.Props.Coordinates
import Mathlib.Analysis.Calculus.Deriv.ZPow

/-!
# Properties C30 - C34: the potential field source surface extrapolation
-/

namespace Verif
open Spec Legendre Coefs Pfss

/-! ## C33: derivatives of the radial and azimuthal factors -/

theorem hasDerivAt_zpow' (n : ℤ) {x : ℝ} (h : x ≠ 0) : HasDerivAt (fun t : ℝ => t ^ n) (n * x ^ n / x) x := by
  refine (hasDerivAt_zpow n x (Or.inl h)).congr_deriv ?_
  rw [zpow_sub_one₀ h]; field_simp

theorem hasDerivAt_div_zpow (n : ℤ) (a : ℝ) {x : ℝ} (h : x ≠ 0) :
    HasDerivAt (fun t : ℝ => (a / t) ^ n) (-(n * (a / x) ^ n / x)) x := by
  have e : (fun t : ℝ => (a / t) ^ n) = fun t => a ^ n * t ^ (-n) := by
    funext t; rw [div_zpow, zpow_neg, div_eq_mul_inv]
  rw [e]
  refine ((hasDerivAt_zpow' (-n) h).const_mul (a ^ n)).congr_deriv ?_
  rw [div_zpow, zpow_neg]; push_cast; ring

theorem hasDerivAt_zpow_div (n : ℤ) (a : ℝ) {x : ℝ} (h : x ≠ 0) :
    HasDerivAt (fun t : ℝ => (t / a) ^ n) (n * (x / a) ^ n / x) x := by
  have e : (fun t : ℝ => (t / a) ^ n) = fun t => t ^ n / a ^ n := by
    funext t; rw [div_zpow]
  rw [e]
  refine ((hasDerivAt_zpow' n h).div_const (a ^ n)).congr_deriv ?_
  rw [div_zpow]; ring

/-- **C33.** The second value of `r_l` is the derivative of the first in the radius, for every integer degree, every
radius except zero, and all star and source surface radii. -/
theorem C33_radial (l : ℤ) (r0 rss : ℝ) {r : ℝ} (hr : r ≠ 0) :
    HasDerivAt (fun x => (rL l x r0 rss).1) (rL l r r0 rss).2 r := by
  simp only [rL]
  have h1 := (hasDerivAt_id r).mul (hasDerivAt_div_zpow (l + 2) r0 hr)
  have h2 := (hasDerivAt_zpow_div (2 * l + 1) rss hr).const_sub 1
  refine ((h1.mul h2).div_const _).congr_deriv ?_
  simp only [id, Pi.mul_apply]
  push_cast
  field_simp
  ring

/-- **C33.** The second value of `phi_lm` is the derivative of the first in azimuth. -/
theorem C33_azimuth (m : ℤ) (g h φ : ℝ) : HasDerivAt (fun x => (phiLm m g h x).1) (phiLm m g h φ).2 φ := by
  simp only [phiLm]
  have h0 : HasDerivAt (fun x : ℝ => (m : ℝ) * x) m φ := by
    simpa using (hasDerivAt_id φ).const_mul (m : ℝ)
  refine ((h0.cos.const_mul g).add (h0.sin.const_mul h)).congr_deriv ?_
  ring

/-- Non-vacuity of C33: a degree and radius at which the derivative is not zero. -/
example : (rL 1 1 1 2).2 ≠ 0 := by norm_num [rL]

theorem hasDerivAt_r2 (l : ℤ) (r0 rss : ℝ) {r : ℝ} (hr : r ≠ 0) :
    HasDerivAt (fun x => x ^ 2 * (rL l x r0 rss).2) (l * (l + 1) * (rL l r r0 rss).1) r := by
  simp only [rL]
  have h0 : HasDerivAt (fun x : ℝ => x ^ 2) (2 * r) r := by simpa using hasDerivAt_pow 2 r
  have h1 := (hasDerivAt_div_zpow (l + 2) r0 hr).neg
  have h2 := ((hasDerivAt_zpow_div (2 * l + 1) rss hr).const_mul (l : ℝ)).const_add ((l : ℝ) + 1)
  refine (h0.mul ((h1.mul h2).div_const _)).congr_deriv ?_
  simp only [Pi.mul_apply, Pi.neg_apply]
  push_cast
  field_simp
  ring

private theorem hasDerivAt_phi2 (m : ℤ) (g h φ : ℝ) :
    HasDerivAt (fun x => (phiLm m g h x).2) (-(m : ℝ) ^ 2 * (phiLm m g h φ).1) φ := by
  simp only [phiLm]
  have h0 : HasDerivAt (fun x : ℝ => (m : ℝ) * x) m φ := by
    simpa using (hasDerivAt_id φ).const_mul (m : ℝ)
  refine (((h0.sin.const_mul (-g)).add (h0.cos.const_mul h)).mul_const (m : ℝ)).congr_deriv ?_
  ring

/-! ## C30: boundary conditions -/

private theorem denom_pos {l : ℤ} (hl : 0 ≤ l) {r0 rss : ℝ} (h0 : 0 < r0) (h1 : r0 < rss) :
    (0 : ℝ) < l + 1 + l * (r0 / rss) ^ (2 * l + 1) := by
  have : (0 : ℝ) ≤ l := by exact_mod_cast hl
  have : 0 < rss := lt_trans h0 h1
  positivity

private theorem rL_star {l : ℤ} (hl : 0 ≤ l) {r0 rss : ℝ} (h0 : 0 < r0) (h1 : r0 < rss) :
    (rL l r0 r0 rss).2 = -1 := by
  have := denom_pos hl h0 h1
  simp only [rL]
  rw [div_self h0.ne', one_zpow, neg_mul, one_mul, neg_div, div_self this.ne']

private theorem rL_ss (l : ℤ) {r0 rss : ℝ} (h0 : 0 < rss) : (rL l rss r0 rss).1 = 0 := by
  simp only [rL]
  rw [div_self h0.ne', one_zpow]; ring

private theorem mem_pairs_bounds {s : Coefs ℂ} (h : RadialSet s) {k : ℤ × ℤ} (hk : k ∈ pairs s) :
    0 ≤ k.2 ∧ k.2 ≤ k.1 := h.bounds (by rw [pairs_eq] at hk; exact List.mem_toFinset.1 hk)

/-- **C30.** At the stellar surface the radial field is the one given by the coefficients alone: the field does not
depend on the source surface radius. -/
theorem C30_surface (s : Coefs ℂ) (h : RadialSet s) (r0 rss : ℝ) (h0 : 0 < r0) (h1 : r0 < rss) (θ φ : ℝ) :
    ∃ bp ba, evalSpherical s r0 θ φ r0 rss = .ok
      (∑ k ∈ pairs s, schmidt k.1 k.2 θ
        * ((coef s k.1 k.2).re * Real.cos (k.2 * φ) + (coef s k.1 k.2).im * Real.sin (k.2 * φ)), bp, ba) := by
  refine ⟨fP s r0 rss r0 θ φ, fA s r0 rss r0 θ φ, ?_⟩
  rw [evalSpherical_eq h h1, if_neg (lt_irrefl _), if_neg (not_lt.2 h1.le)]
  congr 2
  rw [fR]
  refine Finset.sum_congr rfl fun k hk => ?_
  have hb := mem_pairs_bounds h hk
  rw [rL_star (by omega) h0 h1, schmidt_eq hb.1 hb.2]
  simp only [phiLm]
  ring

/-- **C30.** At and beyond the source surface the field is radial. -/
theorem C30_source_surface (s : Coefs ℂ) (h : RadialSet s) (r0 rss : ℝ) (h0 : 0 < r0) (h1 : r0 < rss) (r θ φ : ℝ)
    (hr : rss ≤ r) : ∃ br, evalSpherical s r θ φ r0 rss = .ok (br, 0, 0) := by
  have hss : 0 < rss := lt_trans h0 h1
  have hp : fP s r0 rss rss θ φ = 0 := by
    rw [fP]; refine Finset.sum_eq_zero fun k _ => ?_; rw [rL_ss _ hss]; ring
  have ha : fA s r0 rss rss θ φ = 0 := by
    rw [fA]; refine Finset.sum_eq_zero fun k _ => ?_; rw [rL_ss _ hss]; ring
  rw [evalSpherical_eq h h1, if_neg (by linarith)]
  rcases hr.eq_or_lt with rfl | hr
  · rw [if_neg (lt_irrefl _), hp, ha]; exact ⟨_, rfl⟩
  · rw [if_pos hr, hp, ha]
    simp

/-- **C30.** Inside the star the field is zero. -/
theorem C30_inside (s : Coefs ℂ) (h : RadialSet s) (r0 rss : ℝ) (h1 : r0 < rss) (r θ φ : ℝ) (hr : r < r0) :
    evalSpherical s r θ φ r0 rss = .ok (0, 0, 0) := by
  rw [evalSpherical_eq h h1, if_pos hr]

/-- **C30.** Nothing is returned when the source surface is not outside the star. -/
theorem C30_radii_order (s : Coefs ℂ) (r0 rss r θ φ : ℝ) (h : rss ≤ r0) :
    evalSpherical s r θ φ r0 rss = .error .assertion := by
  rw [evalSpherical, resAssert, if_neg (not_lt.2 h)]
  rfl

/-- **C30.** A negative order is refused. -/
theorem C30_negative_order (s : Coefs ℂ) (h : WellFormed s) (r0 rss r θ φ : ℝ) (l m : ℤ) (hk : stores s l m)
    (hm : m < 0) : evalSpherical s r θ φ r0 rss = .error .assertion := by
  have hw := WF_of_wellFormed h
  have hmem : (l, m) ∈ s.rowKeys := (mem_rowKeys hw _).2 ((has_int s l m).1 hk)
  rw [evalSpherical, asArrays_rows hw]
  by_cases h1 : r0 < rss
  · simp only [bind, Except.bind, resAssert, if_pos h1, pure, Except.pure]
    rw [if_neg (by simpa using List.ne_nil_of_mem hmem), if_neg]
    · rfl
    · intro hall
      have := hall m (List.mem_map.2 ⟨_, hmem, rfl⟩)
      omega
  · rw [resAssert, if_neg h1]; rfl

/-! ## C31: beyond the source surface -/

/-- **C31.** Beyond the source surface the field falls off with the square of the distance. -/
theorem C31_falloff (s : Coefs ℂ) (h : RadialSet s) (r0 rss : ℝ) (h0 : 0 < r0) (h1 : r0 < rss) (r θ φ : ℝ)
    (hr : rss ≤ r) : ∃ b, evalSpherical s rss θ φ r0 rss = .ok (b, 0, 0) ∧
      evalSpherical s r θ φ r0 rss = .ok ((rss / r) ^ 2 * b, 0, 0) := by
  have hss : 0 < rss := lt_trans h0 h1
  obtain ⟨b, hb⟩ := C30_source_surface s h r0 rss h0 h1 rss θ φ le_rfl
  refine ⟨b, hb, ?_⟩
  rcases hr.eq_or_lt with rfl | hr'
  · rw [div_self hss.ne', one_pow, one_mul]; exact hb
  · obtain ⟨b', hb'⟩ := C30_source_surface s h r0 rss h0 h1 r θ φ hr
    rw [hb']
    rw [evalSpherical_eq h h1, if_neg (by linarith), if_pos hr'] at hb'
    rw [evalSpherical_eq h h1, if_neg (by linarith), if_neg (lt_irrefl _)] at hb
    simp only [Except.ok.injEq, Prod.mk.injEq] at hb hb'
    rw [← hb'.1, ← hb.1, mul_comm]

private theorem rL_cont (l : ℤ) (r0 rss : ℝ) {g : ℝ → ℝ} {S : Set ℝ} (hg : ContinuousOn g S) (h : ∀ x ∈ S, g x ≠ 0)
    (hss : rss ≠ 0) (h0 : r0 ≠ 0) :
    ContinuousOn (fun x => (rL l (g x) r0 rss).1) S ∧ ContinuousOn (fun x => (rL l (g x) r0 rss).2) S := by
  have c1 : ContinuousOn (fun x => (r0 / g x) ^ (l + 2)) S :=
    (continuousOn_const.div hg h).zpow₀ _ fun x hx => Or.inl (div_ne_zero h0 (h x hx))
  have c2 : ContinuousOn (fun x => (g x / rss) ^ (2 * l + 1)) S :=
    (hg.div_const _).zpow₀ _ fun x hx => Or.inl (div_ne_zero (h x hx) hss)
  simp only [rL]
  exact ⟨((hg.mul c1).mul (continuousOn_const.sub c2)).div_const _,
    ((c1.neg).mul (continuousOn_const.add (continuousOn_const.mul c2))).div_const _⟩

/-- **C31.** The field is continuous outside the star, in particular across the source surface. -/
theorem C31_continuous (s : Coefs ℂ) (h : RadialSet s) (r0 rss : ℝ) (h0 : 0 < r0) (h1 : r0 < rss) (θ φ : ℝ) :
    ∃ B : ℝ → ℝ × ℝ × ℝ, (∀ r, evalSpherical s r θ φ r0 rss = .ok (B r)) ∧ ContinuousOn B (Set.Ici r0) := by
  refine ⟨_, fun r => evalSpherical_eq h h1 r θ φ, ?_⟩
  have hss : 0 < rss := lt_trans h0 h1
  have hmin : ∀ r ∈ Set.Ici r0, min r rss ≠ 0 := fun r hr =>
    (lt_min (lt_of_lt_of_le h0 hr) hss).ne'
  have hmc : ContinuousOn (fun r : ℝ => min r rss) (Set.Ici r0) :=
    (continuous_id.min continuous_const).continuousOn
  have hq : ContinuousOn (fun r : ℝ => (min r rss / r) ^ 2) (Set.Ici r0) :=
    (hmc.div continuousOn_id fun r hr => (lt_of_lt_of_le h0 hr).ne').pow 2
  have hR : ContinuousOn (fun r => fR s r0 rss (min r rss) θ φ) (Set.Ici r0) := by
    refine continuousOn_finsetSum _ fun k _ => ?_
    exact (((rL_cont k.1 r0 rss hmc hmin hss.ne' h0.ne').2.mul continuousOn_const).mul continuousOn_const).neg
  have hP : ContinuousOn (fun r => fP s r0 rss (min r rss) θ φ) (Set.Ici r0) := by
    refine continuousOn_finsetSum _ fun k _ => ?_
    exact ((((rL_cont k.1 r0 rss hmc hmin hss.ne' h0.ne').1.mul continuousOn_const).mul continuousOn_const).div
      hmc hmin).neg
  have hA : ContinuousOn (fun r => fA s r0 rss (min r rss) θ φ) (Set.Ici r0) := by
    refine continuousOn_finsetSum _ fun k _ => ?_
    have e : ∀ r : ℝ, (rL k.1 (min r rss) r0 rss).1 * tv θ k
        * (phiLm k.2 (coef s k.1 k.2).re (coef s k.1 k.2).im φ).2 / (min r rss * Real.sin θ)
        = (rL k.1 (min r rss) r0 rss).1 * tv θ k
        * (phiLm k.2 (coef s k.1 k.2).re (coef s k.1 k.2).im φ).2 / min r rss * (Real.sin θ)⁻¹ := by
      intro r; rw [div_mul_eq_div_div, div_eq_mul_inv _ (Real.sin θ)]
    simp only [e]
    exact (((((rL_cont k.1 r0 rss hmc hmin hss.ne' h0.ne').1.mul continuousOn_const).mul continuousOn_const).div
      hmc hmin).mul continuousOn_const).neg
  refine ((hR.mul hq).prodMk ((hP.mul hq).prodMk (hA.mul hq))).congr fun r hr => ?_
  have hr' : r0 ≤ r := hr
  have hr0 : 0 < r := lt_of_lt_of_le h0 hr'
  rw [if_neg (not_lt.2 hr')]
  by_cases h2 : rss < r
  · rw [if_pos h2]; simp only [Pi.mul_apply, min_eq_right h2.le]
  · rw [if_neg h2]; simp only [Pi.mul_apply, min_eq_left (not_lt.1 h2), div_self hr0.ne', one_pow, mul_one]

/-! ## C32: potential field -/

private theorem radialFn_eq {l : ℤ} (hl : 0 ≤ l) (r0 rss : ℝ) {r : ℝ} (hr : r ≠ 0) :
    radialFn l.toNat r0 rss r = (rL l r r0 rss).1 := by
  obtain ⟨n, rfl⟩ := Int.eq_ofNat_of_zero_le hl
  simp only [radialFn, rL, Int.toNat_natCast, Int.cast_natCast]
  have e1 : ∀ x : ℝ, x ^ (2 * (n : ℤ) + 1) = x ^ (2 * n + 1) := fun x => by exact_mod_cast zpow_natCast x (2 * n + 1)
  have e2 : ∀ x : ℝ, x ^ ((n : ℤ) + 2) = x ^ (n + 2) := fun x => by exact_mod_cast zpow_natCast x (n + 2)
  rw [e1, e1, e2, pow_succ (r0 / r) (n + 1)]
  have : r * ((r0 / r) ^ (n + 1) * (r0 / r)) = r0 * (r0 / r) ^ (n + 1) := by field_simp
  rw [this]

private theorem potential_eq {s : Coefs ℂ} (h : RadialSet s) (r0 rss : ℝ) {r : ℝ} (hr : r ≠ 0) (θ φ : ℝ) :
    potential s r0 rss r θ φ = ∑ k ∈ pairs s, (rL k.1 r r0 rss).1 * tv θ k
      * (phiLm k.2 (coef s k.1 k.2).re (coef s k.1 k.2).im φ).1 := by
  rw [potential]
  refine Finset.sum_congr rfl fun k hk => ?_
  have hb := mem_pairs_bounds h hk
  rw [radialFn_eq (by omega) _ _ hr, schmidt_eq hb.1 hb.2]
  rfl

private theorem sin_ne {θ : ℝ} (h : OffAxis θ) : 0 < Real.sin θ := Real.sin_pos_of_pos_of_lt_pi h.1 h.2

private theorem nhds_ne {r : ℝ} (hr : 0 < r) : ∀ᶠ x in nhds r, x ≠ 0 :=
  (lt_mem_nhds hr).mono fun _ hx => ne_of_gt hx

private theorem nhds_sin {θ : ℝ} (h : OffAxis θ) : ∀ᶠ x in nhds θ, OffAxis x :=
  (lt_mem_nhds h.1).and (gt_mem_nhds h.2)

private theorem pot_dr {s : Coefs ℂ} (h : RadialSet s) (r0 rss : ℝ) {r : ℝ} (hr : 0 < r) (θ φ : ℝ) :
    HasDerivAt (fun x => potential s r0 rss x θ φ) (-(fR s r0 rss r θ φ)) r := by
  have e : (fun x => potential s r0 rss x θ φ) =ᶠ[nhds r] fun x => ∑ k ∈ pairs s, (rL k.1 x r0 rss).1 * tv θ k
      * (phiLm k.2 (coef s k.1 k.2).re (coef s k.1 k.2).im φ).1 :=
    (nhds_ne hr).mono fun x hx => potential_eq h r0 rss hx θ φ
  refine HasDerivAt.congr_of_eventuallyEq ?_ e
  rw [fR, ← Finset.sum_neg_distrib]
  simp only [neg_neg]
  exact HasDerivAt.fun_sum fun k _ => ((C33_radial k.1 r0 rss hr.ne').mul_const _).mul_const _

private theorem pot_dp {s : Coefs ℂ} (h : RadialSet s) (r0 rss : ℝ) {r : ℝ} (hr : 0 < r) {θ : ℝ} (hθ : OffAxis θ)
    (φ : ℝ) : HasDerivAt (fun x => potential s r0 rss r x φ) (-(r * fP s r0 rss r θ φ)) θ := by
  simp only [potential_eq h r0 rss hr.ne']
  rw [fP, Finset.mul_sum, ← Finset.sum_neg_distrib]
  refine HasDerivAt.fun_sum fun k _ => ?_
  refine (((hasDerivAt_tv k (sin_ne hθ)).const_mul _).mul_const _).congr_deriv ?_
  field_simp

private theorem pot_da {s : Coefs ℂ} (h : RadialSet s) (r0 rss : ℝ) {r : ℝ} (hr : 0 < r) {θ : ℝ} (hθ : OffAxis θ)
    (φ : ℝ) : HasDerivAt (fun x => potential s r0 rss r θ x) (-(r * Real.sin θ * fA s r0 rss r θ φ)) φ := by
  have := sin_ne hθ
  simp only [potential_eq h r0 rss hr.ne']
  rw [fA, Finset.mul_sum, ← Finset.sum_neg_distrib]
  refine HasDerivAt.fun_sum fun k _ => ?_
  refine ((C33_azimuth k.2 _ _ φ).const_mul _).congr_deriv ?_
  field_simp

/-- **C32.** Between the star and the source surface the field is minus the gradient of the potential (spherical
components). -/
theorem C32_gradient (s : Coefs ℂ) (h : RadialSet s) (r0 rss : ℝ) (h0 : 0 < r0) (h1 : r0 < rss) (r θ φ : ℝ)
    (hr0 : r0 ≤ r) (hr1 : r ≤ rss) (hθ : OffAxis θ) :
    ∃ br bp ba, evalSpherical s r θ φ r0 rss = .ok (br, bp, ba) ∧
      HasDerivAt (fun x => potential s r0 rss x θ φ) (-br) r ∧
      HasDerivAt (fun x => potential s r0 rss r x φ) (-(r * bp)) θ ∧
      HasDerivAt (fun x => potential s r0 rss r θ x) (-(r * Real.sin θ * ba)) φ := by
  have hr : 0 < r := lt_of_lt_of_le h0 hr0
  refine ⟨_, _, _, ?_, pot_dr h r0 rss hr θ φ, pot_dp h r0 rss hr hθ φ, pot_da h r0 rss hr hθ φ⟩
  rw [evalSpherical_eq h h1, if_neg (not_lt.2 hr0), if_neg (not_lt.2 hr1)]

private theorem hasDerivAt_td (k : Key) {θ : ℝ} (hθ : OffAxis θ) :
    HasDerivAt (fun t => Real.sin t * td t k)
      (((k.2.toNat : ℝ) ^ 2 / Real.sin θ ^ 2 - k.1.toNat * (k.1.toNat + 1)) * Real.sin θ * tv θ k) θ := by
  have e : (fun t => Real.sin t * td t k)
      =ᶠ[nhds θ] fun t => (Real.sin t * thD k.1.toNat k.2.toNat t) * thetaScale k.1 k.2 :=
    (nhds_sin hθ).mono fun t ht => by
      dsimp only
      rw [td_eq k (sin_ne ht)]; ring
  refine HasDerivAt.congr_of_eventuallyEq ?_ e
  refine ((hasDerivAt_sin_thD k.1.toNat k.2.toNat θ (sin_ne hθ).ne').mul_const _).congr_deriv ?_
  rw [tv, legendreP_cos _ _ (sin_ne hθ).le]; ring

/-- **C32.** The potential satisfies Laplace's equation in spherical coordinates. -/
theorem C32_laplace (s : Coefs ℂ) (h : RadialSet s) (r0 rss : ℝ) (r θ φ : ℝ) (hr : 0 < r) (hθ : OffAxis θ) :
    ∃ a b c, HasDerivAt (fun x => x ^ 2 * deriv (fun y => potential s r0 rss y θ φ) x) a r ∧
      HasDerivAt (fun x => Real.sin x * deriv (fun y => potential s r0 rss r y φ) x) b θ ∧
      HasDerivAt (fun x => deriv (fun y => potential s r0 rss r θ y) x) c φ ∧
      a / r ^ 2 + b / (r ^ 2 * Real.sin θ) + c / (r ^ 2 * Real.sin θ ^ 2) = 0 := by
  have hs := sin_ne hθ
  set g := fun k : ℤ × ℤ => (coef s k.1 k.2).re
  set hh := fun k : ℤ × ℤ => (coef s k.1 k.2).im
  refine ⟨∑ k ∈ pairs s, k.1 * (k.1 + 1) * (rL k.1 r r0 rss).1 * tv θ k * (phiLm k.2 (g k) (hh k) φ).1,
    ∑ k ∈ pairs s, (rL k.1 r r0 rss).1 * (((k.2.toNat : ℝ) ^ 2 / Real.sin θ ^ 2 - k.1.toNat * (k.1.toNat + 1))
      * Real.sin θ * tv θ k) * (phiLm k.2 (g k) (hh k) φ).1,
    ∑ k ∈ pairs s, (rL k.1 r r0 rss).1 * tv θ k * (-(k.2 : ℝ) ^ 2 * (phiLm k.2 (g k) (hh k) φ).1), ?_, ?_, ?_, ?_⟩
  · have e : (fun x => x ^ 2 * deriv (fun y => potential s r0 rss y θ φ) x) =ᶠ[nhds r]
        fun x => ∑ k ∈ pairs s, (x ^ 2 * (rL k.1 x r0 rss).2) * tv θ k * (phiLm k.2 (g k) (hh k) φ).1 := by
      refine (lt_mem_nhds hr).mono fun x hx => ?_
      dsimp only
      rw [(pot_dr h r0 rss hx θ φ).deriv, fR, ← Finset.sum_neg_distrib, Finset.mul_sum]
      refine Finset.sum_congr rfl fun k _ => ?_
      ring
    refine HasDerivAt.congr_of_eventuallyEq ?_ e
    exact HasDerivAt.fun_sum fun k _ => ((hasDerivAt_r2 k.1 r0 rss hr.ne').mul_const _).mul_const _
  · have e : (fun x => Real.sin x * deriv (fun y => potential s r0 rss r y φ) x) =ᶠ[nhds θ]
        fun x => ∑ k ∈ pairs s, (rL k.1 r r0 rss).1 * (Real.sin x * td x k) * (phiLm k.2 (g k) (hh k) φ).1 := by
      refine (nhds_sin hθ).mono fun x hx => ?_
      dsimp only
      rw [(pot_dp h r0 rss hr hx φ).deriv, fP, Finset.mul_sum, ← Finset.sum_neg_distrib, Finset.mul_sum]
      refine Finset.sum_congr rfl fun k _ => ?_
      field_simp
      simp only [g, hh]
    refine HasDerivAt.congr_of_eventuallyEq ?_ e
    exact HasDerivAt.fun_sum fun k _ => ((hasDerivAt_td k hθ).const_mul _).mul_const _
  · have e : (fun x => deriv (fun y => potential s r0 rss r θ y) x) =
        fun x => ∑ k ∈ pairs s, (rL k.1 r r0 rss).1 * tv θ k * (phiLm k.2 (g k) (hh k) x).2 := by
      funext x
      rw [(pot_da h r0 rss hr hθ x).deriv, fA, Finset.mul_sum, ← Finset.sum_neg_distrib]
      refine Finset.sum_congr rfl fun k _ => ?_
      field_simp
      simp only [g, hh]
    rw [e]
    exact HasDerivAt.fun_sum fun k _ => (hasDerivAt_phi2 k.2 _ _ φ).const_mul _
  · rw [Finset.sum_div, Finset.sum_div, Finset.sum_div, ← Finset.sum_add_distrib, ← Finset.sum_add_distrib]
    refine Finset.sum_eq_zero fun k hk => ?_
    have hb := mem_pairs_bounds h hk
    have c1 : ((k.1.toNat : ℕ) : ℝ) = (k.1 : ℝ) := by
      exact_mod_cast Int.toNat_of_nonneg (show 0 ≤ k.1 by omega)
    have c2 : ((k.2.toNat : ℕ) : ℝ) = (k.2 : ℝ) := by exact_mod_cast Int.toNat_of_nonneg hb.1
    rw [c1, c2]
    field_simp
    ring

end Verif
