import Verif.Lemmas.FunkHecke

/-!
# What one coefficient of the radial and of the poloidal field contributes to the disc
-/

namespace Verif
open Geometry Spec

namespace Disc
open Zdi Riemann Rotation SphereLimit Legendre Analysis Filter Topology

theorem sin_thD_deriv (l m : ℕ) {θ : ℝ} (hs : Real.sin θ ≠ 0) :
    HasDerivAt (fun θ => Real.sin θ * thD l m θ) ((m : ℝ) ^ 2 * qP l m θ - l * (l + 1) * Real.sin θ * thP l m θ) θ := by
  refine (hasDerivAt_sin_thD l m θ hs).congr_deriv ?_
  by_cases hm : m = 0
  · simp [hm]
  · rw [← qP_eq l hm hs]
    field_simp

/-- Green's identity: the gradient of a harmonic against that of a function of the angle to the observer. -/
theorem green (l m : ℕ) {E E' : ℝ → ℝ} (dE : ∀ φ, HasDerivAt E' (-(m : ℝ) ^ 2 * E φ) φ) (cE : Continuous E)
    (per : E' (2 * Real.pi) = E' 0) {F f : ℝ → ℝ} (hF : ∀ x, HasDerivAt F (f x) x) (hf : Continuous f) (t x : ℝ) :
    sphereInt (fun θ φ => thD l m θ * E φ * (f (kr t θ (φ - x)) * kp t θ (φ - x))
        + qP l m θ * E' φ * (f (kr t θ (φ - x)) * ka t (φ - x)))
      = l * (l + 1) * sphereInt (fun θ φ => thP l m θ * E φ * F (kr t θ (φ - x))) := by
  have hFc : Continuous F := continuous_iff_continuousAt.2 fun x => (hF x).continuousAt
  have cE' : Continuous E' := continuous_iff_continuousAt.2 fun x => (dE x).continuousAt
  let A : ℝ → ℝ → ℝ := fun θ φ => ((m : ℝ) ^ 2 * qP l m θ - l * (l + 1) * Real.sin θ * thP l m θ) * (E φ * F (kr t θ (φ - x)))
    + Real.sin θ * thD l m θ * (E φ * (f (kr t θ (φ - x)) * kp t θ (φ - x)))
  let B : ℝ → ℝ → ℝ := fun θ φ => qP l m θ * (-(m : ℝ) ^ 2 * E φ * F (kr t θ (φ - x))
    + E' φ * (f (kr t θ (φ - x)) * (Real.sin θ * ka t (φ - x))))
  have k1 : Continuous fun p : ℝ × ℝ => F (kr t p.1 (p.2 - x)) := hFc.comp (kr_cont t x)
  have k2 : Continuous fun p : ℝ × ℝ => f (kr t p.1 (p.2 - x)) := hf.comp (kr_cont t x)
  have k3 := kp_cont t x
  have k4 := ka_cont t x
  have k5 : Continuous fun p : ℝ × ℝ => Real.sin p.1 := Real.continuous_sin.comp continuous_fst
  have k6 : Continuous fun p : ℝ × ℝ => thP l m p.1 := (continuous_thP l m).comp continuous_fst
  have k7 : Continuous fun p : ℝ × ℝ => thD l m p.1 := (continuous_thD l m).comp continuous_fst
  have k8 : Continuous fun p : ℝ × ℝ => qP l m p.1 := (continuous_qP l m).comp continuous_fst
  have k9 : Continuous fun p : ℝ × ℝ => E p.2 := cE.comp continuous_snd
  have k10 : Continuous fun p : ℝ × ℝ => E' p.2 := cE'.comp continuous_snd
  have hA : Continuous fun p : ℝ × ℝ => A p.1 p.2 :=
    (((continuous_const.mul k8).sub ((continuous_const.mul k5).mul k6)).mul (k9.mul k1)).add
      ((k5.mul k7).mul (k9.mul (k2.mul k3)))
  have hB : Continuous fun p : ℝ × ℝ => B p.1 p.2 :=
    k8.mul (((continuous_const.mul k9).mul k1).add (k10.mul (k2.mul (k5.mul k4))))
  have hG : Continuous fun p : ℝ × ℝ => thD l m p.1 * E p.2 * (f (kr t p.1 (p.2 - x)) * kp t p.1 (p.2 - x))
        + qP l m p.1 * E' p.2 * (f (kr t p.1 (p.2 - x)) * ka t (p.2 - x)) :=
    ((k7.mul k9).mul (k2.mul k3)).add ((k8.mul k10).mul (k2.mul k4))
  have hH : Continuous fun p : ℝ × ℝ => -(l * (l + 1) : ℝ) * (thP l m p.1 * E p.2 * F (kr t p.1 (p.2 - x))) :=
    continuous_const.mul ((k6.mul k9).mul k1)
  have zA : ∀ φ, ∫ θ in (0 : ℝ)..Real.pi, A θ φ = 0 := by
    intro φ
    have cont : Continuous fun θ => Real.sin θ * thD l m θ * (E φ * F (kr t θ (φ - x))) := by
      have h : Continuous fun θ => kr t θ (φ - x) := continuous_iff_continuousAt.2 fun θ => (kr_dθ t θ (φ - x)).continuousAt
      exact (Real.continuous_sin.mul (continuous_thD l m)).mul (continuous_const.mul (hFc.comp h))
    rw [intervalIntegral.integral_eq_sub_of_hasDerivAt_of_le
      (f := fun θ => Real.sin θ * thD l m θ * (E φ * F (kr t θ (φ - x)))) Real.pi_pos.le cont.continuousOn
      (fun θ hθ => ?_) (slice1 hA φ _ _)]
    · simp
    · have hs := (Real.sin_pos_of_pos_of_lt_pi hθ.1 hθ.2).ne'
      exact (sin_thD_deriv l m hs).mul (((hF _).comp θ (kr_dθ t θ (φ - x))).const_mul (E φ))
  have zB : ∀ θ, ∫ φ in (0 : ℝ)..2 * Real.pi, B θ φ = 0 := by
    intro θ
    rw [intervalIntegral.integral_eq_sub_of_hasDerivAt (f := fun φ => qP l m θ * (E' φ * F (kr t θ (φ - x))))
      (fun φ _ => ?_) (slice2 hB θ _ _)]
    · have e : Real.cos (2 * Real.pi - x) = Real.cos (0 - x) := by
        rw [Real.cos_two_pi_sub, zero_sub, Real.cos_neg]
      simp only [per, kr, e, sub_self]
    · exact ((dE φ).mul ((hF _).comp φ (kr_dφ t x θ φ))).const_mul (qP l m θ)
  have key : sphereInt (fun θ φ => (thD l m θ * E φ * (f (kr t θ (φ - x)) * kp t θ (φ - x))
        + qP l m θ * E' φ * (f (kr t θ (φ - x)) * ka t (φ - x)))
        + -(l * (l + 1) : ℝ) * (thP l m θ * E φ * F (kr t θ (φ - x)))) = 0 := by
    have e : ∀ θ φ, ((thD l m θ * E φ * (f (kr t θ (φ - x)) * kp t θ (φ - x))
        + qP l m θ * E' φ * (f (kr t θ (φ - x)) * ka t (φ - x)))
        + -(l * (l + 1) : ℝ) * (thP l m θ * E φ * F (kr t θ (φ - x)))) * Real.sin θ = A θ φ + B θ φ := by
      intro θ φ
      simp only [A, B]
      ring
    rw [sphereInt]
    simp only [e]
    have e2 : ∀ φ, ∫ θ in (0 : ℝ)..Real.pi, (A θ φ + B θ φ) = ∫ θ in (0 : ℝ)..Real.pi, B θ φ := by
      intro φ
      rw [intervalIntegral.integral_add (slice1 hA φ _ _) (slice1 hB φ _ _), zA, zero_add]
    simp only [e2]
    rw [int_swap Real.pi_pos Real.two_pi_pos hB]
    simp only [zB]
    simp
  rw [sphereInt_add (f := fun θ φ => thD l m θ * E φ * (f (kr t θ (φ - x)) * kp t θ (φ - x))
        + qP l m θ * E' φ * (f (kr t θ (φ - x)) * ka t (φ - x)))
        (g := fun θ φ => -(l * (l + 1) : ℝ) * (thP l m θ * E φ * F (kr t θ (φ - x)))) hG hH, sphereInt_mul] at key
  linarith

theorem half_sq_deriv (x : ℝ) : HasDerivAt (fun x : ℝ => max 0 x ^ 2) (2 * max 0 x) x := by
  rcases lt_trichotomy x 0 with h | h | h
  · refine ((hasDerivAt_const x (0 : ℝ)).congr_of_eventuallyEq ?_).congr_deriv ?_
    · filter_upwards [Iio_mem_nhds h] with y hy
      rw [max_eq_left (le_of_lt hy)]
      norm_num
    · rw [max_eq_left h.le, mul_zero]
  · subst h
    rw [max_self, mul_zero]
    refine HasDerivAt.of_isLittleO ?_
    have : (fun y : ℝ => max 0 y ^ 2 - max 0 (0 : ℝ) ^ 2 - (y - 0) • (0 : ℝ)) = fun y => max 0 y ^ 2 := by
      funext y
      simp
    rw [this, Asymptotics.isLittleO_iff]
    intro c hc
    filter_upwards [Metric.ball_mem_nhds (0 : ℝ) hc] with y hy
    rw [mem_ball_zero_iff] at hy
    rw [sub_zero, norm_pow, sq, Real.norm_eq_abs]
    have : |max 0 y| ≤ ‖y‖ := by
      rw [abs_of_nonneg (le_max_left _ _), Real.norm_eq_abs]
      exact max_le (abs_nonneg _) (le_abs_self _)
    exact mul_le_mul (this.trans hy.le) this (abs_nonneg _) hc.le
  · refine ((hasDerivAt_pow 2 x).congr_of_eventuallyEq ?_).congr_deriv ?_
    · filter_upwards [Ioi_mem_nhds h] with y hy
      rw [max_eq_right (le_of_lt hy)]
    · rw [max_eq_right h.le]
      simp

theorem half_sq_smooth : ContDiff ℝ 1 fun x : ℝ => max 0 x ^ 2 := by
  rw [contDiff_one_iff_deriv]
  refine ⟨fun x => (half_sq_deriv x).differentiableAt, ?_⟩
  have : deriv (fun x : ℝ => max 0 x ^ 2) = fun x => 2 * max 0 x := funext fun x => (half_sq_deriv x).deriv
  rw [this]
  fun_prop

theorem row_expi (w : ℂ) (p : ℝ) (e : ℂ) : (w * (p : ℝ) * e).re = p * (w * e).re := by
  rw [mul_right_comm, Complex.re_mul_ofReal, mul_comm]

/-- What one row contributes. -/
theorem row_disc {l m : ℕ} (hm : m ≤ l) (wr w : ℂ) {t : ℝ} (ht : 0 ≤ Real.sin t) (x : ℝ) :
    sphereInt (fun θ φ => ((wr * (thP l m θ : ℝ) * expi m φ).re * kr t θ (φ - x)
        + -(w * (thD l m θ : ℝ) * expi m φ).re * kp t θ (φ - x)
        + -(Complex.I * m * w * (qP l m θ : ℝ) * expi m φ).re * ka t (φ - x)) * max 0 (kr t θ (φ - x)))
      = ((wr - l * (l + 1) / 2 * w) * (thP l m t : ℝ) * expi m x).re
        * (2 * Real.pi * ∫ θ in (0 : ℝ)..Real.pi, thP l 0 θ * max 0 (Real.cos θ) ^ 2 * Real.sin θ) := by
  have dexp : ∀ (c : ℂ) (φ : ℝ), HasDerivAt (fun φ : ℝ => (c * expi m φ).re) (Complex.I * m * c * expi m φ).re φ := by
    intro c φ
    refine hasDerivAt_re (((hasDerivAt_expi m φ).const_mul c).congr_deriv ?_)
    push_cast
    ring
  have hcont : ∀ c : ℂ, Continuous fun φ : ℝ => (c * expi m φ).re := fun c =>
    continuous_iff_continuousAt.2 fun φ => (dexp c φ).continuousAt
  have hper : (Complex.I * m * w * expi m (2 * Real.pi)).re = (Complex.I * m * w * expi m 0).re := by
    have : expi m (2 * Real.pi) = expi m 0 := by
      rw [expi, expi, Complex.exp_eq_exp_iff_exists_int]
      refine ⟨m, ?_⟩
      push_cast
      ring
    rw [this]
  have hgreen := green l m (E := fun φ => (w * expi m φ).re) (E' := fun φ => (Complex.I * m * w * expi m φ).re)
    (fun φ => (dexp _ φ).congr_deriv (by
      have : Complex.I * m * (Complex.I * m * w) * expi m φ = ((-(m : ℝ) ^ 2 : ℝ) : ℂ) * (w * expi m φ) := by
        push_cast
        linear_combination ((m : ℂ) ^ 2 * w * expi m φ) * Complex.I_sq
      rw [this, Complex.re_ofReal_mul])) (hcont w) hper (F := fun x => max 0 x ^ 2 / 2) (f := fun x => max 0 x)
    (fun x => ((half_sq_deriv x).div_const 2).congr_deriv (by ring)) (by fun_prop) t x
  have hk : Continuous fun p : ℝ × ℝ => max 0 (kr t p.1 (p.2 - x)) := continuous_const.max (kr_cont t x)
  have c1 : Continuous fun p : ℝ × ℝ => (wr * (thP l m p.1 : ℝ) * expi m p.2).re * max 0 (kr t p.1 (p.2 - x)) ^ 2 := by
    simp only [row_expi]
    exact (((continuous_thP l m).comp continuous_fst).mul ((hcont wr).comp continuous_snd)).mul (hk.pow 2)
  have c2 : Continuous fun p : ℝ × ℝ => (-1 : ℝ) * (thD l m p.1 * (w * expi m p.2).re * (max 0 (kr t p.1 (p.2 - x)) * kp t p.1 (p.2 - x))
        + qP l m p.1 * (Complex.I * m * w * expi m p.2).re * (max 0 (kr t p.1 (p.2 - x)) * ka t (p.2 - x))) :=
    continuous_const.mul (((((continuous_thD l m).comp continuous_fst).mul ((hcont w).comp continuous_snd)).mul (hk.mul (kp_cont t x))).add
      ((((continuous_qP l m).comp continuous_fst).mul ((hcont (Complex.I * m * w)).comp continuous_snd)).mul (hk.mul (ka_cont t x))))
  have split : sphereInt (fun θ φ => ((wr * (thP l m θ : ℝ) * expi m φ).re * kr t θ (φ - x)
        + -(w * (thD l m θ : ℝ) * expi m φ).re * kp t θ (φ - x)
        + -(Complex.I * m * w * (qP l m θ : ℝ) * expi m φ).re * ka t (φ - x)) * max 0 (kr t θ (φ - x)))
      = sphereInt (fun θ φ => (wr * (thP l m θ : ℝ) * expi m φ).re * max 0 (kr t θ (φ - x)) ^ 2
        + (-1 : ℝ) * (thD l m θ * (w * expi m φ).re * (max 0 (kr t θ (φ - x)) * kp t θ (φ - x))
        + qP l m θ * (Complex.I * m * w * expi m φ).re * (max 0 (kr t θ (φ - x)) * ka t (φ - x)))) := by
    congr 1
    funext θ φ
    have e : kr t θ (φ - x) * max 0 (kr t θ (φ - x)) = max 0 (kr t θ (φ - x)) ^ 2 := by
      rcases le_total (kr t θ (φ - x)) 0 with h | h
      · rw [max_eq_left h]; ring
      · rw [max_eq_right h]; ring
    simp only [row_expi]
    linear_combination (thP l m θ * (wr * expi m φ).re) * e
  rw [split, sphereInt_add (f := fun θ φ => (wr * (thP l m θ : ℝ) * expi m φ).re * max 0 (kr t θ (φ - x)) ^ 2)
    (g := fun θ φ => (-1 : ℝ) * (thD l m θ * (w * expi m φ).re * (max 0 (kr t θ (φ - x)) * kp t θ (φ - x))
        + qP l m θ * (Complex.I * m * w * expi m φ).re * (max 0 (kr t θ (φ - x)) * ka t (φ - x)))) c1 c2, sphereInt_mul, hgreen]
  have f1 := funk hm wr half_sq_smooth ht x
  have f2 := funk hm w half_sq_smooth ht x
  have e2 : sphereInt (fun θ φ => thP l m θ * (w * expi m φ).re * (max 0 (kr t θ (φ - x)) ^ 2 / 2))
      = 1 / 2 * sphereInt (fun θ φ => (w * (thP l m θ : ℝ) * expi m φ).re * max 0 (kr t θ (φ - x)) ^ 2) := by
    rw [← sphereInt_mul]
    congr 1
    funext θ φ
    rw [row_expi]
    ring
  rw [e2, f1, f2]
  have e3 : ((wr - l * (l + 1) / 2 * w) * (thP l m t : ℝ) * expi m x).re = (wr * (thP l m t : ℝ) * expi m x).re
      - l * (l + 1) / 2 * (w * (thP l m t : ℝ) * expi m x).re := by
    have : (wr - l * (l + 1) / 2 * w) * (thP l m t : ℝ) * expi m x = wr * (thP l m t : ℝ) * expi m x
      - ((l * (l + 1) / 2 : ℝ) : ℂ) * (w * (thP l m t : ℝ) * expi m x) := by
      push_cast
      ring
    rw [this, Complex.sub_re, Complex.re_ofReal_mul]
  rw [e3]
  ring

end Disc
end Verif
