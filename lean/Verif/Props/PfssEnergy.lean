import Verif.Props.PfssFlux
import Verif.Props.Pfss
import Mathlib.MeasureTheory.Integral.IntervalIntegral.FundThmCalculus

/-!
# Property C116: the tangential field on spheres and the energy of the field
-/

namespace Verif
open Spec Zdi Pfss Legendre Identify Parseval intervalIntegral PfssFlux

namespace Spec

/-- The square of the tangential field that `evaluate_spherical` returns, 0 if it raises. -/
noncomputable def tangentSqOf (s : Coefs ℂ) (r0 rss r θ φ : ℝ) : ℝ :=
  match evalSpherical s r θ φ r0 rss with
  | .ok f => f.2.1 ^ 2 + f.2.2 ^ 2
  | .error _ => 0

/-- The squared field strength of what `evaluate_spherical` returns, 0 if it raises. -/
noncomputable def strengthSqOf (s : Coefs ℂ) (r0 rss r θ φ : ℝ) : ℝ :=
  match evalSpherical s r θ φ r0 rss with
  | .ok f => f.1 ^ 2 + f.2.1 ^ 2 + f.2.2 ^ 2
  | .error _ => 0

/-- The tangential counterpart of `fallOff`: zero from the source surface on. -/
noncomputable def tiltOff (l : ℤ) (r0 rss r : ℝ) : ℝ :=
  (r0 / r) ^ (l + 2) * (1 - (min r rss / rss) ^ (2 * l + 1)) / (l + 1 + l * (r0 / rss) ^ (2 * l + 1))

/-- What a unit coefficient of degree `l` contributes to the energy, in units of `4π r0³/(2l+1)`: `1/(l+1)` for a source
surface far away. -/
noncomputable def storedFraction (l : ℤ) (r0 rss : ℝ) : ℝ :=
  (1 - (r0 / rss) ^ (2 * l + 1)) / (l + 1 + l * (r0 / rss) ^ (2 * l + 1))

end Spec

namespace PfssEnergy

/-- The square of a gradient of a sum of harmonics, integrated over the sphere. -/
theorem K_grad {S : Finset (ℤ × ℤ)} (hS : ∀ k ∈ S, 0 ≤ k.2 ∧ k.2 ≤ k.1) (u : ℤ × ℤ → ℂ) (T : ℝ → ℝ)
    (hT : ∀ θ, OffAxis θ → T θ = (∫ φ in (0 : ℝ)..2 * Real.pi, ((K S u thD θ φ).re ^ 2
      + ((K S (fun k => Complex.I * k.2 * u k) thP θ φ).re / Real.sin θ) ^ 2)) * Real.sin θ) :
    IntervalIntegrable T MeasureTheory.volume 0 Real.pi ∧
    ∫ θ in (0 : ℝ)..Real.pi, T θ = ∑ k ∈ S, A k.2 (u k) (u k) * (k.1 * (k.1 + 1) * N k.1.toNat k.2.toNat) := by
  have h0 : ∀ k ∈ S, 0 ≤ k.2 := fun k hk => (hS k hk).1
  set m := fun k : S => k.1.2.toNat with hm
  set l := fun k : S => k.1.1.toNat with hl
  set w := fun k : S => u k.1 with hw
  have e := tangential_int m l (inj_pairs hS) (fun k => by have := hS _ k.2; simp only [hm, hl]; omega) w (fun _ => 0)
  have hc : ∀ k : S, ((m k : ℕ) : ℤ) = k.1.2 := fun k => Int.toNat_of_nonneg (h0 _ k.2)
  have hEq : Set.EqOn T (fun θ =>
      (∑ i, ∑ j, if m i = m j then A (m i) (w i) (w j) * F2 (m i) (l i) (l j) θ else 0)
      + (∑ i, ∑ j, if m i = m j then A (m i) 0 0 * F2 (m i) (l i) (l j) θ else 0)
      + ∑ i, ∑ j, if m i = m j then
          (-(2 * Real.pi * (w i * (starRingEnd ℂ) (0 : ℂ)).im)) * F3 (m i) (l i) (l j) θ else 0)
      (Set.Ioo 0 Real.pi) := by
    intro θ hθ
    have hs := Real.sin_pos_of_pos_of_lt_pi hθ.1 hθ.2
    rw [hT θ hθ]
    dsimp only
    rw [← tangential_phi m l w (fun _ => 0) hs]
    congr 2
    ext φ
    rw [K_re_Hs h0, K_re_Hs h0]
    simp only [hc]
    have z1 : Hs m (fun k => Complex.I * ((k.1.2 : ℤ) : ℂ) * 0 * (thP (l k) (m k) θ : ℝ)) φ = 0 := by simp [Hs]
    have z2 : Hs m (fun k => (0 : ℂ) * (thD (l k) (m k) θ : ℝ)) φ = 0 := by simp [Hs]
    rw [z1, z2]
    simp only [hm, hl, hw]
    ring
  constructor
  · refine IntervalIntegrable.congr_uIoo (f := _) ?_ (Set.uIoo_of_le Real.pi_pos.le ▸ hEq.symm)
    apply Continuous.intervalIntegrable
    exact ((theta_cont m l (fun i j => A (m i) (w i) (w j)) F2 F2_cont).add
      (theta_cont m l (fun i _ => A (m i) 0 0) F2 F2_cont)).add
      (theta_cont m l (fun i _ => -(2 * Real.pi * (w i * (starRingEnd ℂ) (0 : ℂ)).im)) F3 F3_cont)
  · rw [integral_congr_Ioo_of_le Real.pi_pos.le hEq, e, ← Finset.sum_coe_sort S]
    refine Finset.sum_congr rfl fun k _ => ?_
    have hb := hS _ k.2
    have hk : ((l k : ℕ) : ℝ) = (k.1.1 : ℝ) := by
      exact_mod_cast Int.toNat_of_nonneg (hb.1.trans hb.2)
    rw [hc, hk]
    simp [A, hw, hm, hl]

theorem phiLm_snd (m : ℤ) (c : ℂ) (φ : ℝ) :
    (phiLm m c.re c.im φ).2 = (Complex.I * m * (starRingEnd ℂ) c * expi m φ).re := by
  have e : Complex.I * m * φ = ((m * φ : ℝ) : ℂ) * Complex.I := by push_cast; ring
  rw [phiLm, expi, e, Complex.exp_mul_I, ← Complex.ofReal_cos, ← Complex.ofReal_sin]
  simp only [Complex.mul_re, Complex.mul_im, Complex.add_re, Complex.add_im, Complex.conj_re, Complex.conj_im, Complex.ofReal_re,
    Complex.ofReal_im, Complex.I_re, Complex.I_im, Complex.intCast_re, Complex.intCast_im]
  ring

/-- The weight of a coefficient in the tangential field. -/
noncomputable def wu (r0 rss r : ℝ) (k : ℤ × ℤ) : ℝ := (rL k.1 r r0 rss).1 / r * thetaScale k.1 k.2

/-- The coefficients of the tangential field. -/
noncomputable def cu (s : Coefs ℂ) (r0 rss r : ℝ) (k : ℤ × ℤ) : ℂ := (starRingEnd ℂ) (coef s k.1 k.2) * (wu r0 rss r k : ℝ)

theorem fP_K (s : Coefs ℂ) (r0 rss r : ℝ) {θ : ℝ} (hs : 0 < Real.sin θ) (φ : ℝ) :
    fP s r0 rss r θ φ = -(K (pairs s) (cu s r0 rss r) thD θ φ).re := by
  rw [fP, K, Complex.re_sum, ← Finset.sum_neg_distrib]
  refine Finset.sum_congr rfl fun k _ => ?_
  rw [phiLm_eq, td_eq k hs, cu, wu]
  have e : (starRingEnd ℂ) (coef s k.1 k.2) * (((rL k.1 r r0 rss).1 / r * thetaScale k.1 k.2 : ℝ) : ℂ)
      * ((thD k.1.toNat k.2.toNat θ : ℝ) : ℂ) * expi k.2 φ
      = (((rL k.1 r r0 rss).1 / r * thetaScale k.1 k.2 * thD k.1.toNat k.2.toNat θ : ℝ) : ℂ)
        * ((starRingEnd ℂ) (coef s k.1 k.2) * expi k.2 φ) := by push_cast; ring
  rw [e, Complex.re_ofReal_mul]
  ring

theorem fA_K (s : Coefs ℂ) (r0 rss r : ℝ) {θ : ℝ} (hs : 0 < Real.sin θ) (φ : ℝ) :
    fA s r0 rss r θ φ = -((K (pairs s) (fun k => Complex.I * k.2 * cu s r0 rss r k) thP θ φ).re / Real.sin θ) := by
  rw [fA, K, Complex.re_sum, Finset.sum_div, ← Finset.sum_neg_distrib]
  refine Finset.sum_congr rfl fun k _ => ?_
  rw [phiLm_snd, tv, legendreP_cos _ _ hs.le, cu, wu]
  have e : Complex.I * k.2 * ((starRingEnd ℂ) (coef s k.1 k.2) * (((rL k.1 r r0 rss).1 / r * thetaScale k.1 k.2 : ℝ) : ℂ))
      * ((thP k.1.toNat k.2.toNat θ : ℝ) : ℂ) * expi k.2 φ
      = (((rL k.1 r r0 rss).1 / r * thetaScale k.1 k.2 * thP k.1.toNat k.2.toNat θ : ℝ) : ℂ)
        * (Complex.I * k.2 * (starRingEnd ℂ) (coef s k.1 k.2) * expi k.2 φ) := by push_cast; ring
  rw [e, Complex.re_ofReal_mul]
  have h := hs.ne'
  rw [← sub_eq_zero]
  by_cases hr : r = 0
  · subst hr; simp
  · field_simp
    ring

theorem evalSpherical_min {s : Coefs ℂ} (h : RadialSet s) {r0 rss r : ℝ} (h0 : 0 < r0) (h1 : r0 < rss) (hr : r0 ≤ r)
    (θ φ : ℝ) : evalSpherical s r θ φ r0 rss = .ok (fR s r0 rss (min r rss) θ φ * (min r rss / r) ^ 2,
      fP s r0 rss (min r rss) θ φ * (min r rss / r) ^ 2, fA s r0 rss (min r rss) θ φ * (min r rss / r) ^ 2) := by
  have hp : 0 < r := h0.trans_le hr
  rw [evalSpherical_eq h h1, if_neg hr.not_gt]
  by_cases h2 : rss < r
  · rw [if_pos h2, min_eq_right h2.le]
  · rw [if_neg h2, min_eq_left (not_lt.1 h2), div_self hp.ne']
    simp

theorem rL_tilt {l : ℤ} {r0 rss r : ℝ} (h0 : 0 < r0) (h1 : r0 < rss) (hr : r0 ≤ r) :
    (rL l (min r rss) r0 rss).1 / min r rss * (min r rss / r) ^ 2 = tiltOff l r0 rss r := by
  have p1 : 0 < rss := h0.trans h1
  have p3 : 0 < r := h0.trans_le hr
  rw [rL, tiltOff]
  by_cases h2 : rss ≤ r
  · rw [min_eq_right h2, div_self p1.ne']
    simp
  · rw [min_eq_left (not_le.1 h2).le, div_self p3.ne']
    field_simp

section
variable {s : Coefs ℂ} (h : RadialSet s) {r0 rss r : ℝ} (h0 : 0 < r0) (h1 : r0 < rss) (hr : r0 ≤ r)
include h h0 h1 hr

theorem tangent_eq (θ φ : ℝ) (hs : 0 < Real.sin θ) : tangentSqOf s r0 rss r θ φ
    = ((K (pairs s) (cu s r0 rss (min r rss)) thD θ φ).re ^ 2
      + ((K (pairs s) (fun k => Complex.I * k.2 * cu s r0 rss (min r rss) k) thP θ φ).re / Real.sin θ) ^ 2)
        * ((min r rss / r) ^ 2) ^ 2 := by
  rw [tangentSqOf, evalSpherical_min h h0 h1 hr]
  dsimp only
  rw [fP_K s r0 rss _ hs, fA_K s r0 rss _ hs]
  ring

theorem tangent_int :
    IntervalIntegrable (fun θ => (∫ φ in (0 : ℝ)..2 * Real.pi, tangentSqOf s r0 rss r θ φ) * Real.sin θ)
      MeasureTheory.volume 0 Real.pi ∧
    overSphere (tangentSqOf s r0 rss r)
      = ∑ k ∈ pairs s, 4 * Real.pi / (2 * k.1 + 1) * (k.1 * (k.1 + 1) * tiltOff k.1 r0 rss r ^ 2)
        * visibleSq k.2 (coef s k.1 k.2) := by
  obtain ⟨g1, g2⟩ := K_grad (fun k hk => bounds h hk) (cu s r0 rss (min r rss)) _ (fun θ _ => rfl)
  have e : Set.EqOn (fun θ => (∫ φ in (0 : ℝ)..2 * Real.pi, tangentSqOf s r0 rss r θ φ) * Real.sin θ)
      (fun θ => (∫ φ in (0 : ℝ)..2 * Real.pi, ((K (pairs s) (cu s r0 rss (min r rss)) thD θ φ).re ^ 2
      + ((K (pairs s) (fun k => Complex.I * k.2 * cu s r0 rss (min r rss) k) thP θ φ).re / Real.sin θ) ^ 2)) * Real.sin θ
        * ((min r rss / r) ^ 2) ^ 2) (Set.Ioo 0 Real.pi) := by
    intro θ hθ
    have hs := Real.sin_pos_of_pos_of_lt_pi hθ.1 hθ.2
    simp only [tangent_eq h h0 h1 hr _ _ hs, integral_mul_const]
    ring
  constructor
  · refine IntervalIntegrable.congr_uIoo (g1.mul_const (((min r rss / r) ^ 2) ^ 2)) ?_
    rw [Set.uIoo_of_le Real.pi_pos.le]
    exact e.symm
  · rw [overSphere, integral_congr_Ioo_of_le Real.pi_pos.le e, integral_mul_const, g2, Finset.sum_mul]
    refine Finset.sum_congr rfl fun k hk => ?_
    have hb := bounds h hk
    have hN := thetaScale_sq hb.1 hb.2
    rw [cu, A_conj, wu, ← rL_tilt h0 h1 hr]
    have e2 : Real.pi * ((rL k.1 (min r rss) r0 rss).1 / min r rss * thetaScale k.1 k.2) ^ 2
          * ((if k.2 = 0 then 2 else 1) * visibleSq k.2 (coef s k.1 k.2)) * (k.1 * (k.1 + 1) * N k.1.toNat k.2.toNat)
          * ((min r rss / r) ^ 2) ^ 2
        = Real.pi * ((rL k.1 (min r rss) r0 rss).1 / min r rss * (min r rss / r) ^ 2) ^ 2 * (k.1 * (k.1 + 1))
          * ((if k.2 = 0 then 2 else 1) * visibleSq k.2 (coef s k.1 k.2))
          * (thetaScale k.1 k.2 ^ 2 * N k.1.toNat k.2.toNat) := by ring
    rw [e2, hN]
    split_ifs <;> ring

end

/-- The part of the integrand over the sphere that comes from the radial field. -/
theorem radial_cont {s : Coefs ℂ} (h : RadialSet s) {r0 rss r : ℝ} (h0 : 0 < r0) (h1 : r0 < rss) (hr : r0 ≤ r) :
    IntervalIntegrable (fun θ => (∫ φ in (0 : ℝ)..2 * Real.pi, radialOf s r0 rss r θ φ ^ 2) * Real.sin θ)
      MeasureTheory.volume 0 Real.pi := by
  set x := fun k : ℤ × ℤ => (starRingEnd ℂ) (storedCoef s k.1 k.2) * ((wt r0 rss (min r rss) k : ℝ) : ℂ) with hx
  have c1 : Continuous (Function.uncurry fun θ φ => (K (pairs s) x thP θ φ).re ^ 2) := by
    unfold Function.uncurry K
    fun_prop
  have c2 : Continuous fun θ => ∫ φ in (0 : ℝ)..2 * Real.pi, (K (pairs s) x thP θ φ).re ^ 2 :=
    continuous_parametric_intervalIntegral_of_continuous' c1 _ _
  have c3 : Continuous fun θ => ((∫ φ in (0 : ℝ)..2 * Real.pi, (K (pairs s) x thP θ φ).re ^ 2) * Real.sin θ)
      * ((min r rss / r) ^ 2) ^ 2 := by fun_prop
  refine IntervalIntegrable.congr_uIoo (c3.intervalIntegrable _ _) ?_
  rw [Set.uIoo_of_le Real.pi_pos.le]
  intro θ hθ
  have hs := Real.sin_pos_of_pos_of_lt_pi hθ.1 hθ.2
  have e : ∀ φ, radialOf s r0 rss r θ φ ^ 2 = (K (pairs s) x thP θ φ).re ^ 2 * ((min r rss / r) ^ 2) ^ 2 := fun φ => by
    rw [radialOf_eq h h0 h1 hr, fR_K (Finset.Subset.refl _) _ _ _ hs.le, mul_pow]
  simp only [e, integral_mul_const]
  ring

theorem strength_int {s : Coefs ℂ} (h : RadialSet s) {r0 rss r : ℝ} (h0 : 0 < r0) (h1 : r0 < rss) (hr : r0 ≤ r) :
    overSphere (strengthSqOf s r0 rss r)
      = overSphere (fun θ φ => radialOf s r0 rss r θ φ ^ 2) + overSphere (tangentSqOf s r0 rss r) := by
  rw [overSphere, overSphere, overSphere, ← integral_add (radial_cont h h0 h1 hr) (tangent_int h h0 h1 hr).1]
  refine integral_congr_Ioo_of_le Real.pi_pos.le fun θ hθ => ?_
  have hs := Real.sin_pos_of_pos_of_lt_pi hθ.1 hθ.2
  rw [← add_mul, ← integral_add]
  · congr 2
    ext φ
    rw [strengthSqOf, radialOf, tangentSqOf, evalSpherical_min h h0 h1 hr]
    dsimp only
    ring
  · apply Continuous.intervalIntegrable
    refine (((K_cont (pairs s) (fun k => (starRingEnd ℂ) (storedCoef s k.1 k.2) * (wt r0 rss (min r rss) k : ℝ)) θ).mul
      (continuous_const (y := (min r rss / r) ^ 2))).pow 2).congr fun φ => ?_
    rw [radialOf_eq h h0 h1 hr, fR_K (Finset.Subset.refl _) _ _ _ hs.le]
    rfl
  · apply Continuous.intervalIntegrable
    have c : Continuous fun φ => ((K (pairs s) (cu s r0 rss (min r rss)) thD θ φ).re ^ 2
      + ((K (pairs s) (fun k => Complex.I * k.2 * cu s r0 rss (min r rss) k) thP θ φ).re / Real.sin θ) ^ 2)
        * ((min r rss / r) ^ 2) ^ 2 := by
      unfold K
      fun_prop
    exact c.congr fun φ => (tangent_eq h h0 h1 hr θ φ hs).symm

theorem denom {l : ℤ} (hl : 0 ≤ l) {r0 rss : ℝ} (h0 : 0 < r0) (h1 : 0 < rss) :
    (0 : ℝ) < l + 1 + l * (r0 / rss) ^ (2 * l + 1) := by
  have hl' : (0 : ℝ) ≤ l := by exact_mod_cast hl
  have q3 : 0 < (r0 / rss) ^ (2 * l + 1) := zpow_pos (div_pos h0 h1) _
  positivity

/-- The tangential part of a degree is weaker than the radial one. -/
theorem tilt_le {l : ℤ} (hl : 0 ≤ l) {r0 rss r : ℝ} (h0 : 0 < r0) (h1 : r0 < rss) (hr : r0 ≤ r) :
    0 ≤ tiltOff l r0 rss r ∧ (l + 1) * tiltOff l r0 rss r ≤ fallOff l r0 rss r := by
  have p1 : 0 < rss := h0.trans h1
  have p3 : 0 < r := h0.trans_le hr
  have p2 : 0 < min r rss := lt_min p3 p1
  have hl' : (0 : ℝ) ≤ l := by exact_mod_cast hl
  have d := denom hl h0 p1
  have x0 : 0 < (min r rss / rss) ^ (2 * l + 1) := zpow_pos (div_pos p2 p1) _
  have x1 : (min r rss / rss) ^ (2 * l + 1) ≤ 1 := by
    obtain ⟨n, rfl⟩ := Int.eq_ofNat_of_zero_le hl
    rw [show 2 * (n : ℤ) + 1 = ((2 * n + 1 : ℕ) : ℤ) by push_cast; ring, zpow_natCast]
    exact pow_le_one₀ (div_pos p2 p1).le ((div_le_one p1).2 (min_le_right _ _))
  have q1 : 0 < (r0 / min r rss) ^ (l + 2) := zpow_pos (div_pos h0 p2) _
  rw [← rL_tilt h0 h1 hr, ← neg_rL, rL]
  dsimp only
  set x := (min r rss / rss) ^ (2 * l + 1) with hx
  set e := (l : ℝ) + 1 + l * (r0 / rss) ^ (2 * l + 1) with he
  set c := (r0 / min r rss) ^ (l + 2) with hc
  set f := (min r rss / r) ^ 2 with hf
  have f0 : 0 < f := by positivity
  have e1 : min r rss * c * (1 - x) / e / min r rss * f = c * f / e * (1 - x) := by field_simp
  have e2 : -(-c * (l + 1 + l * x) / e) * f = c * f / e * (l + 1 + l * x) := by ring
  rw [e1, e2]
  have w : 0 < c * f / e := by positivity
  constructor
  · exact mul_nonneg w.le (by linarith)
  · rw [mul_left_comm]
    refine mul_le_mul_of_nonneg_left ?_ w.le
    nlinarith

theorem ρ_small {l : ℤ} (hl : 0 ≤ l) {r0 rss : ℝ} (h0 : 0 < r0) (h1 : r0 < rss) :
    0 < (r0 / rss) ^ (2 * l + 1) ∧ (r0 / rss) ^ (2 * l + 1) < 1 := by
  have p1 : 0 < rss := h0.trans h1
  refine ⟨zpow_pos (div_pos h0 p1) _, ?_⟩
  obtain ⟨n, rfl⟩ := Int.eq_ofNat_of_zero_le hl
  rw [show 2 * (n : ℤ) + 1 = ((2 * n + 1 : ℕ) : ℤ) by push_cast; ring, zpow_natCast]
  exact pow_lt_one₀ (div_pos h0 p1).le ((div_lt_one p1).2 h1) (by omega)

theorem stored_pos {l : ℤ} (hl : 0 ≤ l) {r0 rss : ℝ} (h0 : 0 < r0) (h1 : r0 < rss) : 0 < storedFraction l r0 rss :=
  div_pos (by linarith [(ρ_small hl h0 h1).2]) (denom hl h0 (h0.trans h1))

theorem stored_lt {l : ℤ} (hl : 0 ≤ l) {r0 rss : ℝ} (h0 : 0 < r0) (h1 : r0 < rss) : storedFraction l r0 rss < 1 / (l + 1) := by
  have hl' : (0 : ℝ) ≤ l := by exact_mod_cast hl
  rw [storedFraction, div_lt_div_iff₀ (denom hl h0 (h0.trans h1)) (by positivity)]
  have := (ρ_small hl h0 h1).1
  nlinarith

theorem stored_mono {l : ℤ} (hl : 0 ≤ l) {r0 rss rss' : ℝ} (h0 : 0 < r0) (h1 : r0 < rss) (h2 : rss < rss') :
    storedFraction l r0 rss < storedFraction l r0 rss' := by
  have hl' : (0 : ℝ) ≤ l := by exact_mod_cast hl
  have p1 : 0 < rss := h0.trans h1
  have p2 : 0 < rss' := p1.trans h2
  have hlt : (r0 / rss') ^ (2 * l + 1) < (r0 / rss) ^ (2 * l + 1) := by
    obtain ⟨n, rfl⟩ := Int.eq_ofNat_of_zero_le hl
    rw [show 2 * (n : ℤ) + 1 = ((2 * n + 1 : ℕ) : ℤ) by push_cast; ring, zpow_natCast, zpow_natCast]
    exact pow_lt_pow_left₀ (div_lt_div_of_pos_left h0 p1 h2) (div_pos h0 p2).le (by omega)
  rw [storedFraction, storedFraction, div_lt_div_iff₀ (denom hl h0 p1) (denom hl h0 p2)]
  nlinarith

theorem stored_tendsto {l : ℤ} (hl : 0 ≤ l) (r0 : ℝ) :
    Filter.Tendsto (fun rss => storedFraction l r0 rss) Filter.atTop (nhds (1 / (l + 1))) := by
  have hl' : (0 : ℝ) ≤ l := by exact_mod_cast hl
  have a : Filter.Tendsto (fun rss : ℝ => (r0 / rss) ^ (2 * l + 1)) Filter.atTop (nhds 0) := by
    obtain ⟨n, rfl⟩ := Int.eq_ofNat_of_zero_le hl
    have := (Filter.Tendsto.const_div_atTop (Filter.tendsto_id (α := ℝ)) r0).pow (2 * n + 1)
    rw [zero_pow (by omega)] at this
    refine this.congr fun x => ?_
    rw [show 2 * (n : ℤ) + 1 = ((2 * n + 1 : ℕ) : ℤ) by push_cast; ring, zpow_natCast]
    rfl
  have b := (a.const_sub 1).div ((a.const_mul (l : ℝ)).const_add ((l : ℝ) + 1)) (by positivity)
  have e : (1 - 0) / ((l : ℝ) + 1 + l * 0) = 1 / (l + 1) := by ring
  rw [e] at b
  exact b.congr fun x => by rw [storedFraction]; rfl

/-- One degree: the energy between the star and the source surface. -/
theorem degree_energy {l : ℤ} (hl : 0 ≤ l) {r0 rss : ℝ} (h0 : 0 < r0) (h1 : r0 < rss) :
    IntervalIntegrable (fun r => r ^ 2 * (fallOff l r0 rss r ^ 2 + l * (l + 1) * tiltOff l r0 rss r ^ 2))
      MeasureTheory.volume r0 rss ∧
    ∫ r in r0..rss, r ^ 2 * (fallOff l r0 rss r ^ 2 + l * (l + 1) * tiltOff l r0 rss r ^ 2) = r0 ^ 3 * storedFraction l r0 rss := by
  have p1 : 0 < rss := h0.trans h1
  have e : Set.EqOn (fun r => r ^ 2 * (fallOff l r0 rss r ^ 2 + l * (l + 1) * tiltOff l r0 rss r ^ 2))
      (fun r => l * (l + 1) * (rL l r r0 rss).1 * (rL l r r0 rss).1 + r ^ 2 * (rL l r r0 rss).2 * (rL l r r0 rss).2)
      (Set.uIcc r0 rss) := by
    intro r hr
    rw [Set.uIcc_of_le h1.le] at hr
    have p3 : 0 < r := h0.trans_le hr.1
    have a := rL_tilt (l := l) h0 h1 hr.1
    have b := neg_rL l r0 rss r
    rw [min_eq_left hr.2, div_self p3.ne', one_pow, mul_one] at a b
    dsimp only
    rw [← a, ← b]
    field_simp
    ring
  have d : ∀ r ∈ Set.uIcc r0 rss, HasDerivAt (fun x => x ^ 2 * (rL l x r0 rss).2 * (rL l x r0 rss).1)
      (l * (l + 1) * (rL l r r0 rss).1 * (rL l r r0 rss).1 + r ^ 2 * (rL l r r0 rss).2 * (rL l r r0 rss).2) r := by
    intro r hr
    rw [Set.uIcc_of_le h1.le] at hr
    have p3 : r ≠ 0 := (h0.trans_le hr.1).ne'
    exact (hasDerivAt_r2 l r0 rss p3).mul (C33_radial l r0 rss p3)
  have i : IntervalIntegrable (fun r => l * (l + 1) * (rL l r r0 rss).1 * (rL l r r0 rss).1
      + r ^ 2 * (rL l r r0 rss).2 * (rL l r r0 rss).2) MeasureTheory.volume r0 rss := by
    apply ContinuousOn.intervalIntegrable
    intro r hr
    rw [Set.uIcc_of_le h1.le] at hr
    have p3 : r ≠ 0 := (h0.trans_le hr.1).ne'
    have c1 := (C33_radial l r0 rss p3).continuousAt
    have c2 := (hasDerivAt_r2 l r0 rss p3).continuousAt
    have c3 : ContinuousAt (fun x => (rL l x r0 rss).2) r := by
      have : ContinuousAt (fun x => x ^ 2 * (rL l x r0 rss).2 / x ^ 2) r :=
        c2.div (by fun_prop) (pow_ne_zero 2 p3)
      refine this.congr ?_
      filter_upwards [isOpen_ne.mem_nhds p3] with x hx
      have hx : x ≠ 0 := hx
      field_simp
    exact (((continuousAt_const.mul c1).mul c1).add (c2.mul c3)).continuousWithinAt
  constructor
  · exact i.congr fun r hr => (e (Set.uIoc_subset_uIcc hr)).symm
  · rw [integral_congr e, integral_eq_sub_of_hasDerivAt d i]
    have d0 := denom hl h0 p1
    have z1 : (rL l rss r0 rss).1 = 0 := by rw [rL, div_self p1.ne']; simp
    have z2 : (rL l r0 r0 rss).2 = -1 := by
      rw [rL, div_self h0.ne']
      simp only [one_zpow]
      rw [neg_one_mul, neg_div, div_self d0.ne']
    have z3 : (rL l r0 r0 rss).1 = r0 * storedFraction l r0 rss := by
      rw [rL, div_self h0.ne', storedFraction]
      simp only [one_zpow]
      ring
    rw [z1, z2, z3]
    ring

end PfssEnergy
open PfssEnergy

/-- **C116.** The squared tangential field integrated over a sphere is a sum over the coefficients too. -/
theorem C116_tangential (s : Coefs ℂ) (h : RadialSet s) (r0 rss r : ℝ) (h0 : 0 < r0) (h1 : r0 < rss) (hr : r0 ≤ r) :
    overSphere (tangentSqOf s r0 rss r)
      = ∑ k ∈ pairs s, 4 * Real.pi / (2 * k.1 + 1) * (k.1 * (k.1 + 1) * tiltOff k.1 r0 rss r ^ 2)
        * visibleSq k.2 (coef s k.1 k.2) := (tangent_int h h0 h1 hr).2

/-- **C116.** So is the squared field strength. -/
theorem C116_strength (s : Coefs ℂ) (h : RadialSet s) (r0 rss r : ℝ) (h0 : 0 < r0) (h1 : r0 < rss) (hr : r0 ≤ r) :
    overSphere (strengthSqOf s r0 rss r)
      = ∑ k ∈ pairs s, 4 * Real.pi / (2 * k.1 + 1)
        * (fallOff k.1 r0 rss r ^ 2 + k.1 * (k.1 + 1) * tiltOff k.1 r0 rss r ^ 2) * visibleSq k.2 (coef s k.1 k.2) := by
  rw [strength_int h h0 h1 hr, C103_mean_square s h r0 rss r h0 h1 hr, C116_tangential s h r0 rss r h0 h1 hr,
    ← Finset.sum_add_distrib]
  exact Finset.sum_congr rfl fun k _ => by ring

/-- **C116.** On every sphere the field is more radial than tangential: for degrees up to `L` the mean square of the tangential
field is at most `L/(L+1)` times that of the radial field. -/
theorem C116_more_radial (s : Coefs ℂ) (h : RadialSet s) (r0 rss r : ℝ) (h0 : 0 < r0) (h1 : r0 < rss) (hr : r0 ≤ r) (L : ℤ)
    (hL : ∀ l m : ℤ, stores s l m → l ≤ L) :
    (L + 1) * overSphere (tangentSqOf s r0 rss r) ≤ L * overSphere (fun θ φ => radialOf s r0 rss r θ φ ^ 2) := by
  rw [C103_mean_square s h r0 rss r h0 h1 hr, C116_tangential s h r0 rss r h0 h1 hr, Finset.mul_sum, Finset.mul_sum]
  refine Finset.sum_le_sum fun k hk => ?_
  have hb := bounds h hk
  have hl : (0 : ℝ) ≤ k.1 := by exact_mod_cast hb.1.trans hb.2
  have hLr : (k.1 : ℝ) ≤ L := by exact_mod_cast hL _ _ ((mem_pairs s k).1 hk)
  obtain ⟨t0, t1⟩ := tilt_le (hb.1.trans hb.2) h0 h1 hr
  have t2 : ((k.1 + 1) * tiltOff k.1 r0 rss r) ^ 2 ≤ fallOff k.1 r0 rss r ^ 2 := pow_le_pow_left₀ (by positivity) t1 2
  have w : 0 ≤ 4 * Real.pi / (2 * k.1 + 1) * visibleSq k.2 (coef s k.1 k.2) :=
    mul_nonneg (by positivity) (visibleSq_nonneg _ _)
  have q : (L + 1) * (k.1 * (k.1 + 1) * tiltOff k.1 r0 rss r ^ 2) ≤ L * fallOff k.1 r0 rss r ^ 2 := by
    have a : ((L : ℝ) + 1) * k.1 ≤ L * (k.1 + 1) := by nlinarith
    have b : 0 ≤ ((k.1 : ℝ) + 1) * tiltOff k.1 r0 rss r ^ 2 := by positivity
    have c : 0 ≤ (L : ℝ) := hl.trans hLr
    calc (L + 1) * (k.1 * (k.1 + 1) * tiltOff k.1 r0 rss r ^ 2)
        = ((L + 1) * k.1) * ((k.1 + 1) * tiltOff k.1 r0 rss r ^ 2) := by ring
      _ ≤ (L * (k.1 + 1)) * ((k.1 + 1) * tiltOff k.1 r0 rss r ^ 2) := mul_le_mul_of_nonneg_right a b
      _ = L * ((k.1 + 1) * tiltOff k.1 r0 rss r) ^ 2 := by ring
      _ ≤ L * fallOff k.1 r0 rss r ^ 2 := mul_le_mul_of_nonneg_left t2 c
  have := mul_le_mul_of_nonneg_left q w
  linarith [this]

/-- **C116.** The squared field strength integrated over the volume between the star and the source surface (`8π` times the
magnetic energy there) is a sum over the coefficients of the surface field. -/
theorem C116_energy (s : Coefs ℂ) (h : RadialSet s) (r0 rss : ℝ) (h0 : 0 < r0) (h1 : r0 < rss) :
    ∫ r in r0..rss, r ^ 2 * overSphere (strengthSqOf s r0 rss r)
      = 4 * Real.pi * r0 ^ 3 * ∑ k ∈ pairs s, storedFraction k.1 r0 rss / (2 * k.1 + 1) * visibleSq k.2 (coef s k.1 k.2) := by
  have e : Set.EqOn (fun r => r ^ 2 * overSphere (strengthSqOf s r0 rss r))
      (fun r => ∑ k ∈ pairs s, (4 * Real.pi / (2 * k.1 + 1) * visibleSq k.2 (coef s k.1 k.2))
        * (r ^ 2 * (fallOff k.1 r0 rss r ^ 2 + k.1 * (k.1 + 1) * tiltOff k.1 r0 rss r ^ 2))) (Set.uIcc r0 rss) := by
    intro r hr
    rw [Set.uIcc_of_le h1.le] at hr
    dsimp only
    rw [C116_strength s h r0 rss r h0 h1 hr.1, Finset.mul_sum]
    exact Finset.sum_congr rfl fun k _ => by ring
  have hb : ∀ k ∈ pairs s, (0 : ℤ) ≤ k.1 := fun k hk => (bounds h hk).1.trans (bounds h hk).2
  rw [integral_congr e, integral_finset_sum fun k hk => ((degree_energy (hb k hk) h0 h1).1.const_mul _), Finset.mul_sum]
  refine Finset.sum_congr rfl fun k hk => ?_
  rw [integral_const_mul, (degree_energy (hb k hk) h0 h1).2]
  ring

/-- **C116.** That energy grows with the distance of the source surface, unless the field vanishes. -/
theorem C116_energy_grows (s : Coefs ℂ) (h : RadialSet s) (r0 rss rss' : ℝ) (h0 : 0 < r0) (h1 : r0 < rss) (h2 : rss < rss')
    (l m : ℤ) (hst : stores s l m) (hv : visibleSq m (coef s l m) ≠ 0) :
    ∫ r in r0..rss, r ^ 2 * overSphere (strengthSqOf s r0 rss r)
      < ∫ r in r0..rss', r ^ 2 * overSphere (strengthSqOf s r0 rss' r) := by
  rw [C116_energy s h r0 rss h0 h1, C116_energy s h r0 rss' h0 (h1.trans h2)]
  refine mul_lt_mul_of_pos_left ?_ (by positivity)
  refine Finset.sum_lt_sum (fun k hk => ?_) ⟨(l, m), (mem_pairs s (l, m)).2 hst, ?_⟩
  · have hb := (bounds h hk).1.trans (bounds h hk).2
    have hl : (0 : ℝ) ≤ k.1 := by exact_mod_cast hb
    exact mul_le_mul_of_nonneg_right (div_le_div_of_nonneg_right (stored_mono hb h0 h1 h2).le (by positivity))
      (visibleSq_nonneg _ _)
  · have hb := bounds h ((mem_pairs s (l, m)).2 hst)
    have hb' : 0 ≤ l := hb.1.trans hb.2
    have hl : (0 : ℝ) ≤ l := by exact_mod_cast hb'
    exact mul_lt_mul_of_pos_right (div_lt_div_of_pos_right (stored_mono hb' h0 h1 h2) (by positivity))
      (lt_of_le_of_ne (visibleSq_nonneg _ _) hv.symm)

/-- **C116.** It never exceeds that of the potential field that is not forced to be radial anywhere, with the same radial field
at the surface. -/
theorem C116_energy_le (s : Coefs ℂ) (h : RadialSet s) (r0 rss : ℝ) (h0 : 0 < r0) (h1 : r0 < rss) :
    ∫ r in r0..rss, r ^ 2 * overSphere (strengthSqOf s r0 rss r)
      ≤ 4 * Real.pi * r0 ^ 3 * ∑ k ∈ pairs s, visibleSq k.2 (coef s k.1 k.2) / ((k.1 + 1) * (2 * k.1 + 1)) := by
  rw [C116_energy s h r0 rss h0 h1]
  refine mul_le_mul_of_nonneg_left (Finset.sum_le_sum fun k hk => ?_) (by positivity)
  have hb := (bounds h hk).1.trans (bounds h hk).2
  have hl : (0 : ℝ) ≤ k.1 := by exact_mod_cast hb
  calc storedFraction k.1 r0 rss / (2 * k.1 + 1) * visibleSq k.2 (coef s k.1 k.2)
      ≤ 1 / (k.1 + 1) / (2 * k.1 + 1) * visibleSq k.2 (coef s k.1 k.2) :=
        mul_le_mul_of_nonneg_right (div_le_div_of_nonneg_right (stored_lt hb h0 h1).le (by positivity)) (visibleSq_nonneg _ _)
    _ = _ := by field_simp

/-- **C116.** It tends to that as the source surface recedes. -/
theorem C116_energy_limit (s : Coefs ℂ) (h : RadialSet s) (r0 : ℝ) (h0 : 0 < r0) :
    Filter.Tendsto (fun rss => ∫ r in r0..rss, r ^ 2 * overSphere (strengthSqOf s r0 rss r)) Filter.atTop
      (nhds (4 * Real.pi * r0 ^ 3 * ∑ k ∈ pairs s, visibleSq k.2 (coef s k.1 k.2) / ((k.1 + 1) * (2 * k.1 + 1)))) := by
  have e : (fun rss => 4 * Real.pi * r0 ^ 3 * ∑ k ∈ pairs s, storedFraction k.1 r0 rss / (2 * k.1 + 1)
      * visibleSq k.2 (coef s k.1 k.2))
      =ᶠ[Filter.atTop] fun rss => ∫ r in r0..rss, r ^ 2 * overSphere (strengthSqOf s r0 rss r) := by
    filter_upwards [Filter.eventually_gt_atTop r0] with rss h1
    exact (C116_energy s h r0 rss h0 h1).symm
  refine Filter.Tendsto.congr' e (Filter.Tendsto.const_mul _ (tendsto_finsetSum _ fun k hk => ?_))
  have hb := (bounds h hk).1.trans (bounds h hk).2
  have hl : (0 : ℝ) ≤ k.1 := by exact_mod_cast hb
  have := ((stored_tendsto hb r0).div_const (2 * (k.1 : ℝ) + 1)).mul_const (visibleSq k.2 (coef s k.1 k.2))
  have e2 : 1 / ((k.1 : ℝ) + 1) / (2 * k.1 + 1) * visibleSq k.2 (coef s k.1 k.2)
      = visibleSq k.2 (coef s k.1 k.2) / ((k.1 + 1) * (2 * k.1 + 1)) := by field_simp
  rwa [e2] at this

/-- **C116.** Beyond the source surface the field of the wind adds `rss³ (1 - rss/R)` times the square of the radial field on the
source surface. -/
theorem C116_energy_beyond (s : Coefs ℂ) (h : RadialSet s) (r0 rss R : ℝ) (h0 : 0 < r0) (h1 : r0 < rss) (hR : rss ≤ R) :
    ∫ r in rss..R, r ^ 2 * overSphere (strengthSqOf s r0 rss r)
      = rss ^ 3 * (1 - rss / R) * overSphere (fun θ φ => radialOf s r0 rss rss θ φ ^ 2) := by
  have p1 : 0 < rss := h0.trans h1
  have p2 : 0 < R := p1.trans_le hR
  have e : Set.EqOn (fun r => r ^ 2 * overSphere (strengthSqOf s r0 rss r))
      (fun r => rss ^ 4 * overSphere (fun θ φ => radialOf s r0 rss rss θ φ ^ 2) * (r ^ 2)⁻¹) (Set.uIcc rss R) := by
    intro r hr
    rw [Set.uIcc_of_le hR] at hr
    have p3 : 0 < r := p1.trans_le hr.1
    dsimp only
    have z : overSphere (tangentSqOf s r0 rss r) = 0 := by
      rw [C116_tangential s h r0 rss r h0 h1 (h1.le.trans hr.1)]
      refine Finset.sum_eq_zero fun k _ => ?_
      have : tiltOff k.1 r0 rss r = 0 := by rw [tiltOff, min_eq_right hr.1, div_self p1.ne']; simp
      rw [this]; ring
    rw [strength_int h h0 h1 (h1.le.trans hr.1), z, add_zero, ← C103_beyond s h r0 rss r h0 h1 hr.1]
    field_simp
  have d : ∀ r ∈ Set.uIcc rss R, HasDerivAt (fun x : ℝ => -x⁻¹) ((r ^ 2)⁻¹) r := by
    intro r hr
    rw [Set.uIcc_of_le hR] at hr
    have p3 : r ≠ 0 := (p1.trans_le hr.1).ne'
    exact (hasDerivAt_inv p3).neg.congr_deriv (by ring)
  have i : IntervalIntegrable (fun r : ℝ => (r ^ 2)⁻¹) MeasureTheory.volume rss R := by
    apply ContinuousOn.intervalIntegrable
    intro r hr
    rw [Set.uIcc_of_le hR] at hr
    have p3 : r ≠ 0 := (p1.trans_le hr.1).ne'
    exact ((continuous_pow 2).continuousAt.inv₀ (pow_ne_zero 2 p3)).continuousWithinAt
  rw [integral_congr e, integral_const_mul, integral_eq_sub_of_hasDerivAt d i]
  field_simp
  ring

/-- A dipole of strength 3 on a star of radius 1 with the source surface at 2. -/
private noncomputable def exDipoleE : Coefs ℂ := ⟨[0], .cplx, [((1, 0), [3])], 1, 0⟩

private theorem exDipoleE_radial : RadialSet exDipoleE := by
  have hr : Reach exDipoleE := by
    refine Reach.append (s := Coefs.new [0] .cplx) (.int 1) (.int 0) [3] ?_ rfl
    exact Reach.new _ _ (by simp)
  refine ⟨wellFormed_of_WF hr.WF, rfl, ⟨1, 0, rfl⟩, fun l m hm => ?_⟩
  have := (Coefs.has_int exDipoleE l m).1 hm
  simp only [Coefs.keys, exDipoleE, List.map_cons, List.map_nil, List.mem_singleton, Prod.mk.injEq] at this
  omega

/-- Its energy: `7/17` of the square of the polar field over `3`, times `4π`; at the surface the square of the tangential field
is `2 (7/17)²` of that of the radial field. -/
example : ∫ r in (1 : ℝ)..2, r ^ 2 * overSphere (strengthSqOf exDipoleE 1 2 r) = 4 * Real.pi * (21 / 17) ∧
    overSphere (tangentSqOf exDipoleE 1 2 1) = 4 * Real.pi * (3 * (2 * (7 / 17) ^ 2)) ∧
    overSphere (fun θ φ => radialOf exDipoleE 1 2 1 θ φ ^ 2) = 4 * Real.pi * 3 := by
  have ek : pairs exDipoleE = {(1, 0)} := by simp [pairs_eq, Coefs.keys, exDipoleE]
  have ec : coef exDipoleE 1 0 = 3 := rfl
  refine ⟨?_, ?_, ?_⟩
  · rw [C116_energy _ exDipoleE_radial 1 2 one_pos (by norm_num), ek, Finset.sum_singleton, ec]
    norm_num [visibleSq, storedFraction, zpow_ofNat]
  · rw [C116_tangential _ exDipoleE_radial 1 2 1 one_pos (by norm_num) le_rfl, ek, Finset.sum_singleton, ec]
    norm_num [visibleSq, tiltOff, zpow_ofNat]
    ring
  · rw [C103_surface _ exDipoleE_radial 1 2 one_pos (by norm_num), ek, Finset.sum_singleton, ec]
    norm_num [visibleSq]
    ring

end Verif
