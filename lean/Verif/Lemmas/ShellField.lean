import Verif.Lemmas.SolidHarmonic
import Mathlib.Analysis.Calculus.FDeriv.Symmetric
import Mathlib.Analysis.SpecialFunctions.Trigonometric.Deriv

/-!
# Gradients of harmonic functions on a shell: where they are largest
-/

namespace Verif
namespace Shell

open InnerProductSpace Laplacian Filter Topology Set

/-- The coordinate directions. -/
noncomputable abbrev ax (i : Fin 3) : E3 := EuclideanSpace.single i 1

section third
variable {V : E3 → ℝ} {x : E3} (h : ContDiffAt ℝ 3 V x)
include h

theorem c3_nhds : ∀ᶠ y in 𝓝 x, ContDiffAt ℝ 3 V y := h.eventually (by simp)

theorem c3_d1 : ContDiffAt ℝ 2 (fderiv ℝ V) x := h.fderiv_right (m := 2) (by norm_num)

theorem c3_d2 : ContDiffAt ℝ 1 (fderiv ℝ (fderiv ℝ V)) x := (c3_d1 h).fderiv_right (m := 1) (by norm_num)

theorem c3_has1 : HasFDerivAt V (fderiv ℝ V x) x := (h.differentiableAt (by norm_num)).hasFDerivAt

theorem c3_has2 : HasFDerivAt (fderiv ℝ V) (fderiv ℝ (fderiv ℝ V) x) x :=
  ((c3_d1 h).differentiableAt (by norm_num)).hasFDerivAt

theorem c3_has3 : HasFDerivAt (fderiv ℝ (fderiv ℝ V)) (fderiv ℝ (fderiv ℝ (fderiv ℝ V)) x) x :=
  ((c3_d2 h).differentiableAt (by norm_num)).hasFDerivAt

theorem c3_symm2 (v w : E3) : fderiv ℝ (fderiv ℝ V) x v w = fderiv ℝ (fderiv ℝ V) x w v :=
  (h.isSymmSndFDerivAt (by simp only [minSmoothness_of_isRCLikeNormedField]; norm_num)) v w

end third

/-! ### Derivatives along lines -/

theorem line_nhds (x v : E3) {p : E3 → Prop} (hp : ∀ᶠ y in 𝓝 x, p y) : ∀ᶠ t in 𝓝 (0 : ℝ), p (x + t • v) := by
  have : Continuous fun t : ℝ => x + t • v := by fun_prop
  have h0 := this.tendsto 0
  simp only [zero_smul, add_zero] at h0
  exact h0.eventually hp

private theorem clm_const {G H : Type*} [NormedAddCommGroup G] [NormedSpace ℝ G] [NormedAddCommGroup H]
    [NormedSpace ℝ H] {c : ℝ → G →L[ℝ] H} {c' : G →L[ℝ] H} {t : ℝ} (h : HasDerivAt c c' t) (e : G) :
    HasDerivAt (fun s => c s e) (c' e) t :=
  (h.clm_apply (hasDerivAt_const t e)).congr_deriv (by simp)

private theorem comp_line {G : Type*} [NormedAddCommGroup G] [NormedSpace ℝ G] {f : E3 → G} {f' : E3 →L[ℝ] G} {x v : E3}
    {t : ℝ} (h : HasFDerivAt f f' (x + t • v)) : HasDerivAt (fun s : ℝ => f (x + s • v)) (f' v) t :=
  h.comp_hasDerivAt t (line_deriv x v t)

theorem line_D1 {V : E3 → ℝ} {x v : E3} {t : ℝ} (h : ContDiffAt ℝ 3 V (x + t • v)) :
    HasDerivAt (fun s : ℝ => fderiv ℝ V (x + s • v)) (fderiv ℝ (fderiv ℝ V) (x + t • v) v) t :=
  comp_line (c3_has2 h)

private theorem comp_line_apply {G : Type*} [NormedAddCommGroup G] [NormedSpace ℝ G] {f : E3 → E3 →L[ℝ] G}
    {f' : E3 →L[ℝ] E3 →L[ℝ] G} {x v : E3} {t : ℝ} (h : HasFDerivAt f f' (x + t • v)) (w : E3) :
    HasDerivAt (fun s : ℝ => f (x + s • v) w) (f' v w) t :=
  clm_const (comp_line h) w

theorem line_d1 {V : E3 → ℝ} {x v : E3} {t : ℝ} (h : ContDiffAt ℝ 3 V (x + t • v)) (e : E3) :
    HasDerivAt (fun s : ℝ => fderiv ℝ V (x + s • v) e) (fderiv ℝ (fderiv ℝ V) (x + t • v) v e) t :=
  clm_const (line_D1 h) e

theorem line_d2w {V : E3 → ℝ} {x v : E3} {t : ℝ} (h : ContDiffAt ℝ 3 V (x + t • v)) (w : E3) :
    HasDerivAt (fun s : ℝ => fderiv ℝ (fderiv ℝ V) (x + s • v) w)
      (fderiv ℝ (fderiv ℝ (fderiv ℝ V)) (x + t • v) v w) t :=
  comp_line_apply (c3_has3 h) w

theorem line_d2 {V : E3 → ℝ} {x v : E3} {t : ℝ} (h : ContDiffAt ℝ 3 V (x + t • v)) (w e : E3) :
    HasDerivAt (fun s : ℝ => fderiv ℝ (fderiv ℝ V) (x + s • v) w e)
      (fderiv ℝ (fderiv ℝ (fderiv ℝ V)) (x + t • v) v w e) t :=
  clm_const (line_d2w h w) e

theorem c3_symm3 {V : E3 → ℝ} {x : E3} (h : ContDiffAt ℝ 3 V x) (u v w : E3) :
    fderiv ℝ (fderiv ℝ (fderiv ℝ V)) x u v w = fderiv ℝ (fderiv ℝ (fderiv ℝ V)) x w u v := by
  have key : ∀ a b c : E3, fderiv ℝ (fderiv ℝ (fderiv ℝ V)) x a b c = fderiv ℝ (fderiv ℝ (fderiv ℝ V)) x a c b := by
    intro a b c
    have h' : ContDiffAt ℝ 3 V (x + (0 : ℝ) • a) := by rwa [zero_smul, add_zero]
    have e : (fun s : ℝ => fderiv ℝ (fderiv ℝ V) (x + s • a) b c) =ᶠ[𝓝 0] fun s =>
        fderiv ℝ (fderiv ℝ V) (x + s • a) c b := by
      filter_upwards [line_nhds x a (c3_nhds h)] with y hy using c3_symm2 hy b c
    have := (line_d2 h' b c).unique ((line_d2 h' c b).congr_of_eventuallyEq e)
    rwa [zero_smul, add_zero] at this
  have h2 : fderiv ℝ (fderiv ℝ (fderiv ℝ V)) x u w = fderiv ℝ (fderiv ℝ (fderiv ℝ V)) x w u :=
    ((c3_d1 h).isSymmSndFDerivAt (by simp only [minSmoothness_of_isRCLikeNormedField]; norm_num)) u w
  rw [key u v w, h2]

theorem third_trace {V : E3 → ℝ} {x : E3} (h : ContDiffAt ℝ 3 V x) (hΔ : ∀ᶠ y in 𝓝 x, Δ V y = 0) (e : E3) :
    ∑ i, fderiv ℝ (fderiv ℝ (fderiv ℝ V)) x (ax i) (ax i) e = 0 := by
  have h' : ContDiffAt ℝ 3 V (x + (0 : ℝ) • e) := by rwa [zero_smul, add_zero]
  have hs := HasDerivAt.fun_sum (u := Finset.univ) fun (i : Fin 3) _ => line_d2 h' (ax i) (ax i)
  have hz : (fun s : ℝ => ∑ i, fderiv ℝ (fderiv ℝ V) (x + s • e) (ax i) (ax i)) =ᶠ[𝓝 0] fun _ => 0 := by
    filter_upwards [line_nhds x e hΔ] with y hy
    rw [← hy, laplacian_sum]
  have := (hs.congr_of_eventuallyEq hz.symm).unique (hasDerivAt_const (0 : ℝ) (0 : ℝ))
  rw [zero_smul, add_zero] at this
  rw [← this]
  exact Finset.sum_congr rfl fun i _ => c3_symm3 h _ _ _

/-- Minus the radius times the radial component of the gradient of a harmonic function is harmonic. -/
theorem harmonicAt_euler {V : E3 → ℝ} {x : E3} (h : ContDiffAt ℝ 3 V x) (hΔ : ∀ᶠ y in 𝓝 x, Δ V y = 0) :
    HarmonicAt (fun y => fderiv ℝ V y y) x := by
  have hcd : ∀ y, ContDiffAt ℝ 3 V y → ContDiffAt ℝ 2 (fun y => fderiv ℝ V y y) y := fun y hy =>
    (c3_d1 hy).clm_apply contDiffAt_id
  refine ⟨hcd x h, ?_⟩
  filter_upwards [c3_nhds h, hΔ.eventually_nhds] with y hy hΔy
  have key : ∀ v : E3, fderiv ℝ (fderiv ℝ fun y => fderiv ℝ V y y) y v v
      = fderiv ℝ (fderiv ℝ (fderiv ℝ V)) y v v y + 2 * fderiv ℝ (fderiv ℝ V) y v v := by
    intro v
    refine second_along (g := fun t => fderiv ℝ (fderiv ℝ V) (y + t • v) v (y + t • v) + fderiv ℝ V (y + t • v) v)
      (hcd y hy) ?_ ?_
    · filter_upwards [line_nhds y v (c3_nhds hy)] with t ht
      exact (line_D1 ht).clm_apply (line_deriv y v t)
    · have hy' : ContDiffAt ℝ 3 V (y + (0 : ℝ) • v) := by rwa [zero_smul, add_zero]
      have h1 := (line_d2w hy' v).clm_apply (line_deriv y v 0)
      refine (h1.add (line_d1 hy' v)).congr_deriv ?_
      simp only [zero_smul, add_zero]
      ring
  rw [laplacian_sum]
  simp only [key, Finset.sum_add_distrib, ← Finset.mul_sum]
  rw [third_trace hy hΔy y]
  have := hΔy.self_of_nhds
  rw [laplacian_sum] at this
  rw [this]
  simp

/-- The square of the length of the gradient. -/
noncomputable def gsq (V : E3 → ℝ) (x : E3) : ℝ := ∑ i, fderiv ℝ V x (ax i) ^ 2

theorem gsq_line {V : E3 → ℝ} {x v : E3} {t : ℝ} (h : ContDiffAt ℝ 3 V (x + t • v)) :
    HasDerivAt (fun s : ℝ => gsq V (x + s • v))
      (∑ i, 2 * fderiv ℝ V (x + t • v) (ax i) * fderiv ℝ (fderiv ℝ V) (x + t • v) v (ax i)) t := by
  refine (HasDerivAt.fun_sum fun i _ => (line_d1 h (ax i)).pow 2).congr_deriv ?_
  simp

theorem gsq_line2 {V : E3 → ℝ} {x v : E3} (h : ContDiffAt ℝ 3 V x) :
    HasDerivAt (fun t : ℝ => ∑ i, 2 * fderiv ℝ V (x + t • v) (ax i) * fderiv ℝ (fderiv ℝ V) (x + t • v) v (ax i))
      (∑ i, (2 * fderiv ℝ (fderiv ℝ V) x v (ax i) ^ 2
        + 2 * fderiv ℝ V x (ax i) * fderiv ℝ (fderiv ℝ (fderiv ℝ V)) x v v (ax i))) 0 := by
  have h' : ContDiffAt ℝ 3 V (x + (0 : ℝ) • v) := by rwa [zero_smul, add_zero]
  refine (HasDerivAt.fun_sum fun i _ => ((line_d1 h' (ax i)).const_mul 2).mul (line_d2 h' v (ax i))).congr_deriv ?_
  simp only [zero_smul, add_zero]
  refine Finset.sum_congr rfl fun i _ => ?_
  ring

/-! ### The outer sphere -/

theorem eq_sum_ax (x : E3) : x = x 0 • ax 0 + x 1 • ax 1 + x 2 • ax 2 := by
  ext i
  fin_cases i <;> simp

theorem normSq_coords (x : E3) : ‖x‖ ^ 2 = x 0 ^ 2 + x 1 ^ 2 + x 2 ^ 2 := by
  rw [EuclideanSpace.norm_sq_eq, Fin.sum_univ_three]; simp

private theorem curve {V : E3 → ℝ} {x p τ : E3} (h : ContDiffAt ℝ 3 V x)
    (hc : ∀ t : ℝ, V (x + (Real.cos t - 1) • p + Real.sin t • τ) = V x) :
    fderiv ℝ V x τ = 0 ∧ fderiv ℝ (fderiv ℝ V) x τ τ = fderiv ℝ V x p := by
  set γ : ℝ → E3 := fun t => x + (Real.cos t - 1) • p + Real.sin t • τ with hγ
  set γ' : ℝ → E3 := fun t => (-Real.sin t) • p + Real.cos t • τ with hγ'
  have hd : ∀ t, HasDerivAt γ (γ' t) t := fun t => by
    have h1 := (((Real.hasDerivAt_cos t).sub_const 1).smul_const p).const_add x
    exact h1.add ((Real.hasDerivAt_sin t).smul_const τ)
  have hd' : HasDerivAt γ' (-p) 0 := by
    have h1 := ((Real.hasDerivAt_sin 0).neg.smul_const p).add ((Real.hasDerivAt_cos 0).smul_const τ)
    refine h1.congr_deriv ?_
    simp
  have h0 : γ 0 = x := by simp [hγ]
  have h0' : γ' 0 = τ := by simp [hγ']
  have hcont : Tendsto γ (𝓝 0) (𝓝 x) := by
    have := (hd 0).continuousAt.tendsto
    rwa [h0] at this
  have hz : ∀ᶠ t in 𝓝 (0 : ℝ), fderiv ℝ V (γ t) (γ' t) = 0 := by
    filter_upwards [hcont.eventually (c3_nhds h)] with t ht
    have h1 := (c3_has1 ht).comp_hasDerivAt t (hd t)
    have e : V ∘ γ = fun _ => V x := funext fun t => hc t
    rw [e] at h1
    exact h1.unique (hasDerivAt_const t _)
  have hx : ContDiffAt ℝ 3 V (γ 0) := by rwa [h0]
  have h2 : HasDerivAt (fun t => fderiv ℝ V (γ t)) (fderiv ℝ (fderiv ℝ V) (γ 0) (γ' 0)) 0 :=
    (c3_has2 hx).comp_hasDerivAt 0 (hd 0)
  have h3 := h2.clm_apply hd'
  have h4 := h3.unique ((hasDerivAt_const (0 : ℝ) (0 : ℝ)).congr_of_eventuallyEq hz)
  rw [h0, h0', map_neg] at h4
  have h5 := hz.self_of_nhds
  rw [h0, h0'] at h5
  exact ⟨h5, by linarith⟩

/-- Where a harmonic function is constant on a sphere, its gradient is radial and the second radial derivative is
known. -/
theorem outer_facts {V : E3 → ℝ} {x : E3} (h : ContDiffAt ℝ 3 V x) (hΔ : Δ V x = 0) (hx : 0 < ‖x‖)
    (hc : ∀ y : E3, ‖y‖ = ‖x‖ → V y = V x) :
    fderiv ℝ (fderiv ℝ V) x x x = -2 * fderiv ℝ V x x ∧
      ∀ i, fderiv ℝ V x (ax i) = fderiv ℝ V x x / ‖x‖ ^ 2 * x i := by
  have hn := normSq_coords x
  have rot : ∀ p τ : E3, (∀ t : ℝ, ‖x + (Real.cos t - 1) • p + Real.sin t • τ‖ ^ 2 = ‖x‖ ^ 2) →
      fderiv ℝ V x τ = 0 ∧ fderiv ℝ (fderiv ℝ V) x τ τ = fderiv ℝ V x p := fun p τ ht =>
    curve h fun t => hc _ ((pow_left_inj₀ (norm_nonneg _) (norm_nonneg _) two_ne_zero).1 (ht t))
  have r2 := rot (x 0 • ax 0 + x 1 • ax 1) ((-x 1) • ax 0 + x 0 • ax 1) fun t => by
    rw [normSq_coords, hn]
    simp
    linear_combination (x 0 ^ 2 + x 1 ^ 2) * Real.sin_sq_add_cos_sq t
  have r0 := rot (x 1 • ax 1 + x 2 • ax 2) ((-x 2) • ax 1 + x 1 • ax 2) fun t => by
    rw [normSq_coords, hn]
    simp
    linear_combination (x 1 ^ 2 + x 2 ^ 2) * Real.sin_sq_add_cos_sq t
  have r1 := rot (x 2 • ax 2 + x 0 • ax 0) ((-x 0) • ax 2 + x 2 • ax 0) fun t => by
    rw [normSq_coords, hn]
    simp
    linear_combination (x 0 ^ 2 + x 2 ^ 2) * Real.sin_sq_add_cos_sq t
  rw [laplacian_sum, Fin.sum_univ_three] at hΔ
  have s01 := c3_symm2 h (ax 0) (ax 1)
  have s12 := c3_symm2 h (ax 1) (ax 2)
  have s20 := c3_symm2 h (ax 2) (ax 0)
  have eD : fderiv ℝ V x x = x 0 * fderiv ℝ V x (ax 0) + x 1 * fderiv ℝ V x (ax 1) + x 2 * fderiv ℝ V x (ax 2) := by
    conv_lhs => arg 2; rw [eq_sum_ax x]
    simp only [map_add, map_smul, smul_eq_mul]
  have eH : ∀ a b : E3, fderiv ℝ (fderiv ℝ V) x a b
      = ∑ i, ∑ j, a i * b j * fderiv ℝ (fderiv ℝ V) x (ax i) (ax j) := by
    intro a b
    conv_lhs => rw [eq_sum_ax a, eq_sum_ax b]
    simp only [map_add, map_smul, smul_eq_mul, ContinuousLinearMap.add_apply, ContinuousLinearMap.smul_apply,
      Fin.sum_univ_three]
    ring
  simp only [map_add, map_smul, smul_eq_mul, ContinuousLinearMap.add_apply, ContinuousLinearMap.smul_apply] at r0 r1 r2
  have hp : ‖x‖ ^ 2 ≠ 0 := by positivity
  refine ⟨?_, fun i => ?_⟩
  rotate_left
  · rw [div_mul_eq_mul_div, eq_div_iff hp, hn, eD]
    fin_cases i
    · change fderiv ℝ V x (ax 0) * _ = _ * x 0
      linear_combination -x 1 * r2.1 + x 2 * r1.1
    · change fderiv ℝ V x (ax 1) * _ = _ * x 1
      linear_combination x 0 * r2.1 - x 2 * r0.1
    · change fderiv ℝ V x (ax 2) * _ = _ * x 2
      linear_combination -x 0 * r1.1 + x 1 * r0.1
  simp only [eH x x, Fin.sum_univ_three, eD]
  generalize fderiv ℝ (fderiv ℝ V) x (ax 0) (ax 0) = h00 at *
  generalize fderiv ℝ (fderiv ℝ V) x (ax 0) (ax 1) = h01 at *
  generalize fderiv ℝ (fderiv ℝ V) x (ax 0) (ax 2) = h02 at *
  generalize fderiv ℝ (fderiv ℝ V) x (ax 1) (ax 0) = h10 at *
  generalize fderiv ℝ (fderiv ℝ V) x (ax 1) (ax 1) = h11 at *
  generalize fderiv ℝ (fderiv ℝ V) x (ax 1) (ax 2) = h12 at *
  generalize fderiv ℝ (fderiv ℝ V) x (ax 2) (ax 0) = h20 at *
  generalize fderiv ℝ (fderiv ℝ V) x (ax 2) (ax 1) = h21 at *
  generalize fderiv ℝ (fderiv ℝ V) x (ax 2) (ax 2) = h22 at *
  generalize fderiv ℝ V x (ax 0) = g0 at *
  generalize fderiv ℝ V x (ax 1) = g1 at *
  generalize fderiv ℝ V x (ax 2) = g2 at *
  linear_combination (x 0 ^ 2 + x 1 ^ 2 + x 2 ^ 2) * hΔ - r0.2 - r1.2 - r2.2

/-- A symmetric matrix without trace stretches no vector by more than the square root of two thirds of its norm. -/
theorem traceless_bound (h00 h01 h02 h11 h12 h22 b0 b1 b2 : ℝ) (ht : h00 + h11 + h22 = 0)
    (hb : 0 < b0 ^ 2 + b1 ^ 2 + b2 ^ 2) :
    3 * ((h00 * b0 + h01 * b1 + h02 * b2) ^ 2 + (h01 * b0 + h11 * b1 + h12 * b2) ^ 2
        + (h02 * b0 + h12 * b1 + h22 * b2) ^ 2)
      ≤ 2 * (h00 ^ 2 + h11 ^ 2 + h22 ^ 2 + 2 * (h01 ^ 2 + h02 ^ 2 + h12 ^ 2)) * (b0 ^ 2 + b1 ^ 2 + b2 ^ 2) := by
  obtain rfl : h22 = -h00 - h11 := by linarith
  set B := b0 ^ 2 + b1 ^ 2 + b2 ^ 2 with hB
  set c0 := h00 * b0 + h01 * b1 + h02 * b2 with hc0
  set c1 := h01 * b0 + h11 * b1 + h12 * b2 with hc1
  set c2 := h02 * b0 + h12 * b1 + (-h00 - h11) * b2 with hc2
  set d := c0 * b0 + c1 * b1 + c2 * b2 with hd
  have key : 2 * B * (2 * (h00 ^ 2 + h11 ^ 2 + (-h00 - h11) ^ 2 + 2 * (h01 ^ 2 + h02 ^ 2 + h12 ^ 2)) * B
        - 3 * (c0 ^ 2 + c1 ^ 2 + c2 ^ 2))
      = (2 * B * h00 - 3 * (c0 * b0 - d / 3)) ^ 2 + (2 * B * h11 - 3 * (c1 * b1 - d / 3)) ^ 2
        + (2 * B * (-h00 - h11) - 3 * (c2 * b2 - d / 3)) ^ 2
        + 2 * ((2 * B * h01 - 3 * ((c0 * b1 + c1 * b0) / 2)) ^ 2 + (2 * B * h02 - 3 * ((c0 * b2 + c2 * b0) / 2)) ^ 2
          + (2 * B * h12 - 3 * ((c1 * b2 + c2 * b1) / 2)) ^ 2)
        + 3 / 2 * ((c0 * b1 - c1 * b0) ^ 2 + (c0 * b2 - c2 * b0) ^ 2 + (c1 * b2 - c2 * b1) ^ 2) := by
    simp only [hd, hc0, hc1, hc2, hB]
    ring
  have hpos : 0 ≤ 2 * B * (2 * (h00 ^ 2 + h11 ^ 2 + (-h00 - h11) ^ 2 + 2 * (h01 ^ 2 + h02 ^ 2 + h12 ^ 2)) * B
        - 3 * (c0 ^ 2 + c1 ^ 2 + c2 ^ 2)) := by
    rw [key]; positivity
  have := (mul_nonneg_iff_of_pos_left (by linarith : 0 < 2 * B)).1 hpos
  linarith

/-- The inverse of the distance from the origin is harmonic. -/
theorem harmonicAt_inv_norm {x : E3} (hx : x ≠ 0) : HarmonicAt (fun y : E3 => ‖y‖⁻¹) x := by
  have h := harmonicAt_solid (m := 0) (lam := 0) (g := fun r => r⁻¹) (g1 := fun r => -(r ^ 2)⁻¹)
    (g2 := fun r => 2 * (r ^ 3)⁻¹) (q := fun _ => 1) (q1 := fun _ => 0) (q2 := fun _ => 0)
    (fun r hr => hasDerivAt_inv hr.ne')
    (fun r hr => by
      have h1 := ((hasDerivAt_pow 2 r).inv (pow_ne_zero 2 hr.ne')).neg
      refine h1.congr_deriv ?_
      field_simp
      norm_num
      ring)
    (fun r hr => contDiffAt_id.inv hr.ne') (fun u => hasDerivAt_const u _) (fun u => hasDerivAt_const u _)
    contDiff_const (fun r hr => by have := hr.ne'; field_simp; norm_num) (fun u => by ring) hx
  have h2 := h.comp_CLM Complex.reCLM
  refine (harmonicAt_congr_nhds (Eventually.of_forall fun y => ?_)).1 h2
  simp [solid]

/-- The outer sphere of a shell carries no maximum of a function that decreases outwards there. -/
private theorem outer_no_max {w : E3 → ℝ} {r0 rss d : ℝ} (h0 : 0 < r0) (h1 : r0 < rss) {y : E3} (hy : ‖y‖ = rss)
    (hm : IsMaxOn w (shell r0 rss) y) (hd : HasDerivAt (fun t : ℝ => w (y + t • y)) d 0) : 0 ≤ d := by
  have hss : 0 < rss := h0.trans h1
  by_contra hneg
  push Not at hneg
  have hs := hasDerivAt_iff_tendsto_slope.1 hd
  have hs' := hs.mono_left (nhdsWithin_mono (0 : ℝ) (show Iio (0 : ℝ) ⊆ {0}ᶜ from fun t ht => ne_of_lt ht))
  have h2 : ∀ᶠ t in 𝓝[<] (0 : ℝ), w (y + (0 : ℝ) • y) < w (y + t • y) := by
    filter_upwards [hs'.eventually (gt_mem_nhds hneg), self_mem_nhdsWithin] with t ht h0
    rw [slope_def_field, sub_zero] at ht
    have h0' : t < 0 := h0
    have := (div_neg_iff.1 ht).resolve_right fun h => absurd h.2 (not_lt.2 h0'.le)
    linarith [this.1]
  have hin : ∀ᶠ t in 𝓝[<] (0 : ℝ), y + t • y ∈ shell r0 rss := by
    have hcont : Continuous fun t : ℝ => ‖y + t • y‖ := by fun_prop
    have h4 : ∀ᶠ t in 𝓝 (0 : ℝ), r0 < ‖y + t • y‖ :=
      hcont.continuousAt.eventually (lt_mem_nhds (by simpa [hy] using h1))
    filter_upwards [nhdsWithin_le_nhds h4, self_mem_nhdsWithin, nhdsWithin_le_nhds (lt_mem_nhds (by norm_num : (-1 : ℝ) < 0))]
      with t ht h0 hm1
    refine ⟨ht.le, ?_⟩
    have h0' : t < 0 := h0
    have e : y + t • y = (1 + t) • y := by rw [add_smul, one_smul]
    rw [e, norm_smul, Real.norm_eq_abs, abs_of_pos (by linarith), hy]
    nlinarith
  obtain ⟨t, h5, h6⟩ := (h2.and hin).exists
  have h7 : w (y + t • y) ≤ w y := hm h6
  rw [zero_smul, add_zero] at h5
  linarith

private theorem norm_ray (y : E3) {t : ℝ} (ht : -1 < t) : ‖y + t • y‖ = (1 + t) * ‖y‖ := by
  have e : y + t • y = (1 + t) • y := by rw [add_smul, one_smul]
  rw [e, norm_smul, Real.norm_eq_abs, abs_of_pos (by linarith)]

private theorem cubic_ray (ε b : ℝ) (y : E3) :
    HasDerivAt (fun t : ℝ => ε * (((1 + t) * ‖y‖) ^ 3 - 4 * b ^ 2 * ((1 + t) * ‖y‖))) (ε * (3 * ‖y‖ ^ 3 - 4 * b ^ 2 * ‖y‖)) 0 := by
  have h := ((hasDerivAt_id (0 : ℝ)).const_add 1).mul_const ‖y‖
  refine (((h.pow 3).sub (h.const_mul (4 * b ^ 2))).const_mul ε).congr_deriv ?_
  simp only [id, add_zero, one_mul, Nat.cast_ofNat, show 3 - 1 = 2 from rfl]
  ring

private theorem barrier {r b : ℝ} (hr : 0 ≤ r) (hb : r ≤ b) : r ^ 3 - 4 * b ^ 2 * r ≤ 0 ∧ -(4 * b ^ 3) ≤ r ^ 3 - 4 * b ^ 2 * r := by
  have h2 : r ^ 2 ≤ b ^ 2 := pow_le_pow_left₀ hr hb 2
  constructor
  · nlinarith [mul_nonneg hr (sq_nonneg b)]
  · nlinarith [mul_le_mul_of_nonneg_left hb (sq_nonneg b), pow_nonneg hr 3]

private theorem limit_eps {a b C : ℝ} (h : ∀ ε : ℝ, 0 < ε → a ≤ b + ε * C) : a ≤ b := by
  have ht : Tendsto (fun ε : ℝ => b + ε * C) (𝓝[>] 0) (𝓝 b) := by
    have : Continuous fun ε : ℝ => b + ε * C := by fun_prop
    have h0 := this.tendsto 0
    simp only [zero_mul, add_zero] at h0
    exact h0.mono_left nhdsWithin_le_nhds
  exact ge_of_tendsto ht (eventually_nhdsWithin_of_forall fun ε hε => h ε hε)

private theorem shell_nhds {a b : ℝ} {y : E3} (hA : a < ‖y‖) (hb : ‖y‖ < b) : shell a b ∈ 𝓝 y := by
  have h1 : ∀ᶠ z : E3 in 𝓝 y, a < ‖z‖ := continuous_norm.continuousAt.eventually (lt_mem_nhds hA)
  have h2 : ∀ᶠ z : E3 in 𝓝 y, ‖z‖ < b := continuous_norm.continuousAt.eventually (gt_mem_nhds hb)
  filter_upwards [h1, h2] with z ha hb using ⟨ha.le, hb.le⟩

/-- The arithmetic at an interior point where the fourth power of a comparison function touches the squared length. -/
private theorem touch_contra {h00 h01 h02 h11 h12 h22 b0 b1 b2 a0 a1 a2 p0 p1 p2 q ε : ℝ}
    {t000 t001 t002 t110 t111 t112 t220 t221 t222 : ℝ} (hε : 0 < ε) (hq : 0 < q) (_ : h00 + h11 + h22 = 0)
    (tb : 3 * ((h00 * b0 + h01 * b1 + h02 * b2) ^ 2 + (h01 * b0 + h11 * b1 + h12 * b2) ^ 2
        + (h02 * b0 + h12 * b1 + h22 * b2) ^ 2)
      ≤ 2 * (h00 ^ 2 + h11 ^ 2 + h22 ^ 2 + 2 * (h01 ^ 2 + h02 ^ 2 + h12 ^ 2)) * q ^ 4)
    (hK3 : p0 + p1 + p2 = -6 * ε)
    (c0 : 2 * b0 * h00 + 2 * b1 * h01 + 2 * b2 * h02 = 4 * q ^ 3 * a0)
    (c1 : 2 * b0 * h01 + 2 * b1 * h11 + 2 * b2 * h12 = 4 * q ^ 3 * a1)
    (c2 : 2 * b0 * h02 + 2 * b1 * h12 + 2 * b2 * h22 = 4 * q ^ 3 * a2)
    (e0 : 2 * h00 ^ 2 + 2 * b0 * t000 + (2 * h01 ^ 2 + 2 * b1 * t001) + (2 * h02 ^ 2 + 2 * b2 * t002)
      ≤ 12 * q ^ 2 * a0 ^ 2 + 4 * q ^ 3 * p0)
    (e1 : 2 * h01 ^ 2 + 2 * b0 * t110 + (2 * h11 ^ 2 + 2 * b1 * t111) + (2 * h12 ^ 2 + 2 * b2 * t112)
      ≤ 12 * q ^ 2 * a1 ^ 2 + 4 * q ^ 3 * p1)
    (e2 : 2 * h02 ^ 2 + 2 * b0 * t220 + (2 * h12 ^ 2 + 2 * b1 * t221) + (2 * h22 ^ 2 + 2 * b2 * t222)
      ≤ 12 * q ^ 2 * a2 ^ 2 + 4 * q ^ 3 * p2)
    (t0 : t000 + t110 + t220 = 0) (t1 : t001 + t111 + t221 = 0) (t2 : t002 + t112 + t222 = 0) : False := by
  set H := h00 ^ 2 + h11 ^ 2 + h22 ^ 2 + 2 * (h01 ^ 2 + h02 ^ 2 + h12 ^ 2) with hH
  have u0 : h00 * b0 + h01 * b1 + h02 * b2 = 2 * q ^ 3 * a0 := by linarith
  have u1 : h01 * b0 + h11 * b1 + h12 * b2 = 2 * q ^ 3 * a1 := by linarith
  have u2 : h02 * b0 + h12 * b1 + h22 * b2 = 2 * q ^ 3 * a2 := by linarith
  rw [u0, u1, u2] at tb
  have v1 : 12 * q ^ 2 * (a0 ^ 2 + a1 ^ 2 + a2 ^ 2) ≤ 2 * H := by
    have hq4 : 0 < q ^ 4 := by positivity
    refine le_of_mul_le_mul_right ?_ hq4
    linarith
  have v2 : 2 * H ≤ 12 * q ^ 2 * (a0 ^ 2 + a1 ^ 2 + a2 ^ 2) + 4 * q ^ 3 * (-6 * ε) := by
    rw [← hK3]
    have t0' := congrArg (fun t => 2 * b0 * t) t0
    have t1' := congrArg (fun t => 2 * b1 * t) t1
    have t2' := congrArg (fun t => 2 * b2 * t) t2
    simp only [mul_zero] at t0' t1' t2'
    rw [hH]
    linarith
  have v3 : 0 < q ^ 3 * ε := by positivity
  linarith

section principle
variable {V : E3 → ℝ} {r0 rss c : ℝ} (h0 : 0 < r0) (h1 : r0 < rss) (hV : ∀ y ∈ shell r0 rss, ContDiffAt ℝ 3 V y)
  (hh : HarmonicOnNhd V (shell r0 rss)) (ho : ∀ y : E3, ‖y‖ = rss → V y = c)
include h0 h1 hV hh ho

/-- The radial derivative times the square of the radius is largest on the inner sphere. -/
theorem radial_le {B : ℝ} (hi : ∀ y : E3, ‖y‖ = r0 → fderiv ℝ V y y ≤ B) {x : E3} (hx : x ∈ shell r0 rss) :
    ‖x‖ * fderiv ℝ V x x ≤ r0 * B := by
  have hss : 0 < rss := h0.trans h1
  refine limit_eps (C := 4 * rss ^ 3) fun ε hε => ?_
  set w : E3 → ℝ := fun y => ‖y‖ * fderiv ℝ V y y + ε * (‖y‖ ^ 3 - 4 * rss ^ 2 * ‖y‖) with hw
  have hE : ∀ y ∈ shell r0 rss, HarmonicAt (fun y => fderiv ℝ V y y) y := fun y hy =>
    harmonicAt_euler (hV y hy) (hh y hy).2
  have hwc : ContinuousOn w (shell r0 rss) := by
    have hEc : ContinuousOn (fun y => fderiv ℝ V y y) (shell r0 rss) := fun y hy =>
      (hE y hy).1.continuousAt.continuousWithinAt
    refine (continuous_norm.continuousOn.mul hEc).add ?_
    fun_prop
  obtain ⟨y, hy, hmax⟩ := (isCompact_shell r0 rss).exists_isMaxOn ⟨x, hx⟩ hwc
  have hle : w x ≤ w y := hmax hx
  have bx := barrier (norm_nonneg x) hx.2
  have by' := barrier (norm_nonneg y) hy.2
  have hwx : ‖x‖ * fderiv ℝ V x x - ε * (4 * rss ^ 3) ≤ w x := by
    simp only [hw]; nlinarith [mul_le_mul_of_nonneg_left bx.2 hε.le]
  rcases hy.1.eq_or_lt with hA | hA
  · have h3 : w y ≤ r0 * B := by
      simp only [hw]
      have := mul_le_mul_of_nonneg_left (hi y hA.symm) h0.le
      rw [← hA] at by' ⊢
      nlinarith [mul_nonpos_of_nonneg_of_nonpos hε.le by'.1]
    linarith
  exfalso
  rcases hy.2.eq_or_lt with hb | hb
  · have hy' : ContDiffAt ℝ 3 V (y + (0 : ℝ) • y) := by rw [zero_smul, add_zero]; exact hV y hy
    have of := (outer_facts (hV y hy) (hh y hy).2.self_of_nhds (by rw [hb]; exact hss)
      (fun z hz => (ho z (hz.trans hb)).trans (ho y hb).symm)).1
    have hd1 : HasDerivAt (fun t : ℝ => (1 + t) * ‖y‖ * fderiv ℝ V (y + t • y) (y + t • y)) 0 0 := by
      have a := ((hasDerivAt_id (0 : ℝ)).const_add 1).mul_const ‖y‖
      have b := (line_D1 hy').clm_apply (line_deriv y y 0)
      refine (a.mul b).congr_deriv ?_
      simp only [zero_smul, add_zero, id, one_mul, of]
      ring
    have hd : HasDerivAt (fun t : ℝ => w (y + t • y)) (0 + ε * (3 * ‖y‖ ^ 3 - 4 * rss ^ 2 * ‖y‖)) 0 := by
      refine (hd1.add (cubic_ray ε rss y)).congr_of_eventuallyEq ?_
      filter_upwards [lt_mem_nhds (by norm_num : (-1 : ℝ) < 0)] with t ht
      simp only [hw, norm_ray y ht, Pi.add_apply]
    have := outer_no_max h0 h1 hb hmax hd
    rw [hb] at this
    have h3 : 0 < rss ^ 3 := by positivity
    nlinarith [mul_pos hε h3]
  · have hny : 0 < ‖y‖ := h0.trans hA
    have hne : y ≠ 0 := norm_pos_iff.1 hny
    have hu : HarmonicAt (fun x : E3 => fderiv ℝ V x x - w y * ‖x‖⁻¹ - 4 * ε * rss ^ 2) y :=
      ((hE y hy).sub ((harmonicAt_inv_norm hne).const_smul (c := w y))).sub (harmonicAt_const _)
    refine not_localMax hu hε ?_
    have hev : ∀ᶠ z : E3 in 𝓝 y, z ≠ 0 := isOpen_ne.mem_nhds hne
    filter_upwards [shell_nhds hA hb, hev] with z hz hz0
    have hnz : 0 < ‖z‖ := norm_pos_iff.2 hz0
    have hwz : w z ≤ w y := hmax hz
    have e1 : fderiv ℝ V y y - w y * ‖y‖⁻¹ - 4 * ε * rss ^ 2 + ε * ‖y‖ ^ 2 = 0 := by
      simp only [hw]; field_simp; ring
    have e2 : fderiv ℝ V z z - w y * ‖z‖⁻¹ - 4 * ε * rss ^ 2 + ε * ‖z‖ ^ 2 = (w z - w y) * ‖z‖⁻¹ := by
      have : w z = ‖z‖ * fderiv ℝ V z z + ε * (‖z‖ ^ 3 - 4 * rss ^ 2 * ‖z‖) := rfl
      rw [this]; field_simp; ring
    rw [e1, e2]
    exact mul_nonpos_of_nonpos_of_nonneg (by linarith) (by positivity)

/-- The length of the gradient times the square of the radius is largest on the inner sphere. -/
theorem gsq_le {M : ℝ} (hi : ∀ y : E3, ‖y‖ = r0 → gsq V y ≤ M) {x : E3} (hx : x ∈ shell r0 rss) :
    ‖x‖ ^ 4 * gsq V x ≤ r0 ^ 4 * M := by
  have hss : 0 < rss := h0.trans h1
  have hnn : ∀ y, 0 ≤ gsq V y := fun y => Finset.sum_nonneg fun i _ => sq_nonneg _
  have h4 : ∀ a : ℝ, 0 ≤ a → Real.sqrt (Real.sqrt a) ^ 4 = a := fun a ha => by
    rw [show 4 = 2 * 2 from rfl, pow_mul, Real.sq_sqrt (Real.sqrt_nonneg _), Real.sq_sqrt ha]
  suffices hs : ‖x‖ * Real.sqrt (Real.sqrt (gsq V x)) ≤ r0 * Real.sqrt (Real.sqrt M) by
    have hM : 0 ≤ M := by
      obtain ⟨y, hy⟩ : ∃ y : E3, ‖y‖ = r0 := ⟨r0 • ax 0, by rw [norm_smul]; simp [abs_of_pos h0]⟩
      exact (hnn y).trans (hi y hy)
    have := pow_le_pow_left₀ (by positivity) hs 4
    rwa [mul_pow, mul_pow, h4 _ (hnn x), h4 _ hM] at this
  refine limit_eps (C := 4 * rss ^ 3) fun ε hε => ?_
  set φ : E3 → ℝ := fun y => Real.sqrt (Real.sqrt (gsq V y)) with hφ
  have hφ0 : ∀ y, 0 ≤ φ y := fun y => Real.sqrt_nonneg _
  have hφ4 : ∀ y, φ y ^ 4 = gsq V y := fun y => h4 _ (hnn y)
  set w : E3 → ℝ := fun y => ‖y‖ * φ y + ε * (‖y‖ ^ 3 - 4 * rss ^ 2 * ‖y‖) with hw
  have hwc : ContinuousOn w (shell r0 rss) := by
    have hgc : ContinuousOn (gsq V) (shell r0 rss) := fun y hy => by
      refine ContinuousAt.continuousWithinAt ?_
      have hc : ContinuousAt (fderiv ℝ V) y := (c3_d1 (hV y hy)).continuousAt
      refine tendsto_finsetSum _ fun i _ => ?_
      exact (hc.clm_apply continuousAt_const).pow 2
    have hφc : ContinuousOn φ (shell r0 rss) := (hgc.sqrt).sqrt
    refine (continuous_norm.continuousOn.mul hφc).add ?_
    fun_prop
  obtain ⟨y, hy, hmax⟩ := (isCompact_shell r0 rss).exists_isMaxOn ⟨x, hx⟩ hwc
  have hle : w x ≤ w y := hmax hx
  have bx := barrier (norm_nonneg x) hx.2
  have by' := barrier (norm_nonneg y) hy.2
  have hwx : ‖x‖ * φ x - ε * (4 * rss ^ 3) ≤ w x := by
    simp only [hw]; nlinarith [mul_le_mul_of_nonneg_left bx.2 hε.le]
  have hwy : w y ≤ ‖y‖ * φ y := by
    simp only [hw]; nlinarith [mul_nonpos_of_nonneg_of_nonpos hε.le by'.1]
  rcases (hnn y).eq_or_lt with hz | hpos
  · have : φ y = 0 := by simp [hφ, ← hz]
    rw [this, mul_zero] at hwy
    have : 0 ≤ r0 * Real.sqrt (Real.sqrt M) := by positivity
    linarith
  rcases hy.1.eq_or_lt with hA | hA
  · have h3 : φ y ≤ Real.sqrt (Real.sqrt M) := Real.sqrt_le_sqrt (Real.sqrt_le_sqrt (hi y hA.symm))
    rw [← hA] at hwy
    have := mul_le_mul_of_nonneg_left h3 h0.le
    linarith
  exfalso
  have hny : 0 < ‖y‖ := h0.trans hA
  have hne : y ≠ 0 := norm_pos_iff.1 hny
  have hφpos : 0 < φ y := Real.sqrt_pos.2 (Real.sqrt_pos.2 hpos)
  have hlap := (hh y hy).2.self_of_nhds
  rcases hy.2.eq_or_lt with hb | hb
  · have hy' : ContDiffAt ℝ 3 V (y + (0 : ℝ) • y) := by rw [zero_smul, add_zero]; exact hV y hy
    obtain ⟨of, og⟩ := outer_facts (hV y hy) hlap hny (fun z hz => (ho z (hz.trans hb)).trans (ho y hb).symm)
    have hg : ∑ i, 2 * fderiv ℝ V y (ax i) * fderiv ℝ (fderiv ℝ V) y y (ax i) = -4 * gsq V y := by
      have e1 : ∑ i, 2 * fderiv ℝ V y (ax i) * fderiv ℝ (fderiv ℝ V) y y (ax i)
          = 2 * (fderiv ℝ V y y / ‖y‖ ^ 2) * fderiv ℝ (fderiv ℝ V) y y y := by
        conv_rhs => arg 2; arg 2; rw [eq_sum_ax y]
        simp only [og, Fin.sum_univ_three, map_add, map_smul, smul_eq_mul]
        ring
      have e2 : gsq V y = (fderiv ℝ V y y / ‖y‖ ^ 2) ^ 2 * ‖y‖ ^ 2 := by
        rw [normSq_coords]
        simp only [gsq, og, Fin.sum_univ_three]
        rw [normSq_coords]
        ring
      rw [e1, e2, of]
      field_simp
      ring
    have hd0 : HasDerivAt (fun t : ℝ => ((1 + t) * ‖y‖) ^ 4 * gsq V (y + t • y)) 0 0 := by
      have a := (((hasDerivAt_id (0 : ℝ)).const_add 1).mul_const ‖y‖).pow 4
      refine (a.mul (gsq_line hy')).congr_deriv ?_
      simp only [zero_smul, add_zero, id, one_mul, hg, Pi.pow_apply]
      push_cast
      ring
    have hQ : ((1 + (0 : ℝ)) * ‖y‖) ^ 4 * gsq V (y + (0 : ℝ) • y) ≠ 0 := by
      rw [zero_smul, add_zero, add_zero, one_mul]; positivity
    have hd1 := hd0.sqrt hQ
    have hd2 := hd1.sqrt (Real.sqrt_ne_zero'.2 (lt_of_le_of_ne (by have := hnn (y + (0 : ℝ) • y); positivity) hQ.symm))
    have hd : HasDerivAt (fun t : ℝ => w (y + t • y)) (0 + ε * (3 * ‖y‖ ^ 3 - 4 * rss ^ 2 * ‖y‖)) 0 := by
      refine ((hd2.add (cubic_ray ε rss y)).congr_of_eventuallyEq ?_).congr_deriv (by simp)
      filter_upwards [lt_mem_nhds (by norm_num : (-1 : ℝ) < 0)] with t ht
      have hq : 0 ≤ (1 + t) * ‖y‖ := mul_nonneg (by linarith) hny.le
      have e3 : Real.sqrt (Real.sqrt (((1 + t) * ‖y‖) ^ 4 * gsq V (y + t • y))) = (1 + t) * ‖y‖ * φ (y + t • y) := by
        have h5 : ((1 + t) * ‖y‖) ^ 4 * gsq V (y + t • y) = (((1 + t) * ‖y‖ * φ (y + t • y)) ^ 2) ^ 2 := by
          rw [← hφ4]; ring
        rw [h5, Real.sqrt_sq (by positivity), Real.sqrt_sq (mul_nonneg hq (hφ0 _))]
      simp only [hw, norm_ray y ht, Pi.add_apply, e3]
    have := outer_no_max h0 h1 hb hmax hd
    rw [hb] at this
    have h3 : 0 < rss ^ 3 := by positivity
    nlinarith [mul_pos hε h3]
  · set K := w y with hK
    set ψ : E3 → ℝ := fun z => K * ‖z‖⁻¹ - ε * (‖z‖ ^ 2 - 4 * rss ^ 2) with hψ
    have hψy : ψ y = φ y := by
      simp only [hψ, hK, hw]; field_simp; ring
    have hev : ∀ᶠ z : E3 in 𝓝 y, z ≠ 0 := isOpen_ne.mem_nhds hne
    have hloc : ∀ᶠ z in 𝓝 y, gsq V z - ψ z ^ 4 ≤ 0 := by
      filter_upwards [shell_nhds hA hb, hev] with z hz hz0
      have hnz : 0 < ‖z‖ := norm_pos_iff.2 hz0
      have hwz : w z ≤ w y := hmax hz
      have e2 : φ z - ψ z = (w z - K) * ‖z‖⁻¹ := by
        have : w z = ‖z‖ * φ z + ε * (‖z‖ ^ 3 - 4 * rss ^ 2 * ‖z‖) := rfl
        rw [this]; simp only [hψ]; field_simp; ring
      have h3 : φ z ≤ ψ z := by
        have : (w z - K) * ‖z‖⁻¹ ≤ 0 := mul_nonpos_of_nonpos_of_nonneg (by linarith) (by positivity)
        linarith
      have := pow_le_pow_left₀ (hφ0 z) h3 4
      rw [hφ4] at this
      linarith
    have hzero : gsq V y - ψ y ^ 4 = 0 := by rw [hψy, hφ4, sub_self]
    -- along each axis
    have key : ∀ j : Fin 3,
        (∑ i, 2 * fderiv ℝ V y (ax i) * fderiv ℝ (fderiv ℝ V) y (ax j) (ax i))
            = 4 * ψ y ^ 3 * (-K * (y j / ‖y‖ ^ 3) - 2 * ε * y j) ∧
        (∑ i, (2 * fderiv ℝ (fderiv ℝ V) y (ax j) (ax i) ^ 2
            + 2 * fderiv ℝ V y (ax i) * fderiv ℝ (fderiv ℝ (fderiv ℝ V)) y (ax j) (ax j) (ax i)))
          ≤ 12 * ψ y ^ 2 * (-K * (y j / ‖y‖ ^ 3) - 2 * ε * y j) ^ 2
            + 4 * ψ y ^ 3 * (-K * (1 / ‖y‖ ^ 3 - 3 * y j ^ 2 / ‖y‖ ^ 5) - 2 * ε) := by
      intro j
      have hin : inner ℝ y (ax j) = y j := by simp [EuclideanSpace.inner_single_right]
      have hv : ‖ax j‖ = 1 := by simp
      set r : ℝ → ℝ := fun t => ‖y + t • ax j‖ with hr
      have hr0 : r 0 = ‖y‖ := by simp [hr]
      have hrev : ∀ᶠ t in 𝓝 (0 : ℝ), 0 < r t := line_nhds y (ax j) (by
        filter_upwards [hev] with z hz using norm_pos_iff.2 hz)
      have hrd : ∀ t, 0 < r t → HasDerivAt r ((y j + t) / r t) t := fun t ht => by
        have := norm_line_deriv y (ax j) hv ht
        rwa [hin] at this
      have hsd : ∀ t, HasDerivAt (fun t : ℝ => y j + t) 1 t := fun t => (hasDerivAt_id t).const_add _
      have hp : ∀ t, 0 < r t → HasDerivAt (fun t : ℝ => ψ (y + t • ax j))
          (-K * ((y j + t) / r t ^ 3) - 2 * ε * (y j + t)) t := fun t ht => by
        have a := ((hrd t ht).inv ht.ne').const_mul K
        have b := (((hrd t ht).pow 2).sub_const (4 * rss ^ 2)).const_mul ε
        refine (a.sub b).congr_deriv ?_
        have := ht.ne'
        simp only [Nat.cast_ofNat, show 2 - 1 = 1 from rfl, pow_one]
        field_simp
      have hp2 : HasDerivAt (fun t : ℝ => -K * ((y j + t) / r t ^ 3) - 2 * ε * (y j + t))
          (-K * (1 / ‖y‖ ^ 3 - 3 * y j ^ 2 / ‖y‖ ^ 5) - 2 * ε) 0 := by
        have ht : 0 < r 0 := by rw [hr0]; exact hny
        have a := ((hsd 0).div ((hrd 0 ht).pow 3) (pow_ne_zero 3 ht.ne')).const_mul (-K)
        refine (a.sub ((hsd 0).const_mul (2 * ε))).congr_deriv ?_
        simp only [hr0, Nat.cast_ofNat, show 3 - 1 = 2 from rfl, add_zero, Pi.pow_apply]
        field_simp
      have hc3 : ∀ᶠ t in 𝓝 (0 : ℝ), ContDiffAt ℝ 3 V (y + t • ax j) := line_nhds y (ax j) (c3_nhds (hV y hy))
      have hg1 : ∀ᶠ t in 𝓝 (0 : ℝ), HasDerivAt (fun t : ℝ => gsq V (y + t • ax j) - ψ (y + t • ax j) ^ 4)
          ((∑ i, 2 * fderiv ℝ V (y + t • ax j) (ax i) * fderiv ℝ (fderiv ℝ V) (y + t • ax j) (ax j) (ax i))
            - 4 * ψ (y + t • ax j) ^ 3 * (-K * ((y j + t) / r t ^ 3) - 2 * ε * (y j + t))) t := by
        filter_upwards [hc3, hrev] with t h2 h3
        refine ((gsq_line h2).sub ((hp t h3).pow 4)).congr_deriv ?_
        simp only [Nat.cast_ofNat, show 4 - 1 = 3 from rfl]
      have ht0 : 0 < r 0 := by rw [hr0]; exact hny
      have hg2 := (gsq_line2 (v := ax j) (hV y hy)).sub ((((hp 0 ht0).pow 3).const_mul 4).mul hp2)
      have hm : IsLocalMax (fun t : ℝ => gsq V (y + t • ax j) - ψ (y + t • ax j) ^ 4) 0 := by
        filter_upwards [line_nhds y (ax j) hloc] with t ht
        rw [zero_smul, add_zero, hzero]
        exact ht
      have f1 := hm.hasDerivAt_eq_zero hg1.self_of_nhds
      have f2 := second_nonpos hm hg1 hg2
      simp only [zero_smul, add_zero, hr0, Nat.cast_ofNat, show 3 - 1 = 2 from rfl, Pi.pow_apply] at f1 f2
      constructor
      · linarith
      · linarith
    have k0 := key 0
    have k1 := key 1
    have k2 := key 2
    have tr : ∀ e, _ := third_trace (hV y hy) (hh y hy).2
    have t0 := tr (ax 0)
    have t1 := tr (ax 1)
    have t2 := tr (ax 2)
    rw [laplacian_sum] at hlap
    have s01 := c3_symm2 (hV y hy) (ax 0) (ax 1)
    have s12 := c3_symm2 (hV y hy) (ax 1) (ax 2)
    have s02 := c3_symm2 (hV y hy) (ax 0) (ax 2)
    have hf : φ y ^ 4 = fderiv ℝ V y (ax 0) ^ 2 + fderiv ℝ V y (ax 1) ^ 2 + fderiv ℝ V y (ax 2) ^ 2 := by
      rw [hφ4, gsq, Fin.sum_univ_three]
    have hn := normSq_coords y
    simp only [Fin.sum_univ_three, hψy] at k0 k1 k2 t0 t1 t2 hlap
    have hK3 : (-K * (1 / ‖y‖ ^ 3 - 3 * y 0 ^ 2 / ‖y‖ ^ 5) - 2 * ε) + (-K * (1 / ‖y‖ ^ 3 - 3 * y 1 ^ 2 / ‖y‖ ^ 5) - 2 * ε)
        + (-K * (1 / ‖y‖ ^ 3 - 3 * y 2 ^ 2 / ‖y‖ ^ 5) - 2 * ε) = -6 * ε := by
      have e : y 2 ^ 2 = ‖y‖ ^ 2 - y 0 ^ 2 - y 1 ^ 2 := by linarith
      rw [e]; field_simp; ring
    have hb : 0 < fderiv ℝ V y (ax 0) ^ 2 + fderiv ℝ V y (ax 1) ^ 2 + fderiv ℝ V y (ax 2) ^ 2 := by
      rw [← hf]; positivity
    have tb := traceless_bound _ (fderiv ℝ (fderiv ℝ V) y (ax 0) (ax 1)) (fderiv ℝ (fderiv ℝ V) y (ax 0) (ax 2)) _
      (fderiv ℝ (fderiv ℝ V) y (ax 1) (ax 2)) _ _ _ _ hlap hb
    rw [← hf] at tb
    rw [← s01] at k1
    rw [← s02, ← s12] at k2
    exact touch_contra hε hφpos hlap tb hK3 k0.1 k1.1 k2.1 k0.2 k1.2 k2.2 t0 t1 t2

end principle

end Shell
end Verif
