import Verif.Model.Theta
import Verif.Lemmas.Pfss
import Verif.Props.Superseded
import Mathlib.Analysis.SpecialFunctions.Trigonometric.Bounds

/-!
# C83: the old derivative of the colatitude functions
-/

namespace Verif
open Spec Legendre Pfss
namespace Theta

theorem thetaLm_eq {l m : ℤ} (h0 : 0 ≤ m) (h1 : m ≤ l) (θ : ℝ) : thetaLm l m θ = schmidt l m θ := by
  rw [schmidt_eq (k := (l, m)) h0 h1, tv, thetaLm, lpmv_nonneg h0 h1, mul_comm]

theorem deriv_eq (l m : ℤ) {θ : ℝ} (hs : Real.sin θ ≠ 0) :
    thetaDeriv l m θ = (thetaLm l m (θ + 1e-2) - thetaLm l m θ) / Real.sin 1e-2 := by
  have h1 : (0.5 : ℝ) * (Real.cos (θ + 1e-2) - Real.cos (θ - 1e-2)) = -(Real.sin θ * Real.sin 1e-2) := by
    rw [Real.cos_add, Real.cos_sub]; ring
  have h2 : 0 < Real.sin 1e-2 := Real.sin_pos_of_pos_of_lt_pi (by norm_num) (by linarith [Real.pi_gt_three])
  have h3 : ¬(l = 1 ∧ θ = 0) := by rintro ⟨-, rfl⟩; simp at hs
  rw [thetaDeriv, if_neg h3, h1, if_pos (by simpa using ⟨hs, h2.ne'⟩)]
  field_simp

/-- The factor between the step and its sine. -/
theorem step_bounds : 1 < 1e-2 / Real.sin 1e-2 ∧ 1e-2 / Real.sin 1e-2 < (1.0001 : ℝ) := by
  have h2 : 0 < Real.sin 1e-2 := Real.sin_pos_of_pos_of_lt_pi (by norm_num) (by linarith [Real.pi_gt_three])
  have h3 : Real.sin (1e-2 : ℝ) < 1e-2 := Real.sin_lt (by norm_num)
  have h4 : (1e-2 : ℝ) - 1e-2 ^ 3 / 6 < Real.sin 1e-2 := Real.sin_gt_sub_cube (by norm_num)
  constructor
  · rwa [one_lt_div h2]
  · rw [div_lt_iff₀ h2]
    norm_num at h4 ⊢
    linarith

end Theta
open Theta

/-- **C83.** The values of the old method are the Schmidt semi-normalised functions, and away from the pole the derivative is
the forward difference over 1/100, divided by the sine of the step. -/
theorem C83_value (l m : ℤ) (h0 : 0 ≤ m) (h1 : m ≤ l) (θ : ℝ) :
    thetaLm l m θ = schmidt l m θ ∧
      (Real.sin θ ≠ 0 → thetaDeriv l m θ = (schmidt l m (θ + 1 / 100) - schmidt l m θ) / Real.sin (1 / 100)) := by
  refine ⟨thetaLm_eq h0 h1 θ, fun hs => ?_⟩
  rw [deriv_eq l m hs, thetaLm_eq h0 h1, thetaLm_eq h0 h1]
  norm_num

/-- **C83.** If the step does not lead beyond the south pole the derivative is that at a point within 1/100 further south,
times a factor between 1 and 1.0001. -/
theorem C83_mean (l m : ℤ) (h0 : 0 ≤ m) (h1 : m ≤ l) (θ : ℝ) (hθ : 0 < θ) (hπ : θ + 1 / 100 ≤ Real.pi) :
    ∃ ξ d f, θ < ξ ∧ ξ < θ + 1 / 100 ∧ HasDerivAt (schmidt l m) d ξ ∧ 1 < f ∧ f < 1.0001 ∧ thetaDeriv l m θ = d * f := by
  have hs : 0 < Real.sin θ := Real.sin_pos_of_pos_of_lt_pi hθ (by linarith)
  have hd : ∀ x, 0 < x → x < Real.pi → HasDerivAt (schmidt l m) (td x (l, m)) x := by
    intro x x0 x1
    have := hasDerivAt_tv (l, m) (Real.sin_pos_of_pos_of_lt_pi x0 x1)
    rwa [← funext fun t => schmidt_eq (k := (l, m)) h0 h1 t] at this
  have hc : ContinuousOn (schmidt l m) (Set.Icc θ (θ + 1 / 100)) := by
    rw [funext fun t => schmidt_eq (k := (l, m)) h0 h1 t]
    unfold tv
    unfold legendreP
    have := (rod (l, m).1.toNat ((l, m).1.toNat + (l, m).2.toNat)).continuous.comp Real.continuous_cos
    simp only [Function.comp_def] at this
    fun_prop
  obtain ⟨ξ, hξ, e⟩ := exists_hasDerivAt_eq_slope (schmidt l m) (fun x => td x (l, m)) (by linarith : θ < θ + 1 / 100) hc
    (fun x hx => hd x (hθ.trans hx.1) (hx.2.trans_le hπ))
  refine ⟨ξ, td ξ (l, m), 1e-2 / Real.sin 1e-2, hξ.1, hξ.2, hd ξ (hθ.trans hξ.1) (hξ.2.trans_le hπ), step_bounds.1,
    step_bounds.2, ?_⟩
  rw [(C83_value l m h0 h1 θ).2 hs.ne', e]
  have h2 : 0 < Real.sin (1 / 100) := Real.sin_pos_of_pos_of_lt_pi (by norm_num) (by linarith [Real.pi_gt_three])
  have e2 : (1e-2 : ℝ) = 1 / 100 := by norm_num
  rw [e2, add_sub_cancel_left]
  field_simp

/-- **C83 (violated).** At both poles, and half a step before the south pole, the derivative is zero for all degrees and
orders. -/
theorem C83_zero (l m : ℤ) : thetaDeriv l m 0 = 0 ∧ thetaDeriv l m Real.pi = 0 ∧
    thetaDeriv l m (Real.pi - 1 / 200) = 0 := by
  refine ⟨?_, ?_, ?_⟩
  · rw [thetaDeriv]
    simp
  · rw [thetaDeriv]
    simp
  · have hs : Real.sin (Real.pi - 1 / 200) ≠ 0 := by
      rw [Real.sin_pi_sub]
      exact (Real.sin_pos_of_pos_of_lt_pi (by norm_num) (by linarith [Real.pi_gt_three])).ne'
    rw [deriv_eq l m hs, thetaLm, thetaLm, show Real.pi - 1 / 200 + 1e-2 = 1 / 200 + Real.pi by norm_num; ring,
      Real.cos_add_pi, Real.cos_pi_sub, sub_self, zero_div]

/-- **C83 (violated).** The function of degree 1 and order 1 is the sine, its derivative the cosine: near 1 at the north pole
and -1 at the south pole, where the code has zero. -/
theorem C83_order_one : (∀ θ, 0 < θ → θ < Real.pi → HasDerivAt (schmidt 1 1) (Real.cos θ) θ) ∧
    Real.cos 0 = 1 ∧ Real.cos (Real.pi - 1 / 200) < -0.99 := by
  refine ⟨?_, Real.cos_zero, ?_⟩
  · intro θ h0 h1
    have hs := Real.sin_pos_of_pos_of_lt_pi h0 h1
    have h := hasDerivAt_tv (1, 1) hs
    have e : td θ (1, 1) = Real.cos θ := by
      rw [td_eq _ hs]
      show thD 1 1 θ * thetaScale 1 1 = _
      rw [Superseded.thD_11, thetaScale, spFactorial, spFactorial]
      norm_num
      rw [show (Int.toNat 2).factorial = 2 from rfl, Nat.cast_ofNat,
        inv_mul_cancel₀ (Real.sqrt_ne_zero'.2 (by norm_num)), mul_one]
    rw [e, ← funext fun t => schmidt_eq (k := (1, 1)) (by norm_num) (by norm_num) t] at h
    exact h
  · rw [Real.cos_pi_sub]
    have := Real.one_sub_sq_div_two_le_cos (x := 1 / 200)
    norm_num at this ⊢
    linarith

/-- **C83.** `calculate_all_theta(scipy=False)` is defined wherever the default is and has the same values. -/
theorem C83_all (ks : List Key) (hne : ks ≠ []) (h : ∀ k ∈ ks, 0 ≤ k.2 ∧ k.2 ≤ k.1) (θ : ℝ) :
    ∃ xs ys, calcAllTheta ks θ = .ok xs ∧ calcAllThetaOld ks θ = .ok ys ∧ xs.map Prod.fst = ys.map Prod.fst ∧
      ys.map Prod.snd = ks.map fun k => thetaDeriv k.1 k.2 θ := by
  refine ⟨_, ks.map fun k => (thetaLm k.1 k.2 θ, thetaDeriv k.1 k.2 θ), calcAllTheta_ok hne h θ, ?_, ?_, ?_⟩
  · rw [calcAllThetaOld, calcAllTheta_ok hne h]; rfl
  · rw [List.map_map, List.map_map]
    apply List.map_congr_left
    intro k hk
    show tv θ k = thetaLm k.1 k.2 θ
    rw [thetaLm_eq (h k hk).1 (h k hk).2, schmidt_eq (h k hk).1 (h k hk).2]
  · rw [List.map_map]; rfl

/-- The functions of degree 3 and order 2 at the equator. -/
example : ∃ ξ d f, Real.pi / 2 < ξ ∧ ξ < Real.pi / 2 + 1 / 100 ∧ HasDerivAt (schmidt 3 2) d ξ ∧ 1 < f ∧ f < 1.0001 ∧
    thetaDeriv 3 2 (Real.pi / 2) = d * f :=
  C83_mean 3 2 (by norm_num) (by norm_num) _ (by positivity) (by linarith [Real.pi_gt_three])

example : ∃ xs ys, calcAllTheta [(1, 0), (3, 2)] 1 = .ok xs ∧ calcAllThetaOld [(1, 0), (3, 2)] 1 = .ok ys ∧
    xs.map Prod.fst = ys.map Prod.fst ∧ ys.map Prod.snd = [(1, 0), (3, 2)].map fun k => thetaDeriv k.1 k.2 1 :=
  C83_all _ (by simp) (by simp) 1

end Verif
