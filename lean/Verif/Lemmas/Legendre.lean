import Verif.Spec.Legendre
import Mathlib.Tactic.Ring
import Mathlib.Tactic.LinearCombination
import Mathlib.Tactic.FieldSimp
import Mathlib.Analysis.SpecialFunctions.Integrals.Basic
import Mathlib.MeasureTheory.Integral.IntervalIntegral.FundThmCalculus

/-!
# Associated Legendre functions: derivative, differential equation, orthogonality
-/

namespace Verif
namespace Legendre

open Polynomial Spec

theorem rod_succ (l n : ℕ) : rod l (n + 1) = derivative (rod l n) := by
  simp only [rod, Function.iterate_succ_apply']

theorem derivative_rodBase (l : ℕ) :
    (X ^ 2 - 1) * derivative (rodBase l) = (C (2 * (l : ℝ)) : ℝ[X]) * X * rodBase l := by
  cases l with
  | zero => simp [rodBase]
  | succ l =>
    simp only [rodBase, derivative_pow_succ, derivative_sub, derivative_X_pow, derivative_one, derivative_X, map_mul,
      map_add, map_natCast, map_ofNat, Nat.cast_add, Nat.cast_one, map_one]
    ring

/-- Rodrigues' polynomial differentiated `n + 1` times. -/
theorem rod_three (l n : ℕ) :
    (X ^ 2 - 1) * rod l (n + 2) + C (2 * ((n : ℝ) + 1 - l)) * X * rod l (n + 1)
      + C (((n : ℝ) + 1) * (n - 2 * l)) * rod l n = 0 := by
  induction n with
  | zero =>
    have h := congrArg derivative (derivative_rodBase l)
    simp only [derivative_mul, derivative_sub, derivative_X_pow, derivative_one, derivative_C, derivative_X]
      at h
    have h0 : rod l 0 = rodBase l := rfl
    have h1 : rod l 1 = derivative (rodBase l) := by rw [rod_succ, h0]
    have h2 : rod l 2 = derivative (derivative (rodBase l)) := by rw [rod_succ, h1]
    simp only [zero_add, h0, h1, h2]
    simp only [map_mul, map_add, map_sub, map_natCast, map_ofNat, map_one, Nat.cast_zero, map_zero,
      Nat.cast_ofNat] at h ⊢
    linear_combination h
  | succ n ih =>
    have h := congrArg derivative ih
    simp only [derivative_mul, derivative_sub, derivative_add, derivative_X_pow, derivative_one,
      derivative_C, derivative_X, ← rod_succ, derivative_zero] at h
    have e2 : n + 1 + 2 = n + 2 + 1 := rfl
    have e1 : n + 1 + 1 = n + 2 := rfl
    rw [e2, e1]
    rw [e1] at h
    simp only [map_mul, map_add, map_sub, map_natCast, map_ofNat, map_one, Nat.cast_add, Nat.cast_one,
      map_zero, Nat.cast_ofNat] at h ⊢
    linear_combination h

/-- The three-term relation between successive orders. -/
theorem rod_order (l m : ℕ) (x : ℝ) :
    (1 - x ^ 2) * (rod l (l + m + 2)).eval x
      = 2 * ((m : ℝ) + 1) * x * (rod l (l + m + 1)).eval x
        - ((l : ℝ) - m) * (l + m + 1) * (rod l (l + m)).eval x := by
  have h := congrArg (eval x) (rod_three l (l + m))
  simp only [eval_add, eval_mul, eval_sub, eval_pow, eval_X, eval_one, eval_C, eval_zero, Nat.cast_add] at h
  linear_combination -h

/-- The associated Legendre function of `cos θ` as an entire function of `θ`. -/
noncomputable def thP (l m : ℕ) (θ : ℝ) : ℝ :=
  rodNorm l m * Real.sin θ ^ m * (rod l (l + m)).eval (Real.cos θ)

/-- Its `θ` derivative. -/
noncomputable def thD (l m : ℕ) (θ : ℝ) : ℝ :=
  rodNorm l m * (m * Real.sin θ ^ (m - 1) * Real.cos θ * (rod l (l + m)).eval (Real.cos θ)
    - Real.sin θ ^ (m + 1) * (rod l (l + m + 1)).eval (Real.cos θ))

theorem legendreP_cos (l m : ℕ) {θ : ℝ} (h : 0 ≤ Real.sin θ) : legendreP l m (Real.cos θ) = thP l m θ := by
  have e : 1 - Real.cos θ ^ 2 = Real.sin θ ^ 2 := by
    have := Real.sin_sq_add_cos_sq θ; linarith
  rw [legendreP, thP, e, Real.sqrt_sq h]

theorem hasDerivAt_rod_cos (l n : ℕ) (θ : ℝ) :
    HasDerivAt (fun t => (rod l n).eval (Real.cos t)) (-(Real.sin θ) * (rod l (n + 1)).eval (Real.cos θ)) θ := by
  have h := ((rod l n).hasDerivAt (Real.cos θ)).comp θ (Real.hasDerivAt_cos θ)
  rw [← rod_succ] at h
  exact h.congr_deriv (by ring)

theorem hasDerivAt_sin_pow (n : ℕ) (θ : ℝ) :
    HasDerivAt (fun t => Real.sin t ^ n) (n * Real.sin θ ^ (n - 1) * Real.cos θ) θ :=
  (Real.hasDerivAt_sin θ).pow n

theorem hasDerivAt_thP (l m : ℕ) (θ : ℝ) : HasDerivAt (thP l m) (thD l m θ) θ := by
  have h := ((hasDerivAt_sin_pow m θ).mul (hasDerivAt_rod_cos l (l + m) θ)).const_mul (rodNorm l m)
  have e : thP l m = fun t => rodNorm l m * ((fun t => Real.sin t ^ m) * fun t => (rod l (l + m)).eval (Real.cos t)) t := by
    funext t; simp only [thP, Pi.mul_apply]; ring
  rw [e]
  exact h.congr_deriv (by simp only [thD]; ring)

/-- The colatitude equation of the spherical harmonics, multiplied through by `sin²`. -/
theorem hasDerivAt_sin_thD (l m : ℕ) (θ : ℝ) (hs : Real.sin θ ≠ 0) :
    HasDerivAt (fun t => Real.sin t * thD l m t)
      (((m : ℝ) ^ 2 / Real.sin θ ^ 2 - l * (l + 1)) * Real.sin θ * thP l m θ) θ := by
  have e : (fun t => Real.sin t * thD l m t) = fun t => rodNorm l m *
      ((m : ℝ) * (Real.sin t ^ m * Real.cos t * (rod l (l + m)).eval (Real.cos t))
        - Real.sin t ^ (m + 2) * (rod l (l + m + 1)).eval (Real.cos t)) := by
    funext t
    rw [thD]
    cases m with
    | zero => simp; ring
    | succ m => simp only [Nat.add_sub_cancel]; ring
  rw [e]
  have h1 := (((hasDerivAt_sin_pow m θ).mul (Real.hasDerivAt_cos θ)).mul
    (hasDerivAt_rod_cos l (l + m) θ)).const_mul (m : ℝ)
  have h2 := (hasDerivAt_sin_pow (m + 2) θ).mul (hasDerivAt_rod_cos l (l + m + 1) θ)
  have h := (h1.sub h2).const_mul (rodNorm l m)
  refine HasDerivAt.congr_deriv h ?_
  have hr := rod_order l m (Real.cos θ)
  have hsc : 1 - Real.cos θ ^ 2 = Real.sin θ ^ 2 := by
    have := Real.sin_sq_add_cos_sq θ; linarith
  rw [hsc] at hr
  have hc : Real.cos θ ^ 2 = 1 - Real.sin θ ^ 2 := by linarith
  simp only [thP, Pi.mul_apply]
  generalize Real.sin θ = s at *
  generalize Real.cos θ = c at *
  generalize eval c (rod l (l + m)) = v0 at *
  generalize eval c (rod l (l + m + 1)) = v1 at *
  have hr' : eval c (rod l (l + m + 1 + 1)) = (2 * ((m : ℝ) + 1) * c * v1 - ((l : ℝ) - m) * (l + m + 1) * v0) / s ^ 2 := by
    field_simp; linear_combination hr
  rw [hr']
  cases m with
  | zero =>
    simp
    field_simp
    ring
  | succ m =>
    simp only [Nat.add_sub_cancel, Nat.cast_add, Nat.cast_one]
    have e3 : m + 1 + 2 - 1 = m + 2 := rfl
    rw [e3]
    field_simp
    have hc3 : c ^ 2 = 1 - s ^ 2 := hc
    ring_nf
    rw [hc3]
    ring

/-- `d/dx P_l^m`, for `|x| < 1`. -/
theorem hasDerivAt_legendreP (l m : ℕ) {x : ℝ} (hx : 0 < 1 - x ^ 2) :
    HasDerivAt (legendreP l m) (rodNorm l m *
      (m * Real.sqrt (1 - x ^ 2) ^ (m - 1) * (-x / Real.sqrt (1 - x ^ 2)) * (rod l (l + m)).eval x
        + Real.sqrt (1 - x ^ 2) ^ m * (rod l (l + m + 1)).eval x)) x := by
  have h0 : HasDerivAt (fun y : ℝ => 1 - y ^ 2) (-(2 * x)) x := by
    have := ((hasDerivAt_id x).pow 2).const_sub 1
    refine HasDerivAt.congr_deriv this ?_
    simp
  have h1 := (h0.sqrt hx.ne').pow m
  have h2 := (rod l (l + m)).hasDerivAt x
  rw [← rod_succ] at h2
  have h := (h1.mul h2).const_mul (rodNorm l m)
  have e : legendreP l m = fun y => rodNorm l m *
      (((fun y : ℝ => Real.sqrt (1 - y ^ 2)) ^ m) * fun y => (rod l (l + m)).eval y) y := by
    funext y; simp only [legendreP, Pi.mul_apply, Pi.pow_apply]; ring
  rw [e]
  refine HasDerivAt.congr_deriv h ?_
  simp only [Pi.pow_apply]
  have : Real.sqrt (1 - x ^ 2) ≠ 0 := (Real.sqrt_pos.2 hx).ne'
  field_simp

theorem one_sub_cos_sq (θ : ℝ) : 1 - Real.cos θ ^ 2 = Real.sin θ ^ 2 := by
  have := Real.sin_sq_add_cos_sq θ; linarith

/-- `-sin θ · P'(cos θ)` is the `θ` derivative of `P(cos θ)`. -/
theorem neg_sin_mul_deriv (l m : ℕ) {θ : ℝ} (h : 0 < Real.sin θ) :
    -(Real.sin θ) * deriv (legendreP l m) (Real.cos θ) = thD l m θ := by
  have hx : 0 < 1 - Real.cos θ ^ 2 := by rw [one_sub_cos_sq]; positivity
  rw [(hasDerivAt_legendreP l m hx).deriv, one_sub_cos_sq, Real.sqrt_sq h.le, thD]
  cases m with
  | zero => simp; ring
  | succ m => simp only [Nat.add_sub_cancel]; field_simp; ring

theorem hasDerivAt_legendreP_cos (l m : ℕ) {θ : ℝ} (h : 0 < Real.sin θ) :
    HasDerivAt (fun t => legendreP l m (Real.cos t)) (thD l m θ) θ := by
  have hx : 0 < 1 - Real.cos θ ^ 2 := by rw [one_sub_cos_sq]; positivity
  have h1 := (hasDerivAt_legendreP l m hx).differentiableAt.hasDerivAt.comp θ (Real.hasDerivAt_cos θ)
  rw [← neg_sin_mul_deriv l m h]
  exact h1.congr_deriv (by ring)

/-- Orders above the degree vanish. -/
theorem rod_eq_zero {l n : ℕ} (h : 2 * l < n) : rod l n = 0 := by
  rw [rod]
  apply iterate_derivative_eq_zero
  refine lt_of_le_of_lt (natDegree_pow_le) ?_
  have : (X ^ 2 - 1 : ℝ[X]).natDegree ≤ 2 := by
    rw [show (1 : ℝ[X]) = C 1 from rfl, natDegree_X_pow_sub_C]
  nlinarith [Nat.mul_le_mul_left l this]

theorem legendreP_eq_zero {l m : ℕ} (h : l < m) (x : ℝ) : legendreP l m x = 0 := by
  rw [legendreP, rod_eq_zero (by omega), eval_zero, mul_zero]

end Legendre
end Verif
