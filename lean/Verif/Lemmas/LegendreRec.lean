import Verif.Lemmas.LegendreInt

/-!
# Legendre polynomials: relations between degrees, and moments over half the interval
-/

namespace Verif
namespace Legendre

open Polynomial Spec

/-- The Legendre polynomial. -/
noncomputable def lp (l : ℕ) : ℝ[X] := C (rodNorm l 0) * rod l l

theorem lp_eval (l : ℕ) (x : ℝ) : (lp l).eval x = legendreP l 0 x := by
  rw [lp, legendreP, eval_mul, eval_C, pow_zero, mul_one, add_zero]

theorem rodNorm_succ (l : ℕ) : rodNorm (l + 1) 0 * (2 * (l + 1)) = rodNorm l 0 := by
  have : (l.factorial : ℝ) ≠ 0 := by exact_mod_cast l.factorial_ne_zero
  rw [rodNorm, rodNorm, Nat.factorial_succ]
  push_cast
  field_simp
  ring

theorem derivative_lp (l : ℕ) : derivative (lp l) = C (rodNorm l 0) * rod l (l + 1) := by
  rw [lp, derivative_C_mul, rod_succ]

theorem rod_up (l n : ℕ) : rod (l + 1) (n + 2)
    = C (2 * ((l : ℝ) + 1)) * (X * rod l (n + 1) + C ((n : ℝ) + 1) * rod l n) := by
  have h0 : derivative (rodBase (l + 1)) = C (2 * ((l : ℝ) + 1)) * (rodBase l * X) := by
    simp only [rodBase, derivative_pow_succ, derivative_sub, derivative_X_pow, derivative_one, map_mul, map_add, map_natCast,
      map_ofNat, Nat.cast_one, map_one, derivative_X]
    push_cast
    ring
  have e : rod (l + 1) (n + 2) = derivative^[n + 1] (derivative (rodBase (l + 1))) := by
    rw [rod, ← Function.iterate_succ_apply]
  rw [e, h0, iterate_derivative_C_mul, iterate_derivative_mul_X, Nat.add_sub_cancel, rod, rod, nsmul_eq_mul]
  simp only [map_mul, map_add, map_natCast, map_ofNat, map_one]
  push_cast
  ring

theorem lp_a (l : ℕ) : derivative (lp (l + 1)) = X * derivative (lp l) + C ((l : ℝ) + 1) * lp l := by
  rw [derivative_lp, derivative_lp, rod_up, lp, ← rodNorm_succ l]
  simp only [map_mul]
  ring

theorem rod_two (l n : ℕ) : rod (l + 2) (n + 2)
    = C (2 * ((l : ℝ) + 2) * (2 * l + 3)) * rod (l + 1) n + C (4 * ((l : ℝ) + 1) * (l + 2)) * rod l n := by
  have h0 : derivative (derivative (rodBase (l + 2)))
      = C (2 * ((l : ℝ) + 2) * (2 * l + 3)) * rodBase (l + 1) + C (4 * ((l : ℝ) + 1) * (l + 2)) * rodBase l := by
    simp only [rodBase, derivative_pow_succ, derivative_sub, derivative_X_pow, derivative_one, derivative_mul, derivative_C,
      derivative_X, map_mul, map_add, map_natCast, map_ofNat, Nat.cast_one, map_one, Nat.cast_add, derivative_add,
      derivative_natCast, derivative_zero]
    push_cast
    ring
  have e : rod (l + 2) (n + 2) = derivative^[n] (derivative (derivative (rodBase (l + 2)))) := by
    rw [rod, ← Function.iterate_succ_apply, ← Function.iterate_succ_apply]
  rw [e, h0, iterate_map_add, iterate_derivative_C_mul, iterate_derivative_C_mul, rod, rod]

theorem lp_b (l : ℕ) : derivative (lp (l + 2)) = C (2 * (l : ℝ) + 3) * lp (l + 1) + derivative (lp l) := by
  have r1 := rodNorm_succ l
  have r2 := rodNorm_succ (l + 1)
  rw [derivative_lp, derivative_lp, show l + 2 + 1 = l + 1 + 2 from rfl, rod_two, lp, ← r1, ← r2]
  simp only [map_mul, map_add, map_natCast, map_ofNat, map_one, Nat.cast_add, Nat.cast_one]
  ring

theorem lp_c (l : ℕ) : derivative (lp l) = X * derivative (lp (l + 1)) - C ((l : ℝ) + 1) * lp (l + 1) := by
  have h1 := lp_a (l + 1)
  have h2 := lp_b l
  simp only [map_mul, map_add, map_natCast, map_ofNat, map_one, Nat.cast_add, Nat.cast_one] at h1 h2 ⊢
  rw [show l + 1 + 1 = l + 2 from rfl] at h1
  linear_combination h1 - h2

theorem lp_three (l : ℕ) : C ((l : ℝ) + 2) * lp (l + 2) + C ((l : ℝ) + 1) * lp l = C (2 * (l : ℝ) + 3) * X * lp (l + 1) := by
  have h1 := lp_a l
  have h2 := lp_b l
  have h3 := lp_c (l + 1)
  simp only [map_mul, map_add, map_natCast, map_ofNat, map_one, Nat.cast_add, Nat.cast_one] at h1 h2 h3 ⊢
  rw [show l + 1 + 1 = l + 2 from rfl] at h3
  linear_combination h3 - h1 + X * h2

theorem lp_zero : lp 0 = 1 := by
  simp [lp, rodNorm, rod, rodBase]

theorem lp_at_one (l : ℕ) : (lp l).eval 1 = 1 := by
  induction l with
  | zero => rw [lp_zero, eval_one]
  | succ l ih =>
    have h1 := congrArg (eval 1) (lp_a l)
    have h2 := congrArg (eval 1) (lp_c l)
    simp only [eval_add, eval_sub, eval_mul, eval_X, eval_C, one_mul] at h1 h2
    have : ((l : ℝ) + 1) * (eval 1 (lp (l + 1)) - eval 1 (lp l)) = 0 := by linear_combination h1 + h2
    rcases mul_eq_zero.1 this with h | h
    · have : (0 : ℝ) < l + 1 := by positivity
      linarith
    · linarith

/-- Moments over half the interval. -/
theorem moment_step (l : ℕ) : ((l : ℝ) + 5) * ∫ x in (0 : ℝ)..1, x ^ 2 * (lp (l + 2)).eval x
    = (2 - l) * ∫ x in (0 : ℝ)..1, x ^ 2 * (lp l).eval x := by
  have h := integral_derivative (X ^ 3 * (lp (l + 2) - lp l)) 0 1
  have hd : derivative (X ^ 3 * (lp (l + 2) - lp l))
      = C ((l : ℝ) + 5) * (X ^ 2 * lp (l + 2)) + C ((l : ℝ) - 2) * (X ^ 2 * lp l) := by
    have h2 := lp_b l
    have h3 := lp_three l
    simp only [derivative_mul, derivative_sub, derivative_X_pow, map_mul, map_add, map_sub, map_natCast, map_ofNat,
      map_one] at h2 h3 ⊢
    push_cast
    linear_combination (X ^ 3) * h2 - X ^ 2 * h3
  rw [hd] at h
  simp only [eval_add, eval_mul, eval_sub, eval_C, eval_pow, eval_X, lp_at_one] at h
  rw [intervalIntegral.integral_add, intervalIntegral.integral_const_mul, intervalIntegral.integral_const_mul] at h
  · norm_num at h
    linear_combination h
  · exact Continuous.intervalIntegrable (by fun_prop) _ _
  · exact Continuous.intervalIntegrable (by fun_prop) _ _

theorem moment_zero : ∫ x in (0 : ℝ)..1, x ^ 2 * (lp 0).eval x = 1 / 3 := by
  simp only [lp_zero, eval_one, mul_one, integral_pow]
  norm_num

theorem lp_one : lp 1 = X := by
  rw [lp, rod, rodBase]
  simp [rodNorm]
  have h : (C (2⁻¹ : ℝ) : ℝ[X]) * (1 + 1) = 1 := by
    rw [one_add_one_eq_two, ← C_ofNat, ← C_mul]
    norm_num
  first
    | rw [← mul_assoc, h, one_mul]
    | rw [h, one_mul]

theorem moment_one : ∫ x in (0 : ℝ)..1, x ^ 2 * (lp 1).eval x = 1 / 4 := by
  have : ∀ x : ℝ, x ^ 2 * (lp 1).eval x = x ^ 3 := fun x => by rw [lp_one, eval_X]; ring
  simp only [this, integral_pow]
  norm_num

/-- The same as an integral over the polar angle. -/
theorem moment_polar (l : ℕ) : ∫ θ in (0 : ℝ)..Real.pi, thP l 0 θ * max 0 (Real.cos θ) ^ 2 * Real.sin θ
    = ∫ x in (0 : ℝ)..1, x ^ 2 * (lp l).eval x := by
  have hc : Continuous fun x : ℝ => (lp l).eval x * max 0 x ^ 2 := by fun_prop
  have h := intervalIntegral.integral_comp_mul_deriv (a := 0) (b := Real.pi) (f := Real.cos) (f' := fun x => -Real.sin x)
    (g := fun x => (lp l).eval x * max 0 x ^ 2) (fun x _ => Real.hasDerivAt_cos x) (by fun_prop) hc
  rw [Real.cos_zero, Real.cos_pi] at h
  have h2 : ∫ θ in (0 : ℝ)..Real.pi, thP l 0 θ * max 0 (Real.cos θ) ^ 2 * Real.sin θ
      = ∫ x in (-1 : ℝ)..1, (lp l).eval x * max 0 x ^ 2 := by
    rw [intervalIntegral.integral_symm 1 (-1), ← h, ← intervalIntegral.integral_neg]
    congr 1
    funext x
    simp only [Function.comp, thP, lp, eval_mul, eval_C, pow_zero, add_zero]
    ring
  rw [h2, ← intervalIntegral.integral_add_adjacent_intervals (b := 0) (hc.intervalIntegrable _ _) (hc.intervalIntegrable _ _)]
  have z : ∫ x in (-1 : ℝ)..0, (lp l).eval x * max 0 x ^ 2 = 0 := by
    refine (intervalIntegral.integral_congr (g := fun _ => (0 : ℝ)) fun x hx => ?_).trans intervalIntegral.integral_zero
    rw [Set.uIcc_of_le (by norm_num)] at hx
    simp only [max_eq_left hx.2]
    ring
  rw [z, zero_add]
  refine intervalIntegral.integral_congr fun x hx => ?_
  rw [Set.uIcc_of_le (by norm_num)] at hx
  simp only [max_eq_right hx.1]
  ring

end Legendre
end Verif
