import Verif.Lemmas.Legendre
import Mathlib.Topology.Algebra.Polynomial
import Mathlib.Tactic.Positivity
import Mathlib.Tactic.ComputeDegree

/-!
# Orthogonality and norms of the associated Legendre functions
-/

namespace Verif
namespace Legendre

open Polynomial Spec intervalIntegral

/-- `∫ (1 - x²)^m v_l v_l'` where `v_l` is the `m`-th derivative of Rodrigues' polynomial. -/
noncomputable def J (m l l' : ℕ) : ℝ :=
  ∫ x in (-1 : ℝ)..1, (1 - x ^ 2) ^ m * (rod l (l + m)).eval x * (rod l' (l' + m)).eval x

theorem J_symm (m l l' : ℕ) : J m l l' = J m l' l := by
  unfold J; congr 1; funext x; ring

theorem integral_derivative (p : ℝ[X]) (a b : ℝ) :
    ∫ x in a..b, (derivative p).eval x = p.eval b - p.eval a :=
  integral_eq_sub_of_hasDerivAt (fun x _ => p.hasDerivAt x)
    ((derivative p).continuous.intervalIntegrable _ _)

theorem J_succ (m l l' : ℕ) : J (m + 1) l l' = ((l : ℝ) - m) * (l + m + 1) * J m l l' := by
  have h := integral_derivative ((1 - X ^ 2) ^ (m + 1) * rod l (l + m + 1) * rod l' (l' + m)) (-1) 1
  have hb : ∀ x : ℝ, x ^ 2 = 1 →
      ((1 - X ^ 2) ^ (m + 1) * rod l (l + m + 1) * rod l' (l' + m)).eval x = 0 := by
    intro x hx; simp [eval_mul, hx]
  rw [hb 1 (by norm_num), hb (-1) (by norm_num), sub_zero] at h
  have e : ∀ x : ℝ, (derivative ((1 - X ^ 2) ^ (m + 1) * rod l (l + m + 1) * rod l' (l' + m))).eval x
      = (1 - x ^ 2) ^ (m + 1) * (rod l (l + (m + 1))).eval x * (rod l' (l' + (m + 1))).eval x
        - ((l : ℝ) - m) * (l + m + 1) * ((1 - x ^ 2) ^ m * (rod l (l + m)).eval x * (rod l' (l' + m)).eval x) := by
    intro x
    have hr := rod_order l m x
    simp only [derivative_mul, derivative_pow_succ, derivative_sub, derivative_one, derivative_X_pow,
      ← rod_succ, eval_add, eval_mul, eval_sub, eval_pow, eval_X, eval_one, eval_C, eval_zero, map_add,
      map_natCast, map_one, eval_natCast, derivative_X, Nat.cast_ofNat, eval_ofNat]
    have e1 : l + (m + 1) = l + m + 1 := rfl
    have e2 : l' + (m + 1) = l' + m + 1 := rfl
    have e3 : l + m + 1 + 1 = l + m + 2 := rfl
    rw [e1, e2, e3]
    generalize eval x (rod l (l + m)) = a0 at *
    generalize eval x (rod l (l + m + 1)) = a1 at *
    generalize eval x (rod l (l + m + 2)) = a2 at *
    generalize eval x (rod l' (l' + m)) = b0 at *
    generalize eval x (rod l' (l' + m + 1)) = b1 at *
    norm_num
    linear_combination (1 - x ^ 2) ^ m * b0 * hr
  rw [funext e, integral_sub ((Continuous.intervalIntegrable (by fun_prop) _ _)) ((Continuous.intervalIntegrable (by fun_prop) _ _)), integral_const_mul] at h
  unfold J
  linarith

/-- Orthogonality of different degrees at the same order. -/
theorem J_eq_zero (m : ℕ) {l l' : ℕ} (h : l ≠ l') : J m l l' = 0 := by
  have h1 := J_succ m l l'
  have h2 := J_succ m l' l
  rw [J_symm (m + 1) l' l, J_symm m l' l, h1] at h2
  have h3 : ((l : ℝ) - l') * (l + l' + 1) * J m l l' = 0 := by linear_combination h2
  have h4 : (l : ℝ) - l' ≠ 0 := sub_ne_zero.2 (by exact_mod_cast h)
  have h5 : (l : ℝ) + l' + 1 ≠ 0 := by positivity
  rcases mul_eq_zero.1 h3 with h6 | h6
  · exact absurd h6 (mul_ne_zero h4 h5)
  · exact h6

theorem integral_pow_one_sub_sq (l : ℕ) :
    ∫ x in (-1 : ℝ)..1, (1 - x ^ 2) ^ l = 2 ^ (2 * l + 1) * (l.factorial : ℝ) ^ 2 / ((2 * l + 1).factorial : ℝ) := by
  induction l with
  | zero => norm_num
  | succ l ih =>
    have h := integral_derivative (X * (1 - X ^ 2) ^ (l + 1)) (-1) 1
    have e : ∀ x : ℝ, (derivative (X * (1 - X ^ 2) ^ (l + 1))).eval x
        = (2 * l + 3) * (1 - x ^ 2) ^ (l + 1) - 2 * (l + 1) * (1 - x ^ 2) ^ l := by
      intro x
      simp only [derivative_mul, derivative_pow_succ, derivative_sub, derivative_one, derivative_X_pow,
        eval_add, eval_mul, eval_sub, eval_pow, eval_X, eval_one, eval_C, eval_zero, map_add,
        map_natCast, map_one, eval_natCast, derivative_X, Nat.cast_ofNat, eval_ofNat]
      norm_num
      ring
    rw [funext e, integral_sub (Continuous.intervalIntegrable (by fun_prop) _ _)
      (Continuous.intervalIntegrable (by fun_prop) _ _), integral_const_mul, integral_const_mul, ih] at h
    simp at h
    have hf : ((2 * (l + 1) + 1).factorial : ℝ) = (2 * l + 3) * (2 * l + 2) * ((2 * l + 1).factorial : ℝ) := by
      rw [show 2 * (l + 1) + 1 = (2 * l + 1 + 1) + 1 by ring, Nat.factorial_succ, Nat.factorial_succ]
      push_cast; ring
    have hg : ((l + 1).factorial : ℝ) = (l + 1) * (l.factorial : ℝ) := by
      rw [Nat.factorial_succ]; push_cast; ring
    rw [hf, hg]
    have h0 : ((2 * l + 1).factorial : ℝ) ≠ 0 := by positivity
    have h1 : (2 * (l : ℝ) + 3) ≠ 0 := by positivity
    have h2 : (2 * (l : ℝ) + 2) ≠ 0 := by positivity
    rw [eq_div_iff (by positivity)]
    have h3 : (2 * (l : ℝ) + 3) * ∫ x in (-1 : ℝ)..1, (1 - x ^ 2) ^ (l + 1)
        = 2 * (l + 1) * (2 ^ (2 * l + 1) * (l.factorial : ℝ) ^ 2 / ((2 * l + 1).factorial : ℝ)) := by linarith
    generalize (∫ x in (-1 : ℝ)..1, (1 - x ^ 2) ^ (l + 1)) = I at *
    have h4 : (2 * (l : ℝ) + 3) * I * ((2 * l + 1).factorial : ℝ)
        = 2 * (l + 1) * (2 ^ (2 * l + 1) * (l.factorial : ℝ) ^ 2) := by
      rw [h3]; field_simp
    have e5 : (2 : ℝ) ^ (2 * (l + 1) + 1) = 4 * 2 ^ (2 * l + 1) := by ring
    rw [e5]
    linear_combination (2 * (l : ℝ) + 2) * h4

theorem rod_top (l : ℕ) : rod l (2 * l) = C ((2 * l).factorial : ℝ) := by
  have hd : (rodBase l).natDegree = 2 * l := by
    rw [rodBase, natDegree_pow, show (1 : ℝ[X]) = C 1 from rfl, natDegree_X_pow_sub_C, mul_comm]
  have hm : (rodBase l).Monic := by
    rw [rodBase, show (1 : ℝ[X]) = C 1 from rfl]
    exact (monic_X_pow_sub_C 1 (by norm_num)).pow l
  have h0 : (rod l (2 * l)).natDegree = 0 := by
    have := natDegree_iterate_derivative (rodBase l) (2 * l)
    rw [hd] at this
    rw [rod]; omega
  rw [eq_C_of_natDegree_eq_zero h0, rod, coeff_iterate_derivative, zero_add, ← hd, hm.coeff_natDegree]
  simp [Nat.descFactorial_self]

theorem J_self_top (l : ℕ) :
    J l l l = 2 / (2 * l + 1) * ((2 : ℝ) ^ l * l.factorial) ^ 2 * ((2 * l).factorial : ℝ) := by
  have : l + l = 2 * l := by ring
  unfold J
  simp only [this, rod_top, eval_C]
  rw [integral_mul_const, integral_mul_const, integral_pow_one_sub_sq]
  have : ((2 * l + 1).factorial : ℝ) = (2 * l + 1) * ((2 * l).factorial : ℝ) := by
    rw [Nat.factorial_succ]; push_cast; ring
  rw [this]
  have h1 : (2 * (l : ℝ) + 1) ≠ 0 := by positivity
  have h2 : ((2 * l).factorial : ℝ) ≠ 0 := by positivity
  field_simp
  ring

theorem J_self_aux (l k : ℕ) (h : k ≤ l) :
    J (l - k) l l * (k.factorial : ℝ) = 2 / (2 * l + 1) * ((2 : ℝ) ^ l * l.factorial) ^ 2
      * ((2 * l - k).factorial : ℝ) := by
  induction k with
  | zero => simp [J_self_top]
  | succ k ih =>
    have ih := ih (by omega)
    have hs := J_succ (l - (k + 1)) l l
    rw [show l - (k + 1) + 1 = l - k by omega] at hs
    rw [hs] at ih
    have e1 : ((l - (k + 1) : ℕ) : ℝ) = l - (k + 1) := by
      rw [Nat.cast_sub h]; push_cast; ring
    have e2 : ((2 * l - k).factorial : ℝ) = (2 * l - k) * ((2 * l - (k + 1)).factorial : ℝ) := by
      obtain ⟨j, hj⟩ : ∃ j, 2 * l - k = j + 1 := ⟨2 * l - k - 1, by omega⟩
      have hj' : 2 * l - (k + 1) = j := by omega
      rw [hj, hj', Nat.factorial_succ]
      have : (2 * l : ℝ) = k + j + 1 := by
        have : 2 * l = k + j + 1 := by omega
        exact_mod_cast this
      push_cast; rw [this]; ring
    have e3 : ((k + 1).factorial : ℝ) = (k + 1) * (k.factorial : ℝ) := by
      rw [Nat.factorial_succ]; push_cast; ring
    rw [e1, e2] at ih
    rw [e3]
    have hne : (2 * (l : ℝ) - k) ≠ 0 := by
      have : (k : ℝ) + 1 ≤ l := by exact_mod_cast h
      have h0 : (0 : ℝ) ≤ k := by positivity
      intro hc; linarith
    apply mul_left_cancel₀ hne
    linear_combination ih

/-- The norm of the associated Legendre functions (without the factor `rodNorm²`). -/
theorem J_self (l m : ℕ) (h : m ≤ l) :
    J m l l = 2 / (2 * l + 1) * ((2 : ℝ) ^ l * l.factorial) ^ 2
      * ((l + m).factorial : ℝ) / ((l - m).factorial : ℝ) := by
  have := J_self_aux l (l - m) (by omega)
  rw [show l - (l - m) = m by omega, show 2 * l - (l - m) = l + m by omega] at this
  rw [eq_div_iff (by positivity), this]

/-- `∫ P_l^m P_l'^m sin θ dθ`. -/
theorem integral_thP (m l l' : ℕ) :
    ∫ θ in (0 : ℝ)..Real.pi, thP l m θ * thP l' m θ * Real.sin θ = rodNorm l m * rodNorm l' m * J m l l' := by
  have h := integral_comp_mul_deriv (a := 0) (b := Real.pi) (f := Real.cos) (f' := fun x => -Real.sin x)
    (g := fun x => (1 - x ^ 2) ^ m * (rod l (l + m)).eval x * (rod l' (l' + m)).eval x)
    (fun x _ => Real.hasDerivAt_cos x) (by fun_prop) (by fun_prop)
  rw [Real.cos_zero, Real.cos_pi] at h
  have h2 : J m l l' = ∫ x in (0 : ℝ)..Real.pi, ((1 - Real.cos x ^ 2) ^ m * (rod l (l + m)).eval (Real.cos x)
      * (rod l' (l' + m)).eval (Real.cos x)) * Real.sin x := by
    unfold J
    rw [integral_symm, ← h, ← integral_neg]
    congr 1; funext x
    simp only [Function.comp]
    ring
  rw [h2, ← integral_const_mul]
  congr 1; funext x
  rw [one_sub_cos_sq, thP, thP, ← pow_mul, mul_comm 2 m, pow_mul]
  ring

theorem integral_thP_ne (m : ℕ) {l l' : ℕ} (h : l ≠ l') :
    ∫ θ in (0 : ℝ)..Real.pi, thP l m θ * thP l' m θ * Real.sin θ = 0 := by
  rw [integral_thP, J_eq_zero m h, mul_zero]

theorem integral_thP_self {l m : ℕ} (h : m ≤ l) :
    ∫ θ in (0 : ℝ)..Real.pi, thP l m θ * thP l m θ * Real.sin θ
      = 2 / (2 * l + 1) * ((l + m).factorial : ℝ) / ((l - m).factorial : ℝ) := by
  rw [integral_thP, J_self l m h, rodNorm]
  have e : ((-1 : ℝ) ^ m) ^ 2 = 1 := by rw [← pow_mul, mul_comm, pow_mul]; norm_num
  have h1 : (2 : ℝ) ^ l ≠ 0 := by positivity
  have h2 : (l.factorial : ℝ) ≠ 0 := by positivity
  have h3 : ((l - m).factorial : ℝ) ≠ 0 := by positivity
  have h4 : (2 * (l : ℝ) + 1) ≠ 0 := by positivity
  field_simp
  rw [e]

@[fun_prop]
theorem continuous_thP (l m : ℕ) : Continuous (thP l m) := by unfold thP; fun_prop

@[fun_prop]
theorem continuous_thD (l m : ℕ) : Continuous (thD l m) := by unfold thD; fun_prop

/-- `m² P P'/ sin` has no singularity at the poles. -/
theorem thP_div_sin (m l l' : ℕ) (θ : ℝ) :
    (m : ℝ) ^ 2 / Real.sin θ ^ 2 * (thP l m θ * thP l' m θ) * Real.sin θ
      = (m : ℝ) ^ 2 * (rodNorm l m * rodNorm l' m * Real.sin θ ^ (2 * m - 1) * (rod l (l + m)).eval (Real.cos θ)
        * (rod l' (l' + m)).eval (Real.cos θ)) := by
  cases m with
  | zero => simp
  | succ m =>
    rw [thP, thP, show 2 * (m + 1) - 1 = 2 * m + 1 by omega]
    by_cases hs : Real.sin θ = 0
    · simp [hs]
    · field_simp
      ring

theorem continuous_thP_div_sin (m l l' : ℕ) :
    Continuous fun θ => (m : ℝ) ^ 2 / Real.sin θ ^ 2 * (thP l m θ * thP l' m θ) * Real.sin θ := by
  simp only [thP_div_sin]; fun_prop

/-- Integration by parts on the sphere: the gradients of two harmonics of the same order. -/
theorem integral_thD (m l l' : ℕ) :
    ∫ θ in (0 : ℝ)..Real.pi, (thD l m θ * thD l' m θ * Real.sin θ
        + (m : ℝ) ^ 2 / Real.sin θ ^ 2 * (thP l m θ * thP l' m θ) * Real.sin θ)
      = l * (l + 1) * ∫ θ in (0 : ℝ)..Real.pi, thP l m θ * thP l' m θ * Real.sin θ := by
  have hc1 := continuous_thP_div_sin m l l'
  have hI : IntervalIntegrable (fun θ => thD l m θ * thD l' m θ * Real.sin θ
        + (m : ℝ) ^ 2 / Real.sin θ ^ 2 * (thP l m θ * thP l' m θ) * Real.sin θ
        - l * (l + 1) * (thP l m θ * thP l' m θ * Real.sin θ)) MeasureTheory.volume 0 Real.pi :=
    Continuous.intervalIntegrable (by fun_prop) _ _
  have h := integral_eq_sub_of_hasDerivAt_of_le (a := 0) (b := Real.pi)
    (f := fun θ => Real.sin θ * thD l m θ * thP l' m θ) Real.pi_pos.le (by fun_prop)
    (fun θ hθ => by
      have hs : Real.sin θ ≠ 0 := (Real.sin_pos_of_pos_of_lt_pi hθ.1 hθ.2).ne'
      refine ((hasDerivAt_sin_thD l m θ hs).mul (hasDerivAt_thP l' m θ)).congr_deriv ?_
      show _ = thD l m θ * thD l' m θ * Real.sin θ
        + (m : ℝ) ^ 2 / Real.sin θ ^ 2 * (thP l m θ * thP l' m θ) * Real.sin θ
        - l * (l + 1) * (thP l m θ * thP l' m θ * Real.sin θ)
      ring) hI
  simp only [Real.sin_pi, Real.sin_zero, zero_mul, sub_zero] at h
  rw [integral_sub (Continuous.intervalIntegrable (by fun_prop) _ _)
    (Continuous.intervalIntegrable (by fun_prop) _ _), integral_const_mul] at h
  linarith

/-- The cross term between a surface gradient and a surface curl. -/
theorem integral_cross (m l l' : ℕ) :
    ∫ θ in (0 : ℝ)..Real.pi, (m : ℝ) * (thD l m θ * thP l' m θ + thP l m θ * thD l' m θ) = 0 := by
  have h := integral_eq_sub_of_hasDerivAt (a := 0) (b := Real.pi)
    (f := fun θ => (m : ℝ) * (thP l m θ * thP l' m θ))
    (fun θ _ => ((hasDerivAt_thP l m θ).mul (hasDerivAt_thP l' m θ)).const_mul (m : ℝ))
    (Continuous.intervalIntegrable (by fun_prop) _ _)
  rw [h]
  cases m with
  | zero => simp
  | succ m => simp [thP]

end Legendre
end Verif
