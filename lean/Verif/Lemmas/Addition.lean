import Verif.Lemmas.LegendreRec

/-!
# Sums of squares of spherical harmonics of one degree
-/

namespace Verif
namespace Legendre

open Polynomial Spec Finset

theorem rodNorm_neg (l m : ℕ) : rodNorm l (m + 1) = -rodNorm l m := by
  unfold rodNorm
  rw [pow_succ]
  ring

theorem thP_top (l : ℕ) {m : ℕ} (h : l < m) (θ : ℝ) : thP l m θ = 0 := by
  rw [thP, rod_eq_zero (by omega)]
  simp

/-- The derivative in terms of the neighbouring orders. -/
theorem thD_zero (l : ℕ) (θ : ℝ) : thD l 0 θ = thP l 1 θ := by
  rw [thD, thP, rodNorm_neg]
  simp
  ring

theorem thD_succ (l m : ℕ) (θ : ℝ) :
    thD l (m + 1) θ = (thP l (m + 2) θ - ((l : ℝ) - m) * (l + m + 1) * thP l m θ) / 2 := by
  have h := rod_order l m (Real.cos θ)
  have hsc : 1 - Real.cos θ ^ 2 = Real.sin θ ^ 2 := by
    have := Real.sin_sq_add_cos_sq θ; linarith
  rw [hsc] at h
  simp only [thD, thP, rodNorm_neg, Nat.add_sub_cancel, ← add_assoc]
  push_cast
  generalize eval (Real.cos θ) (rod l (l + m)) = v0 at *
  generalize eval (Real.cos θ) (rod l (l + m + 1)) = v1 at *
  generalize eval (Real.cos θ) (rod l (l + m + 2)) = v2 at *
  generalize Real.sin θ = s at *
  generalize Real.cos θ = c at *
  linear_combination (rodNorm l m * s ^ m / 2) * h

/-- So is the product with the cotangent. -/
theorem cos_thP (l m : ℕ) (θ : ℝ) : ((m : ℝ) + 1) * Real.cos θ * thP l (m + 1) θ
    = -(Real.sin θ * (thP l (m + 2) θ + ((l : ℝ) - m) * (l + m + 1) * thP l m θ)) / 2 := by
  have h := rod_order l m (Real.cos θ)
  have hsc : 1 - Real.cos θ ^ 2 = Real.sin θ ^ 2 := by
    have := Real.sin_sq_add_cos_sq θ; linarith
  rw [hsc] at h
  simp only [thP, rodNorm_neg, ← add_assoc]
  generalize eval (Real.cos θ) (rod l (l + m)) = v0 at *
  generalize eval (Real.cos θ) (rod l (l + m + 1)) = v1 at *
  generalize eval (Real.cos θ) (rod l (l + m + 2)) = v2 at *
  generalize Real.sin θ = s at *
  generalize Real.cos θ = c at *
  linear_combination (rodNorm l m * s ^ (m + 1) / 2) * h

/-- The quotient of factorials. -/
noncomputable def cf (l m : ℕ) : ℝ := ((l - m).factorial : ℝ) / ((l + m).factorial : ℝ)

theorem cf_nonneg (l m : ℕ) : 0 ≤ cf l m := by unfold cf; positivity

theorem cf_zero (l : ℕ) : cf l 0 = 1 := by
  unfold cf
  exact div_self (by positivity)

theorem cf_step {l m : ℕ} (h : m < l) : cf l (m + 1) * (((l : ℝ) - m) * (l + m + 1)) = cf l m := by
  unfold cf
  obtain ⟨d, rfl⟩ : ∃ d, l = m + 1 + d := ⟨l - m - 1, by omega⟩
  rw [show m + 1 + d - (m + 1) = d by omega, show m + 1 + d - m = d + 1 by omega,
    show m + 1 + d + (m + 1) = m + 1 + d + m + 1 by ring, Nat.factorial_succ d, Nat.factorial_succ (m + 1 + d + m)]
  have h1 : ((m + 1 + d + m).factorial : ℝ) ≠ 0 := by positivity
  push_cast
  have h2 : ((m : ℝ) + 1 + d + m + 1) ≠ 0 := by positivity
  field_simp
  ring

theorem cf_up (l m : ℕ) (θ : ℝ) :
    cf l m * thP l (m + 1) θ ^ 2 = ((l : ℝ) - m) * (l + m + 1) * (cf l (m + 1) * thP l (m + 1) θ ^ 2) := by
  rcases lt_or_ge m l with h | h
  · rw [← cf_step h]; ring
  · rw [thP_top l (by omega : l < m + 1)]; ring

/-- The sum of the squares does not depend on the angle. -/
theorem addition_deriv (l : ℕ) (θ : ℝ) :
    HasDerivAt (fun t => thP l 0 t ^ 2 + 2 * ∑ m ∈ range l, cf l (m + 1) * thP l (m + 1) t ^ 2) 0 θ := by
  have h : HasDerivAt (fun t => thP l 0 t ^ 2 + 2 * ∑ m ∈ range l, cf l (m + 1) * thP l (m + 1) t ^ 2)
      (2 * thP l 0 θ * thD l 0 θ + 2 * ∑ m ∈ range l, cf l (m + 1) * (2 * thP l (m + 1) θ * thD l (m + 1) θ)) θ := by
    refine HasDerivAt.add ?_ (HasDerivAt.const_mul 2 ?_)
    · exact ((hasDerivAt_thP l 0 θ).fun_pow 2).congr_deriv (by simp)
    · have := HasDerivAt.fun_sum (u := range l) (A := fun m t => cf l (m + 1) * thP l (m + 1) t ^ 2)
        (A' := fun m => cf l (m + 1) * (2 * thP l (m + 1) θ * thD l (m + 1) θ)) (x := θ) (by
        intro m _
        exact (((hasDerivAt_thP l (m + 1) θ).fun_pow 2).const_mul (cf l (m + 1))).congr_deriv (by simp))
      exact this
  refine h.congr_deriv ?_
  have e : ∀ m ∈ range l, cf l (m + 1) * (2 * thP l (m + 1) θ * thD l (m + 1) θ)
      = cf l (m + 1) * thP l (m + 1) θ * thP l (m + 2) θ - cf l m * thP l m θ * thP l (m + 1) θ := by
    intro m hm
    rw [thD_succ, ← cf_step (mem_range.1 hm)]
    ring
  rw [sum_congr rfl e, sum_range_sub (fun m => cf l m * thP l m θ * thP l (m + 1) θ), thP_top l (Nat.lt_succ_self l), cf_zero,
    thD_zero]
  ring

/-- **The addition theorem** at equal points. -/
theorem addition (l : ℕ) (θ : ℝ) : thP l 0 θ ^ 2 + 2 * ∑ m ∈ range l, cf l (m + 1) * thP l (m + 1) θ ^ 2 = 1 := by
  have h := is_const_of_deriv_eq_zero (fun t => (addition_deriv l t).differentiableAt) (fun t => (addition_deriv l t).deriv) θ 0
  rw [h]
  have e0 : thP l 0 0 = 1 := by
    have := lp_at_one l
    rw [lp, eval_mul, eval_C] at this
    simpa [thP] using this
  have e1 : ∀ m ∈ range l, cf l (m + 1) * thP l (m + 1) 0 ^ 2 = 0 := by
    intro m _
    simp [thP]
  rw [sum_congr rfl e1, e0]
  simp

/-- The squares of the tangential derivatives. -/
theorem tangent_sq (l m : ℕ) {θ : ℝ} (hs : Real.sin θ ≠ 0) :
    thD l (m + 1) θ ^ 2 + (((m : ℝ) + 1) * thP l (m + 1) θ / Real.sin θ) ^ 2
      = (thP l (m + 2) θ ^ 2 + (((l : ℝ) - m) * (l + m + 1) * thP l m θ) ^ 2) / 2 + (((m : ℝ) + 1) * thP l (m + 1) θ) ^ 2 := by
  have h1 := cos_thP l m θ
  have h2 := Real.sin_sq_add_cos_sq θ
  rw [thD_succ]
  generalize Real.sin θ = s at *
  generalize Real.cos θ = c at *
  generalize thP l (m + 2) θ = p2 at *
  generalize thP l (m + 1) θ = p1 at *
  generalize thP l m θ = p0 at *
  generalize ((l : ℝ) - m) * (l + m + 1) = a at *
  generalize (m : ℝ) + 1 = k at *
  have h3 : (k * p1) ^ 2 = s ^ 2 * ((p2 + a * p0) ^ 2 / 4 + (k * p1) ^ 2) := by
    have : (k * c * p1) ^ 2 = (-(s * (p2 + a * p0)) / 2) ^ 2 := by rw [h1]
    linear_combination this - (k * p1) ^ 2 * h2
  have h4 : (k * p1 / s) ^ 2 = (p2 + a * p0) ^ 2 / 4 + (k * p1) ^ 2 := by
    rw [div_pow, div_eq_iff (pow_ne_zero 2 hs)]
    linarith
  rw [h4]
  ring

theorem addition_tangent (l : ℕ) {θ : ℝ} (hs : Real.sin θ ≠ 0) :
    thD l 0 θ ^ 2 + 2 * ∑ m ∈ range l, cf l (m + 1) * (thD l (m + 1) θ ^ 2 + (((m : ℝ) + 1) * thP l (m + 1) θ / Real.sin θ) ^ 2)
      = l * (l + 1) := by
  set u : ℕ → ℝ := fun m => cf l m * thP l m θ ^ 2 with hu
  set a : ℕ → ℝ := fun m => ((l : ℝ) - m) * (l + m + 1) with ha
  have e : ∀ m ∈ range l, cf l (m + 1) * (thD l (m + 1) θ ^ 2 + (((m : ℝ) + 1) * thP l (m + 1) θ / Real.sin θ) ^ 2)
      = (a (m + 1) * u (m + 2) + a m * u m) / 2 + ((m : ℝ) + 1) ^ 2 * u (m + 1) := by
    intro m hm
    have h1 := cf_up l (m + 1) θ
    have h2 := cf_step (mem_range.1 hm)
    rw [tangent_sq l m hs]
    simp only [hu, ha]
    push_cast at h1 ⊢
    rw [← h2]
    linear_combination h1 / 2
  rw [sum_congr rfl e]
  have e0 : thD l 0 θ ^ 2 = a 0 * u 1 := by
    have := cf_up l 0 θ
    rw [cf_zero] at this
    rw [thD_zero]
    simp only [hu, ha]
    linear_combination this
  have hadd : u 0 + 2 * ∑ m ∈ range l, u (m + 1) = 1 := by
    have := addition l θ
    simp only [hu, cf_zero, one_mul]
    exact this
  have hal : a l = 0 := by simp [ha]
  have s1 : a 0 * u 1 + ∑ m ∈ range l, a (m + 1) * u (m + 2) = ∑ m ∈ range l, a m * u (m + 1) := by
    have h1 := sum_range_succ' (fun m => a m * u (m + 1)) l
    have h2 := sum_range_succ (fun m => a m * u (m + 1)) l
    rw [hal] at h2
    simp only [zero_add] at h1
    linarith
  have s2 : ∑ m ∈ range l, a m * u m = a 0 * u 0 + ∑ m ∈ range l, a (m + 1) * u (m + 1) := by
    have h1 := sum_range_succ' (fun m => a m * u m) l
    have h2 := sum_range_succ (fun m => a m * u m) l
    rw [hal] at h2
    linarith
  have s3 : ∑ m ∈ range l, a m * u (m + 1) + ∑ m ∈ range l, a (m + 1) * u (m + 1)
      + 2 * ∑ m ∈ range l, ((m : ℝ) + 1) ^ 2 * u (m + 1) = 2 * ((l : ℝ) * (l + 1)) * ∑ m ∈ range l, u (m + 1) := by
    rw [mul_sum, mul_sum, ← sum_add_distrib, ← sum_add_distrib]
    refine sum_congr rfl fun m _ => ?_
    simp only [ha]
    push_cast
    ring
  have ea : a 0 = l * (l + 1) := by simp [ha]
  have e3 : ∑ m ∈ range l, ((a (m + 1) * u (m + 2) + a m * u m) / 2 + ((m : ℝ) + 1) ^ 2 * u (m + 1))
      = (∑ m ∈ range l, a (m + 1) * u (m + 2) + ∑ m ∈ range l, a m * u m) / 2
        + ∑ m ∈ range l, ((m : ℝ) + 1) ^ 2 * u (m + 1) := by
    rw [← sum_add_distrib, sum_div, ← sum_add_distrib]
  rw [e3, e0]
  have : (l : ℝ) * (l + 1) = (l * (l + 1)) * (u 0 + 2 * ∑ m ∈ range l, u (m + 1)) := by rw [hadd, mul_one]
  rw [this]
  linear_combination s1 + s2 + s3 + u 0 * ea

end Legendre
end Verif
