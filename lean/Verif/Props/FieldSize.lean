import Verif.Lemmas.Addition
import Verif.Lemmas.Zdi
import Verif.Lemmas.Pfss
import Mathlib.Algebra.BigOperators.Fin
import Mathlib.Algebra.Order.BigOperators.Ring.Finset

/-!
# Property C114: how large a field can be at a point
-/

namespace Verif
open Spec Legendre Finset

namespace FieldSize

/-- The Cauchy-Schwarz inequality for lists. -/
theorem cauchy {α : Type} (xs : List α) (f g : α → ℝ) :
    ((xs.map fun x => f x * g x).sum) ^ 2 ≤ (xs.map fun x => f x ^ 2).sum * (xs.map fun x => g x ^ 2).sum := by
  rw [← Fin.sum_univ_fun_getElem, ← Fin.sum_univ_fun_getElem, ← Fin.sum_univ_fun_getElem]
  exact sum_mul_sq_le_sq_mul_sq _ _ _

theorem sq_le_of_le {x : ℝ} {α : Type} (xs : List α) (f g : α → ℝ) (h : |x| ≤ (xs.map fun x => f x * g x).sum) :
    x ^ 2 ≤ (xs.map fun x => f x ^ 2).sum * (xs.map fun x => g x ^ 2).sum := by
  rw [← sq_abs]
  exact (pow_le_pow_left₀ (abs_nonneg x) h 2).trans (cauchy xs f g)

/-- A sum over rows with distinct pairs is at most the sum over all pairs. -/
theorem rows_le {z : Zdi} (h : ∀ r ∈ z, 0 ≤ r.m ∧ r.m ≤ r.l) (hn : (z.map fun r => (r.l, r.m)).Nodup) {L : ℕ}
    (hL : ∀ r ∈ z, r.l ≤ L) (f : ℕ → ℕ → ℝ) (hf : ∀ l m, 0 ≤ f l m) :
    (z.map fun r => f r.l.toNat r.m.toNat).sum ≤ ∑ l ∈ range (L + 1), ∑ m ∈ range (l + 1), f l m := by
  have hn' : (z.map fun r => (⟨r.l.toNat, r.m.toNat⟩ : Σ _ : ℕ, ℕ)).Nodup := by
    have h0 : z.Nodup := hn.of_map _
    rw [List.nodup_map_iff_inj_on h0] at hn ⊢
    intro r hr s hs e
    have h1 := h r hr
    have h2 := h s hs
    simp only [Sigma.mk.injEq, heq_eq_eq] at e
    exact hn r hr s hs (by ext <;> simp only <;> omega)
  have e : (z.map fun r => f r.l.toNat r.m.toNat).sum
      = ∑ k ∈ (z.map fun r => (⟨r.l.toNat, r.m.toNat⟩ : Σ _ : ℕ, ℕ)).toFinset, f k.1 k.2 := by
    rw [List.sum_toFinset _ hn', List.map_map]
    rfl
  rw [e, sum_sigma' (range (L + 1)) (fun l => range (l + 1)) (fun l m => f l m)]
  refine sum_le_sum_of_subset_of_nonneg ?_ fun k _ _ => hf _ _
  intro k hk
  obtain ⟨r, hr, rfl⟩ := List.mem_map.1 (List.mem_toFinset.1 hk)
  have h1 := h r hr
  have h2 := hL r hr
  simp only [mem_sigma, mem_range]
  omega

theorem sum_odd (L : ℕ) : ∑ l ∈ range (L + 1), (2 * (l : ℝ) + 1) / (4 * Real.pi) = ((L : ℝ) + 1) ^ 2 / (4 * Real.pi) := by
  rw [← sum_div]
  congr 1
  induction L with
  | zero => simp
  | succ L ih =>
    rw [sum_range_succ, ih]
    push_cast
    ring

theorem cLm_sq {l m : ℤ} (h : 0 ≤ m ∧ m ≤ l) :
    cLm l m ^ 2 = (2 * (l.toNat : ℝ) + 1) / (4 * Real.pi) * cf l.toNat m.toNat := by
  have e0 : ((l.toNat : ℤ) : ℝ) = (l : ℝ) := by rw [Int.toNat_of_nonneg (by omega)]
  have e1 : (l.toNat : ℝ) = (l : ℝ) := by exact_mod_cast e0
  have hl : (0 : ℝ) ≤ l := by rw [← e1]; positivity
  have f1 : spFactorial (l - m) = ((l.toNat - m.toNat).factorial : ℝ) := by
    rw [spFactorial, if_neg (by omega), show (l - m).toNat = l.toNat - m.toNat by omega]
  have f2 : spFactorial (l + m) = ((l.toNat + m.toNat).factorial : ℝ) := by
    rw [spFactorial, if_neg (by omega), show (l + m).toNat = l.toNat + m.toNat by omega]
  have hpi := Real.pi_pos
  rw [cLm, f1, f2, Real.sq_sqrt (by positivity), e1, cf]
  ring

/-- The squares of the functions of one degree, without their weights. -/
theorem half_sum (l : ℕ) (θ : ℝ) : ∑ m ∈ range (l + 1), cf l m * thP l m θ ^ 2 ≤ 1 := by
  rw [sum_range_succ', ← addition l θ, cf_zero]
  have : 0 ≤ ∑ m ∈ range l, cf l (m + 1) * thP l (m + 1) θ ^ 2 :=
    sum_nonneg fun m _ => mul_nonneg (cf_nonneg _ _) (sq_nonneg _)
  linarith

theorem half_sum_tangent (l : ℕ) {θ : ℝ} (hs : Real.sin θ ≠ 0) :
    ∑ m ∈ range (l + 1), cf l m * (thD l m θ ^ 2 + ((m : ℝ) * thP l m θ / Real.sin θ) ^ 2) ≤ l * (l + 1) := by
  rw [sum_range_succ', ← addition_tangent l hs, cf_zero]
  have : 0 ≤ ∑ m ∈ range l, cf l (m + 1) * (thD l (m + 1) θ ^ 2 + (((m : ℝ) + 1) * thP l (m + 1) θ / Real.sin θ) ^ 2) :=
    sum_nonneg fun m _ => mul_nonneg (cf_nonneg _ _) (by positivity)
  push_cast
  simp only [zero_mul, zero_div, one_mul]
  linarith

theorem norm_expi (m : ℤ) (φ : ℝ) : ‖Zdi.expi m φ‖ = 1 := by
  unfold Zdi.expi
  rw [show Complex.I * (m : ℂ) * (φ : ℂ) = ((m * φ : ℝ) : ℂ) * Complex.I by push_cast; ring, Complex.norm_exp_ofReal_mul_I]

theorem norm_list {α : Type} (xs : List α) (f : α → ℂ) (g : α → ℝ) (h : ∀ x ∈ xs, ‖f x‖ ≤ g x) :
    ‖(xs.map f).sum‖ ≤ (xs.map g).sum := by
  induction xs with
  | nil => simp
  | cons x xs ih =>
    rw [List.map_cons, List.sum_cons, List.map_cons, List.sum_cons]
    exact (norm_add_le _ _).trans (add_le_add (h x (by simp)) (ih fun y hy => h y (by simp [hy])))

theorem sin_cases (θ : ℝ) : ∃ θ', Real.cos θ' = Real.cos θ ∧ 0 ≤ Real.sin θ' := by
  rcases le_total 0 (Real.sin θ) with h | h
  · exact ⟨θ, rfl, h⟩
  · exact ⟨-θ, Real.cos_neg θ, by rw [Real.sin_neg]; linarith⟩

end FieldSize

open FieldSize

variable {z : Zdi} {L : ℕ}

/-- **C114**: the radial field of a magnetogram of degree at most `L` is at any point at most `(L + 1) / (2 √π)` times the root
of the sum of the squares of its coefficients. -/
theorem C114_radial (h : ∀ r ∈ z, 0 ≤ r.m ∧ r.m ≤ r.l) (hn : (z.map fun r => (r.l, r.m)).Nodup) (hL : ∀ r ∈ z, r.l ≤ L) (θ φ : ℝ) :
    Zdi.radial z θ φ ^ 2 ≤ (z.map fun r => ‖r.a‖ ^ 2).sum * (((L : ℝ) + 1) ^ 2 / (4 * Real.pi)) := by
  obtain ⟨θ', hc, hs⟩ := sin_cases θ
  have e : Zdi.radial z θ φ = Zdi.radial z θ' φ := by
    unfold Zdi.radial Zdi.radialPoloidal Zdi.radialToroidal
    rw [hc]
  rw [e, Zdi.radial_eq h hs]
  have h1 : |(Zdi.harm (fun r => r.a * cLm r.l r.m) thP z θ' φ).re|
      ≤ (z.map fun r => ‖r.a‖ * |cLm r.l r.m * thP r.l.toNat r.m.toNat θ'|).sum := by
    refine (Complex.abs_re_le_norm _).trans (norm_list _ _ _ fun r _ => ?_)
    rw [norm_mul, norm_expi, mul_one]
    simp only
    rw [mul_assoc, norm_mul, ← Complex.ofReal_mul, Complex.norm_real, Real.norm_eq_abs]
  refine (sq_le_of_le z _ _ h1).trans ?_
  refine mul_le_mul_of_nonneg_left ?_ (List.sum_nonneg (by simp only [List.mem_map]; rintro x ⟨r, -, rfl⟩; positivity))
  have hpi := Real.pi_pos
  have h2 : (z.map fun r => |cLm r.l r.m * thP r.l.toNat r.m.toNat θ'| ^ 2)
      = z.map fun r => (fun l m : ℕ => (2 * (l : ℝ) + 1) / (4 * Real.pi) * (cf l m * thP l m θ' ^ 2)) r.l.toNat r.m.toNat := by
    refine List.map_congr_left fun r hr => ?_
    rw [sq_abs, mul_pow, cLm_sq (h r hr)]
    ring
  rw [h2]
  refine (rows_le h hn hL (fun l m : ℕ => (2 * (l : ℝ) + 1) / (4 * Real.pi) * (cf l m * thP l m θ' ^ 2)) fun l m =>
    mul_nonneg (by positivity) (mul_nonneg (cf_nonneg _ _) (sq_nonneg _))).trans ?_
  rw [← sum_odd L]
  refine sum_le_sum fun l _ => ?_
  rw [← mul_sum]
  have := mul_le_mul_of_nonneg_left (half_sum l θ') (show 0 ≤ (2 * (l : ℝ) + 1) / (4 * Real.pi) by positivity)
  simpa using this

namespace FieldSize

/-- Sums of the two kinds of tangential terms. -/
theorem tangent_le (h : ∀ r ∈ z, 0 ≤ r.m ∧ r.m ≤ r.l) (hn : (z.map fun r => (r.l, r.m)).Nodup) (hL : ∀ r ∈ z, r.l ≤ L)
    {θ : ℝ} (hs : 0 < Real.sin θ) (φ : ℝ) (k k' : ZRow → ℂ) {x y : ℝ}
    (hx : |x| = |(Zdi.harm (fun r => k r * cLm r.l r.m / (r.l + 1)) thD z θ φ).re|)
    (hy : |y| = |(Zdi.harm (fun r => Complex.I * r.m * (k' r * cLm r.l r.m / (r.l + 1))) thP z θ φ).re / Real.sin θ|) :
    (x + y) ^ 2 ≤ (z.map fun r => ‖k r‖ ^ 2 + ‖k' r‖ ^ 2).sum * (((L : ℝ) + 1) ^ 2 / (4 * Real.pi)) := by
  set A : ZRow → ℝ := fun r => |cLm r.l r.m / (r.l + 1) * thD r.l.toNat r.m.toNat θ| with hA
  set B : ZRow → ℝ := fun r => |cLm r.l r.m / (r.l + 1) * (r.m.toNat * thP r.l.toNat r.m.toNat θ / Real.sin θ)| with hB
  have h1 : |x| ≤ (z.map fun r => ‖k r‖ * A r).sum := by
    rw [hx]
    refine (Complex.abs_re_le_norm _).trans (norm_list _ _ _ fun r _ => le_of_eq ?_)
    rw [norm_mul, norm_expi, mul_one]
    simp only
    rw [mul_div_assoc, mul_assoc, norm_mul]
    congr 1
    simp only [hA]
    rw [← Real.norm_eq_abs, ← Complex.norm_real]
    push_cast
    rfl
  have h2 : |y| ≤ (z.map fun r => ‖k' r‖ * B r).sum := by
    rw [hy, ← Complex.div_ofReal_re]
    refine (Complex.abs_re_le_norm _).trans ?_
    unfold Zdi.harm
    rw [div_eq_mul_inv, ← List.sum_map_mul_right]
    refine norm_list _ _ _ fun r hr => le_of_eq ?_
    have em : ((r.m.toNat : ℝ) : ℂ) = (r.m : ℂ) := by
      have : ((r.m.toNat : ℤ) : ℂ) = (r.m : ℂ) := by rw [Int.toNat_of_nonneg (h r hr).1]
      exact_mod_cast this
    have e : Complex.I * r.m * (k' r * cLm r.l r.m / (r.l + 1)) * (thP r.l.toNat r.m.toNat θ : ℝ) * Zdi.expi r.m φ
        * ((Real.sin θ : ℝ) : ℂ)⁻¹
        = Complex.I * Zdi.expi r.m φ * (k' r * ((cLm r.l r.m / (r.l + 1) * (r.m.toNat * thP r.l.toNat r.m.toNat θ / Real.sin θ) : ℝ) : ℂ)) := by
      push_cast [← em]
      ring
    rw [e, norm_mul, norm_mul, Complex.norm_I, norm_expi, one_mul, one_mul, norm_mul, Complex.norm_real, Real.norm_eq_abs]
  have h3 : |x + y| ≤ (z.map fun r => Real.sqrt (‖k r‖ ^ 2 + ‖k' r‖ ^ 2) * Real.sqrt (A r ^ 2 + B r ^ 2)).sum := by
    refine (abs_add_le x y).trans ((add_le_add h1 h2).trans ?_)
    rw [← List.sum_map_add]
    refine List.sum_le_sum fun r _ => ?_
    rw [← Real.sqrt_mul (by positivity)]
    refine Real.le_sqrt_of_sq_le ?_
    nlinarith [sq_nonneg (‖k r‖ * B r - ‖k' r‖ * A r)]
  have h4 := sq_le_of_le z _ _ h3
  have e1 : (z.map fun r => Real.sqrt (‖k r‖ ^ 2 + ‖k' r‖ ^ 2) ^ 2) = z.map fun r => ‖k r‖ ^ 2 + ‖k' r‖ ^ 2 :=
    List.map_congr_left fun r _ => Real.sq_sqrt (by positivity)
  have hpi := Real.pi_pos
  have e2 : (z.map fun r => Real.sqrt (A r ^ 2 + B r ^ 2) ^ 2)
      = z.map fun r => (fun l m : ℕ => (2 * (l : ℝ) + 1) / (4 * Real.pi) / ((l : ℝ) + 1) ^ 2
        * (cf l m * (thD l m θ ^ 2 + ((m : ℝ) * thP l m θ / Real.sin θ) ^ 2))) r.l.toNat r.m.toNat := by
    refine List.map_congr_left fun r hr => ?_
    have el : (r.l.toNat : ℝ) = (r.l : ℝ) := by
      have : ((r.l.toNat : ℤ) : ℝ) = (r.l : ℝ) := by rw [Int.toNat_of_nonneg ((h r hr).1.trans (h r hr).2)]
      exact_mod_cast this
    rw [Real.sq_sqrt (by positivity), hA, hB]
    simp only
    rw [sq_abs, sq_abs, mul_pow, mul_pow (cLm r.l r.m / (r.l + 1)), div_pow, cLm_sq (h r hr), el]
    ring
  rw [e1, e2] at h4
  refine h4.trans (mul_le_mul_of_nonneg_left ?_
    (List.sum_nonneg (by simp only [List.mem_map]; rintro x ⟨r, -, rfl⟩; positivity)))
  refine (rows_le h hn hL (fun l m : ℕ => (2 * (l : ℝ) + 1) / (4 * Real.pi) / ((l : ℝ) + 1) ^ 2
    * (cf l m * (thD l m θ ^ 2 + ((m : ℝ) * thP l m θ / Real.sin θ) ^ 2))) fun l m =>
    mul_nonneg (by positivity) (mul_nonneg (cf_nonneg _ _) (by positivity))).trans ?_
  rw [← sum_odd L]
  refine sum_le_sum fun l _ => ?_
  rw [← mul_sum]
  have h5 := mul_le_mul_of_nonneg_left (half_sum_tangent l hs.ne')
    (show 0 ≤ (2 * (l : ℝ) + 1) / (4 * Real.pi) / ((l : ℝ) + 1) ^ 2 by positivity)
  refine h5.trans ?_
  rw [div_mul_eq_mul_div, div_le_iff₀ (by positivity)]
  refine mul_le_mul_of_nonneg_left ?_ (by positivity)
  nlinarith [(Nat.cast_nonneg l : (0 : ℝ) ≤ l)]

end FieldSize

/-- **C114**: so is the polar field, with the coefficients of the poloidal and the toroidal part. -/
theorem C114_polar (h : NonnegOrders z) (hn : (z.map fun r => (r.l, r.m)).Nodup) (hL : ∀ r ∈ z, r.l ≤ L) {θ : ℝ}
    (hθ : OffAxis θ) (φ : ℝ) : ∃ v, Zdi.polar z θ φ = .ok v ∧
      v ^ 2 ≤ (z.map fun r => ‖r.b‖ ^ 2 + ‖r.g‖ ^ 2).sum * (((L : ℝ) + 1) ^ 2 / (4 * Real.pi)) := by
  have hs := Real.sin_pos_of_pos_of_lt_pi hθ.1 hθ.2
  refine ⟨_, by rw [Zdi.polar, Zdi.polarPoloidal_eq h hs]; rfl, ?_⟩
  refine tangent_le h.2 hn hL hs φ ZRow.b ZRow.g (abs_neg _) ?_
  rw [Zdi.polarToroidal_eq h.2 hs.le]

/-- **C114**: and the azimuthal field. -/
theorem C114_azimuthal (h : NonnegOrders z) (hn : (z.map fun r => (r.l, r.m)).Nodup) (hL : ∀ r ∈ z, r.l ≤ L) {θ : ℝ}
    (hθ : OffAxis θ) (φ : ℝ) : ∃ v, Zdi.azimuthal z θ φ = .ok v ∧
      v ^ 2 ≤ (z.map fun r => ‖r.b‖ ^ 2 + ‖r.g‖ ^ 2).sum * (((L : ℝ) + 1) ^ 2 / (4 * Real.pi)) := by
  have hs := Real.sin_pos_of_pos_of_lt_pi hθ.1 hθ.2
  refine ⟨_, by rw [Zdi.azimuthal, Zdi.azimuthalToroidal_eq h hs]; rfl, ?_⟩
  rw [add_comm (Zdi.azimuthalPoloidal z θ φ)]
  have e : (z.map fun r => ‖r.b‖ ^ 2 + ‖r.g‖ ^ 2) = z.map fun r => ‖r.g‖ ^ 2 + ‖r.b‖ ^ 2 :=
    List.map_congr_left fun r _ => add_comm _ _
  rw [e]
  refine tangent_le h.2 hn hL hs φ ZRow.g ZRow.b (abs_neg _) ?_
  rw [Zdi.azimuthalPoloidal_eq h.2 hs.le, abs_neg]

/-- **C114**: so the field strength is at most `(L + 1) / (2 √π)` times the root of the sum of the squares of the coefficients,
those of the tangential field counted twice. -/
theorem C114_strength (h : NonnegOrders z) (hn : (z.map fun r => (r.l, r.m)).Nodup) (hL : ∀ r ∈ z, r.l ≤ L) {θ : ℝ}
    (hθ : OffAxis θ) (φ : ℝ) : ∃ v, Zdi.strength z θ φ = .ok v ∧
      v ≤ Real.sqrt (z.map fun r => ‖r.a‖ ^ 2 + 2 * (‖r.b‖ ^ 2 + ‖r.g‖ ^ 2)).sum * (((L : ℝ) + 1) / (2 * Real.sqrt Real.pi)) := by
  obtain ⟨p, ep, hp⟩ := C114_polar h hn hL hθ φ
  obtain ⟨a, ea, ha⟩ := C114_azimuthal h hn hL hθ φ
  have hr := C114_radial h.2 hn hL θ φ
  have hpi := Real.pi_pos
  refine ⟨Real.sqrt (Zdi.radial z θ φ ^ 2 + p ^ 2 + a ^ 2), by rw [Zdi.strength, ep, ea]; rfl, ?_⟩
  refine Real.sqrt_le_iff.2 ⟨by positivity, ?_⟩
  have hS : 0 ≤ (z.map fun r => ‖r.a‖ ^ 2 + 2 * (‖r.b‖ ^ 2 + ‖r.g‖ ^ 2)).sum :=
    List.sum_nonneg (by simp only [List.mem_map]; rintro x ⟨r, -, rfl⟩; positivity)
  rw [mul_pow, Real.sq_sqrt hS, div_pow, mul_pow, Real.sq_sqrt hpi.le, List.sum_map_add, List.sum_map_mul_left]
  have e : ((L : ℝ) + 1) ^ 2 / (2 ^ 2 * Real.pi) = ((L : ℝ) + 1) ^ 2 / (4 * Real.pi) := by norm_num
  rw [e]
  linarith

/-- **C114, sharpness**: the bound is attained by the constant field. -/
theorem C114_radial_sharp (a : ℝ) (θ φ : ℝ) : Zdi.radial [⟨0, 0, a, 0, 0⟩] θ φ ^ 2
    = (([⟨0, 0, a, 0, 0⟩] : Zdi).map fun r => ‖r.a‖ ^ 2).sum * (((0 : ℕ) + 1) ^ 2 / (4 * Real.pi)) := by
  have hpi := Real.pi_pos
  obtain ⟨θ', hc, hs⟩ := sin_cases θ
  have e : Zdi.radial [⟨0, 0, a, 0, 0⟩] θ φ = Zdi.radial [⟨0, 0, a, 0, 0⟩] θ' φ := by
    unfold Zdi.radial Zdi.radialPoloidal Zdi.radialToroidal
    rw [hc]
  rw [e, Zdi.radial_eq (by simp) hs]
  have h1 := cLm_sq (l := 0) (m := 0) ⟨le_rfl, le_rfl⟩
  have h2 := addition 0 θ'
  simp only [range_zero, sum_empty, mul_zero, add_zero] at h2
  have e2 : (Zdi.harm (fun r => r.a * cLm r.l r.m) thP [⟨0, 0, a, 0, 0⟩] θ' φ).re = a * cLm 0 0 * thP 0 0 θ' := by
    simp only [Zdi.harm, Zdi.expi, List.map_cons, List.map_nil, List.sum_cons, List.sum_nil, add_zero, Int.cast_zero,
      mul_zero, zero_mul, Complex.exp_zero, mul_one, Int.toNat_zero, ← Complex.ofReal_mul, Complex.ofReal_re]
  rw [e2, mul_pow, mul_pow, h2, h1]
  simp [cf_zero]

/-! ### The functions and fields of PFSS -/

namespace FieldSize

theorem thetaScale_sq {l m : ℤ} (h : 0 ≤ m ∧ m ≤ l) :
    Pfss.thetaScale l m ^ 2 = (if m = 0 then 1 else 2) * cf l.toNat m.toNat := by
  have f1 : spFactorial (l - m) = ((l.toNat - m.toNat).factorial : ℝ) := by
    rw [spFactorial, if_neg (by omega), show (l - m).toNat = l.toNat - m.toNat by omega]
  have f2 : spFactorial (l + m) = ((l.toNat + m.toNat).factorial : ℝ) := by
    rw [spFactorial, if_neg (by omega), show (l + m).toNat = l.toNat + m.toNat by omega]
  have e : ((-1 : ℝ) ^ m) ^ 2 = 1 := by
    rw [← zpow_natCast, ← zpow_mul, mul_comm, zpow_mul]
    norm_num
  have e2 : (2 : ℝ) - (if m = 0 then 1 else 0) = if m = 0 then 1 else 2 := by split_ifs <;> norm_num
  rw [Pfss.thetaScale, mul_pow, mul_pow, e, f1, f2, e2, Real.sq_sqrt (by positivity), Real.sq_sqrt (by split_ifs <;> norm_num), cf]
  ring

theorem tv_sq {l m : ℕ} (h : m ≤ l) {θ : ℝ} (hs : 0 ≤ Real.sin θ) :
    Pfss.tv θ ((l : ℤ), (m : ℤ)) ^ 2 = (if m = 0 then 1 else 2) * (cf l m * thP l m θ ^ 2) := by
  rw [Pfss.tv, mul_pow, thetaScale_sq (by simp only; omega)]
  simp only [Int.toNat_natCast, legendreP_cos l m hs, Nat.cast_eq_zero]
  ring

theorem td_sq {l m : ℕ} (h : m ≤ l) {θ : ℝ} (hs : 0 < Real.sin θ) :
    Pfss.td θ ((l : ℤ), (m : ℤ)) ^ 2 = (if m = 0 then 1 else 2) * (cf l m * thD l m θ ^ 2) := by
  rw [Pfss.td_eq _ hs, mul_pow, thetaScale_sq (by simp only; omega)]
  simp only [Int.toNat_natCast, Nat.cast_eq_zero]
  ring

theorem tv_sum (l : ℕ) {θ : ℝ} (hs : 0 ≤ Real.sin θ) : ∑ m ∈ range (l + 1), Pfss.tv θ ((l : ℤ), (m : ℤ)) ^ 2 = 1 := by
  rw [sum_congr rfl fun m hm => tv_sq (Nat.lt_succ_iff.1 (mem_range.1 hm)) hs, sum_range_succ']
  have h := addition l θ
  rw [mul_sum] at h
  simp only [Nat.add_eq_zero_iff, one_ne_zero, and_false, if_false, if_true, cf_zero, one_mul]
  linarith

theorem td_sum (l : ℕ) {θ : ℝ} (hs : 0 < Real.sin θ) : ∑ m ∈ range (l + 1),
    (Pfss.td θ ((l : ℤ), (m : ℤ)) ^ 2 + ((m : ℝ) * Pfss.tv θ ((l : ℤ), (m : ℤ)) / Real.sin θ) ^ 2) = l * (l + 1) := by
  have e : ∀ m ∈ range (l + 1), Pfss.td θ ((l : ℤ), (m : ℤ)) ^ 2 + ((m : ℝ) * Pfss.tv θ ((l : ℤ), (m : ℤ)) / Real.sin θ) ^ 2
      = (if m = 0 then 1 else 2) * (cf l m * (thD l m θ ^ 2 + ((m : ℝ) * thP l m θ / Real.sin θ) ^ 2)) := by
    intro m hm
    have h := Nat.lt_succ_iff.1 (mem_range.1 hm)
    rw [td_sq h hs, div_pow, mul_pow, tv_sq h hs.le]
    ring
  rw [sum_congr rfl e, sum_range_succ', ← addition_tangent l hs.ne', mul_sum]
  simp [cf_zero]
  ring

end FieldSize

/-- **C114**: the squares of the functions that `calculate_all_theta` returns for all orders of a degree have the sum one. -/
theorem C114_theta (l : ℕ) (θ : ℝ) :
    ∃ th, Pfss.calcAllTheta ((List.range (l + 1)).map fun m : ℕ => ((l : ℤ), (m : ℤ))) θ = .ok th ∧
      (th.map fun t => t.1 ^ 2).sum = 1 := by
  refine ⟨_, Pfss.calcAllTheta_ok (by simp) ?_ θ, ?_⟩
  · simp only [List.mem_map, List.mem_range]
    rintro k ⟨m, hm, rfl⟩
    simp only
    omega
  · obtain ⟨θ', hc, hs⟩ := sin_cases θ
    rw [← tv_sum l hs, List.map_map, List.map_map, ← List.sum_toFinset _ List.nodup_range, List.toFinset_range]
    refine sum_congr rfl fun m _ => ?_
    simp only [Function.comp, Pfss.tv, hc]

/-- **C114**: the squares of their derivatives and of the azimuthal derivatives have the sum `l (l + 1)`. -/
theorem C114_dtheta (l : ℕ) {θ : ℝ} (hθ : OffAxis θ) :
    ∃ th, Pfss.calcAllTheta ((List.range (l + 1)).map fun m : ℕ => ((l : ℤ), (m : ℤ))) θ = .ok th ∧
      (List.zipWith (fun (m : ℕ) (t : ℝ × ℝ) => t.2 ^ 2 + ((m : ℝ) * t.1 / Real.sin θ) ^ 2) (List.range (l + 1)) th).sum
        = l * (l + 1) := by
  have hs := Real.sin_pos_of_pos_of_lt_pi hθ.1 hθ.2
  refine ⟨_, Pfss.calcAllTheta_ok (by simp) ?_ θ, ?_⟩
  · simp only [List.mem_map, List.mem_range]
    rintro k ⟨m, hm, rfl⟩
    simp only
    omega
  · rw [← td_sum l hs, List.map_map, Zdi.zipWith_map_self, ← List.sum_toFinset _ List.nodup_range, List.toFinset_range]
    rfl

namespace FieldSize

theorem tv_le {k : Key} (h : 0 ≤ k.2 ∧ k.2 ≤ k.1) {θ : ℝ} (hs : 0 ≤ Real.sin θ) : |Pfss.tv θ k| ≤ 1 := by
  obtain ⟨l, m⟩ := k
  obtain ⟨l, rfl⟩ := Int.eq_ofNat_of_zero_le (h.1.trans h.2)
  obtain ⟨m, rfl⟩ := Int.eq_ofNat_of_zero_le h.1
  have := single_le_sum (f := fun m : ℕ => Pfss.tv θ ((l : ℤ), (m : ℤ)) ^ 2) (fun _ _ => sq_nonneg _)
    (mem_range.2 (by have := h.2; simp only at this; omega : m < l + 1))
  rw [tv_sum l hs] at this
  exact abs_le_one_iff_mul_self_le_one.2 (by simpa [sq] using this)

theorem td_le {k : Key} (h : 0 ≤ k.2 ∧ k.2 ≤ k.1) {θ : ℝ} (hs : 0 < Real.sin θ) :
    |Pfss.td θ k| ≤ k.1 + 1 ∧ |k.2 * Pfss.tv θ k / Real.sin θ| ≤ k.1 + 1 := by
  obtain ⟨l, m⟩ := k
  obtain ⟨l, rfl⟩ := Int.eq_ofNat_of_zero_le (h.1.trans h.2)
  obtain ⟨m, rfl⟩ := Int.eq_ofNat_of_zero_le h.1
  have := single_le_sum (f := fun m : ℕ => Pfss.td θ ((l : ℤ), (m : ℤ)) ^ 2 + ((m : ℝ) * Pfss.tv θ ((l : ℤ), (m : ℤ)) / Real.sin θ) ^ 2)
    (fun _ _ => by positivity) (mem_range.2 (by have := h.2; simp only at this; omega : m < l + 1))
  rw [td_sum l hs] at this
  have hl : (0 : ℝ) ≤ l := Nat.cast_nonneg l
  simp only [Int.cast_natCast] at this ⊢
  have p1 := sq_nonneg (Pfss.td θ ((l : ℤ), (m : ℤ)))
  have p2 := sq_nonneg ((m : ℝ) * Pfss.tv θ ((l : ℤ), (m : ℤ)) / Real.sin θ)
  constructor <;> refine abs_le_of_sq_le_sq ?_ (by linarith) <;> nlinarith

theorem phi_le (m : ℤ) (c : ℂ) (φ : ℝ) :
    |(Pfss.phiLm m c.re c.im φ).1| ≤ ‖c‖ ∧ ∃ x, (Pfss.phiLm m c.re c.im φ).2 = x * m ∧ |x| ≤ ‖c‖ := by
  have key : ∀ x y : ℝ, x ^ 2 + y ^ 2 = 1 → |c.re * x + c.im * y| ≤ ‖c‖ := by
    intro x y h
    refine abs_le_of_sq_le_sq ?_ (norm_nonneg c)
    rw [← Complex.normSq_eq_norm_sq, Complex.normSq_apply]
    nlinarith [sq_nonneg (c.re * y - c.im * x)]
  refine ⟨key _ _ (Real.cos_sq_add_sin_sq _), _, rfl, ?_⟩
  have := key (-Real.sin (m * φ)) (Real.cos (m * φ)) (by rw [neg_sq]; exact Real.sin_sq_add_cos_sq _)
  rwa [mul_neg, ← neg_mul] at this

theorem rL_le {l : ℤ} (hl : 0 ≤ l) {r r0 rss : ℝ} (h0 : 0 < r0) (h1 : r0 ≤ r) (h2 : r ≤ rss) :
    |(Pfss.rL l r r0 rss).2| ≤ 2 * (r0 / r) ^ (l + 2) ∧ (r = r0 → |(Pfss.rL l r r0 rss).2| = 1) ∧
      ∃ x, (Pfss.rL l r r0 rss).1 = r * x ∧ |x| * (l + 1) ≤ (r0 / r) ^ (l + 2) := by
  have hr : 0 < r := h0.trans_le h1
  have hss : 0 < rss := hr.trans_le h2
  have hlr : (0 : ℝ) ≤ l := by exact_mod_cast hl
  set q := (r0 / r) ^ (l + 2) with hq
  set t := (r / rss) ^ (2 * l + 1) with ht
  set e := (l : ℝ) + 1 + l * (r0 / rss) ^ (2 * l + 1) with he
  have hq0 : 0 ≤ q := by positivity
  have ht0 : 0 ≤ t := by positivity
  have ht1 : t ≤ 1 := by
    rw [ht]
    have := zpow_le_one₀ (a := r / rss) (by positivity) ((div_le_one hss).2 h2) (n := 2 * l + 1) (by omega)
    exact this
  have hs0 : 0 ≤ (r0 / rss) ^ (2 * l + 1) := by positivity
  have he1 : (l : ℝ) + 1 ≤ e := by rw [he]; nlinarith
  have he0 : 0 < e := by linarith
  have d2 : (Pfss.rL l r r0 rss).2 = -q * (l + 1 + l * t) / e := rfl
  have d1 : (Pfss.rL l r r0 rss).1 = r * q * (1 - t) / e := rfl
  have a2 : |(Pfss.rL l r r0 rss).2| = q * (l + 1 + l * t) / e := by
    rw [d2, neg_mul, neg_div, abs_neg, abs_of_nonneg (by positivity)]
  refine ⟨?_, ?_, q * (1 - t) / e, by rw [d1]; ring, ?_⟩
  · rw [a2, div_le_iff₀ he0]
    have : (l : ℝ) + 1 + l * t ≤ 2 * e := by nlinarith
    nlinarith
  · intro h
    have : (l : ℝ) + 1 + l * t = e := by rw [ht, he, h]
    rw [a2, this, mul_div_assoc, div_self he0.ne', mul_one, hq, h, div_self h0.ne', one_zpow]
  · have h3 : 0 ≤ 1 - t := by linarith
    rw [abs_of_nonneg (by positivity), div_mul_eq_mul_div, div_le_iff₀ he0]
    have : (1 - t) * ((l : ℝ) + 1) ≤ e := by nlinarith
    nlinarith

end FieldSize

/-- **C114**: between the star and the source surface, and beyond it, the radial field of a PFSS set is at most twice the sum
of the moduli of the coefficients, each weakened by the distance; the polar and the azimuthal field are at most that sum. -/
theorem C114_pfss {s : Coefs ℂ} (h : RadialSet s) {r0 rss r θ φ : ℝ} (h0 : 0 < r0) (hr : r0 < rss) (hr0 : r0 ≤ r)
    (hθ : OffAxis θ) : ∃ f, Pfss.evalSpherical s r θ φ r0 rss = .ok f ∧
      let K := ∑ k ∈ pairs s, ‖coef s k.1 k.2‖ * (r0 / min r rss) ^ (k.1 + 2) * (min r rss / r) ^ 2
      |f.1| ≤ 2 * K ∧ |f.2.1| ≤ K ∧ |f.2.2| ≤ K := by
  have hs := Real.sin_pos_of_pos_of_lt_pi hθ.1 hθ.2
  have hb : ∀ k ∈ pairs s, 0 ≤ k.2 ∧ k.2 ≤ k.1 := fun k hk =>
    h.bounds ((Coefs.has_int s k.1 k.2).1 ((mem_pairs s k).1 hk))
  have hrp : 0 < r := h0.trans_le hr0
  have key : ∀ r', r0 ≤ r' → r' ≤ rss → let K := ∑ k ∈ pairs s, ‖coef s k.1 k.2‖ * (r0 / r') ^ (k.1 + 2)
      |Pfss.fR s r0 rss r' θ φ| ≤ 2 * K ∧ |Pfss.fP s r0 rss r' θ φ| ≤ K ∧ |Pfss.fA s r0 rss r' θ φ| ≤ K := by
    intro r' h1 h2
    have hr' : 0 < r' := h0.trans_le h1
    refine ⟨?_, ?_, ?_⟩
    · rw [mul_sum]
      refine (abs_sum_le_sum_abs _ _).trans (sum_le_sum fun k hk => ?_)
      obtain ⟨a1, -, -⟩ := rL_le ((hb k hk).1.trans (hb k hk).2) h0 h1 h2
      rw [abs_neg, abs_mul, abs_mul]
      calc _ ≤ 2 * (r0 / r') ^ (k.1 + 2) * 1 * ‖coef s k.1 k.2‖ := by
            gcongr
            · exact tv_le (hb k hk) hs.le
            · exact (phi_le _ _ _).1
        _ = _ := by ring
    · refine (abs_sum_le_sum_abs _ _).trans (sum_le_sum fun k hk => ?_)
      obtain ⟨-, -, x, ex, hx⟩ := rL_le ((hb k hk).1.trans (hb k hk).2) h0 h1 h2
      have e : (Pfss.rL k.1 r' r0 rss).1 * Pfss.td θ k * (Pfss.phiLm k.2 (coef s k.1 k.2).re (coef s k.1 k.2).im φ).1 / r'
          = x * Pfss.td θ k * (Pfss.phiLm k.2 (coef s k.1 k.2).re (coef s k.1 k.2).im φ).1 := by
        rw [ex]; field_simp
      rw [abs_neg, e, abs_mul, abs_mul]
      have hk1 : (0 : ℝ) ≤ k.1 + 1 := by
        have : (0 : ℝ) ≤ k.1 := by exact_mod_cast (hb k hk).1.trans (hb k hk).2
        linarith
      calc _ ≤ |x| * ((k.1 : ℝ) + 1) * ‖coef s k.1 k.2‖ := by
            gcongr
            · exact (td_le (hb k hk) hs).1
            · exact (phi_le _ _ _).1
        _ ≤ (r0 / r') ^ (k.1 + 2) * ‖coef s k.1 k.2‖ := by gcongr
        _ = _ := by ring
    · refine (abs_sum_le_sum_abs _ _).trans (sum_le_sum fun k hk => ?_)
      obtain ⟨-, -, x, ex, hx⟩ := rL_le ((hb k hk).1.trans (hb k hk).2) h0 h1 h2
      obtain ⟨-, y, ey, hy⟩ := phi_le k.2 (coef s k.1 k.2) φ
      have e : (Pfss.rL k.1 r' r0 rss).1 * Pfss.tv θ k * (Pfss.phiLm k.2 (coef s k.1 k.2).re (coef s k.1 k.2).im φ).2
          / (r' * Real.sin θ) = x * (k.2 * Pfss.tv θ k / Real.sin θ) * y := by
        rw [ex, ey]; field_simp
      rw [abs_neg, e, abs_mul, abs_mul]
      have hk1 : (0 : ℝ) ≤ k.1 + 1 := by
        have : (0 : ℝ) ≤ k.1 := by exact_mod_cast (hb k hk).1.trans (hb k hk).2
        linarith
      calc _ ≤ |x| * ((k.1 : ℝ) + 1) * ‖coef s k.1 k.2‖ := by
            gcongr
            exact (td_le (hb k hk) hs).2
        _ ≤ (r0 / r') ^ (k.1 + 2) * ‖coef s k.1 k.2‖ := by gcongr
        _ = _ := by ring
  refine ⟨_, Pfss.evalSpherical_eq h hr r θ φ, ?_⟩
  rw [if_neg (not_lt.2 hr0)]
  split_ifs with h2
  · obtain ⟨k1, k2, k3⟩ := key rss hr.le le_rfl
    rw [min_eq_right h2.le]
    have hq : 0 ≤ (rss / r) ^ 2 := sq_nonneg _
    simp only [abs_mul, abs_of_nonneg hq, ← sum_mul]
    refine ⟨?_, ?_, ?_⟩
    · rw [← mul_assoc]; gcongr
    · gcongr
    · gcongr
  · obtain ⟨k1, k2, k3⟩ := key r hr0 (not_lt.1 h2)
    rw [min_eq_left (not_lt.1 h2)]
    simp only [div_self hrp.ne', one_pow, mul_one]
    exact ⟨k1, k2, k3⟩

/-! ### Cases -/

private noncomputable def exSized : Coefs ℂ := ⟨[0], .cplx, [((1, 0), [2])], 1, 0⟩

private theorem exSized_radial : RadialSet exSized := by
  have hr : Reach exSized := by
    refine Reach.append (s := Coefs.new [0] .cplx) (.int 1) (.int 0) [2] ?_ rfl
    exact Reach.new _ _ (by simp)
  refine ⟨wellFormed_of_WF hr.WF, rfl, ⟨1, 0, rfl⟩, fun l m hm => ?_⟩
  have := (Coefs.has_int exSized l m).1 hm
  simp only [Coefs.keys, exSized, List.map_cons, List.map_nil, List.mem_singleton, Prod.mk.injEq] at this
  omega

/-- A dipole of strength two: the components at the surface are at most four, two and two. -/
example {θ : ℝ} (hθ : OffAxis θ) (φ : ℝ) :
    ∃ f, Pfss.evalSpherical exSized 1 θ φ 1 3 = .ok f ∧ |f.1| ≤ 4 ∧ |f.2.1| ≤ 2 ∧ |f.2.2| ≤ 2 := by
  obtain ⟨f, e, h⟩ := C114_pfss exSized_radial (r0 := 1) (rss := 3) (r := 1) (φ := φ) one_pos (by norm_num) le_rfl hθ
  have ep : pairs exSized = {(1, 0)} := by simp [pairs_eq, Coefs.keys, exSized]
  have ec : coef exSized 1 0 = 2 := rfl
  rw [ep, sum_singleton, ec] at h
  norm_num at h
  exact ⟨f, e, h⟩

/-- A magnetogram with a dipole and a quadrupole. -/
example {θ : ℝ} (hθ : OffAxis θ) (φ : ℝ) : ∃ v, Zdi.strength [⟨1, 0, 1, 1, 0⟩, ⟨2, 1, 0, 1, 1⟩] θ φ = .ok v ∧
    v ≤ Real.sqrt 7 * (3 / (2 * Real.sqrt Real.pi)) := by
  obtain ⟨v, e, h⟩ := C114_strength (z := [⟨1, 0, 1, 1, 0⟩, ⟨2, 1, 0, 1, 1⟩]) (L := 2)
    ⟨by simp, by simp⟩ (by simp) (by simp) hθ φ
  norm_num at h
  exact ⟨v, e, h⟩

end Verif
