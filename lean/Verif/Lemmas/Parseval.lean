import Verif.Lemmas.LegendreInt
import Verif.Lemmas.Zdi
import Mathlib.Analysis.SpecialFunctions.Integrals.Basic

/-!
# Lemmas for the energy integral: orthogonality in azimuth and on the sphere
-/

namespace Verif
namespace Parseval
open Zdi Legendre intervalIntegral

@[fun_prop]
theorem continuous_expi (m : ℤ) : Continuous (expi m) := by unfold expi; fun_prop

theorem expi_add (m n : ℤ) (φ : ℝ) : expi m φ * expi n φ = expi (m + n) φ := by
  rw [expi, expi, expi, ← Complex.exp_add]; congr 1; push_cast; ring

theorem conj_expi (m : ℤ) (φ : ℝ) : (starRingEnd ℂ) (expi m φ) = expi (-m) φ := by
  rw [expi, expi, ← Complex.exp_conj]; congr 1; simp

theorem integral_expi (k : ℤ) :
    ∫ φ in (0 : ℝ)..2 * Real.pi, expi k φ = if k = 0 then (2 * Real.pi : ℂ) else 0 := by
  split_ifs with h
  · subst h; simp [expi]
  · have hc : (Complex.I * k : ℂ) ≠ 0 := mul_ne_zero Complex.I_ne_zero (by exact_mod_cast h)
    have := integral_exp_mul_complex (a := 0) (b := 2 * Real.pi) hc
    simp only [expi]
    rw [this]
    have e : Complex.exp (Complex.I * k * ((2 * Real.pi : ℝ) : ℂ)) = 1 := by
      rw [← Complex.exp_int_mul_two_pi_mul_I k]; congr 1; push_cast; ring
    rw [e]; simp

theorem integral_re_expi (k : ℤ) (c : ℂ) :
    ∫ φ in (0 : ℝ)..2 * Real.pi, (c * expi k φ).re = if k = 0 then 2 * Real.pi * c.re else 0 := by
  have h := Complex.reCLM.intervalIntegral_comp_comm (μ := MeasureTheory.volume) (a := 0) (b := 2 * Real.pi)
    (f := fun φ => c * expi k φ) (Continuous.intervalIntegrable (by fun_prop) _ _)
  simp only [Complex.reCLM_apply] at h
  rw [h, integral_const_mul, integral_expi]
  split_ifs <;> simp [mul_comm]

/-- The azimuthal inner product of two harmonics of the same order. -/
noncomputable def A (m : ℤ) (x y : ℂ) : ℝ :=
  Real.pi * ((x * (starRingEnd ℂ) y).re + if m = 0 then (x * y).re else 0)

theorem phi_pair {m n : ℤ} (hm : 0 ≤ m) (hn : 0 ≤ n) (x y : ℂ) :
    ∫ φ in (0 : ℝ)..2 * Real.pi, (x * expi m φ).re * (y * expi n φ).re = if m = n then A m x y else 0 := by
  have e : ∀ φ, (x * expi m φ).re * (y * expi n φ).re
      = (1 / 2) * ((x * y) * expi (m + n) φ).re + (1 / 2) * ((x * (starRingEnd ℂ) y) * expi (m - n) φ).re := by
    intro φ
    rw [sub_eq_add_neg, ← expi_add, ← expi_add, ← conj_expi]
    generalize expi m φ = E
    generalize expi n φ = F
    simp only [Complex.mul_re, Complex.mul_im, Complex.conj_re, Complex.conj_im]
    ring
  simp only [e]
  rw [integral_add (Continuous.intervalIntegrable (by fun_prop) _ _)
    (Continuous.intervalIntegrable (by fun_prop) _ _), integral_const_mul, integral_const_mul,
    integral_re_expi, integral_re_expi]
  by_cases h : m = n
  · subst h
    rw [sub_self, if_pos rfl, if_pos rfl, A]
    by_cases h0 : m = 0
    · subst h0; simp; ring
    · rw [if_neg (by omega), if_neg h0]; ring
  · rw [if_neg (by omega), if_neg (by omega), if_neg h]; ring

theorem A_real (m : ℤ) (x y : ℂ) (p q : ℝ) : A m (x * p) (y * q) = A m x y * (p * q) := by
  simp only [A, Complex.mul_re, Complex.mul_im, Complex.conj_re, Complex.conj_im, Complex.ofReal_re,
    Complex.ofReal_im]
  split_ifs <;> ring

theorem A_I_I (m : ℤ) (x y : ℂ) : A m (Complex.I * m * x) (Complex.I * m * y) = (m : ℝ) ^ 2 * A m x y := by
  by_cases h : m = 0
  · subst h; simp [A]
  · simp only [A, if_neg h, Complex.mul_re, Complex.mul_im, Complex.conj_re, Complex.conj_im, Complex.I_re,
      Complex.I_im, Complex.intCast_re, Complex.intCast_im]
    ring

theorem A_I_left (m : ℤ) (x y : ℂ) :
    A m (Complex.I * m * x) y = -(Real.pi * (x * (starRingEnd ℂ) y).im) * m := by
  by_cases h : m = 0
  · subst h; simp [A]
  · simp only [A, if_neg h, Complex.mul_re, Complex.mul_im, Complex.conj_re, Complex.conj_im, Complex.I_re,
      Complex.I_im, Complex.intCast_re, Complex.intCast_im]
    ring

theorem A_I_right (m : ℤ) (x y : ℂ) :
    A m x (Complex.I * m * y) = Real.pi * (x * (starRingEnd ℂ) y).im * m := by
  by_cases h : m = 0
  · subst h; simp [A]
  · simp only [A, if_neg h, Complex.mul_re, Complex.mul_im, Complex.conj_re, Complex.conj_im, Complex.I_re,
      Complex.I_im, Complex.intCast_re, Complex.intCast_im]
    ring

variable {ι : Type} [Fintype ι]

/-- A sum of azimuthal harmonics with coefficients `x`. -/
noncomputable def Hs (m : ι → ℕ) (x : ι → ℂ) (φ : ℝ) : ℝ := (∑ i, x i * expi (m i) φ).re

@[fun_prop]
theorem continuous_Hs (m : ι → ℕ) (x : ι → ℂ) : Continuous (Hs m x) := by
  unfold Hs; fun_prop

theorem phi_sum (m : ι → ℕ) (x y : ι → ℂ) :
    ∫ φ in (0 : ℝ)..2 * Real.pi, Hs m x φ * Hs m y φ
      = ∑ i, ∑ j, if m i = m j then A (m i) (x i) (y j) else 0 := by
  have e : ∀ φ, Hs m x φ * Hs m y φ
      = ∑ i, ∑ j, (x i * expi (m i) φ).re * (y j * expi (m j) φ).re := by
    intro φ
    rw [Hs, Hs, Complex.re_sum, Complex.re_sum, Finset.sum_mul_sum]
  simp only [e]
  rw [integral_finset_sum fun i _ => Continuous.intervalIntegrable (by fun_prop) _ _]
  refine Finset.sum_congr rfl fun i _ => ?_
  rw [integral_finset_sum fun j _ => Continuous.intervalIntegrable (by fun_prop) _ _]
  refine Finset.sum_congr rfl fun j _ => ?_
  rw [phi_pair (by positivity) (by positivity)]
  simp only [Nat.cast_inj]

/-- Integrating a double sum over the polar angle. -/
theorem theta_sum (m l : ι → ℕ) (K : ι → ι → ℝ) (F : ℕ → ℕ → ℕ → ℝ → ℝ) (hF : ∀ m l l', Continuous (F m l l')) :
    ∫ θ in (0 : ℝ)..Real.pi, (∑ i, ∑ j, if m i = m j then K i j * F (m i) (l i) (l j) θ else 0)
      = ∑ i, ∑ j, if m i = m j then K i j * ∫ θ in (0 : ℝ)..Real.pi, F (m i) (l i) (l j) θ else 0 := by
  have hc : ∀ i j, Continuous fun θ => if m i = m j then K i j * F (m i) (l i) (l j) θ else 0 := by
    intro i j
    have := hF (m i) (l i) (l j)
    split_ifs <;> fun_prop
  rw [integral_finset_sum fun i _ => (continuous_finsetSum _ fun j _ => hc i j).intervalIntegrable _ _]
  refine Finset.sum_congr rfl fun i _ => ?_
  rw [integral_finset_sum fun j _ => (hc i j).intervalIntegrable _ _]
  refine Finset.sum_congr rfl fun j _ => ?_
  split_ifs
  · rw [integral_const_mul]
  · simp

theorem theta_cont (m l : ι → ℕ) (K : ι → ι → ℝ) (F : ℕ → ℕ → ℕ → ℝ → ℝ) (hF : ∀ m l l', Continuous (F m l l')) :
    Continuous fun θ => (∑ i, ∑ j, if m i = m j then K i j * F (m i) (l i) (l j) θ else 0) := by
  refine continuous_finsetSum _ fun i _ => continuous_finsetSum _ fun j _ => ?_
  have := hF (m i) (l i) (l j)
  split_ifs <;> fun_prop

/-- The three kernels. -/
noncomputable def F1 (m l l' : ℕ) (θ : ℝ) : ℝ := thP l m θ * thP l' m θ * Real.sin θ
noncomputable def F2 (m l l' : ℕ) (θ : ℝ) : ℝ :=
  thD l m θ * thD l' m θ * Real.sin θ + (m : ℝ) ^ 2 / Real.sin θ ^ 2 * (thP l m θ * thP l' m θ) * Real.sin θ
noncomputable def F3 (m l l' : ℕ) (θ : ℝ) : ℝ := (m : ℝ) * (thD l m θ * thP l' m θ + thP l m θ * thD l' m θ)

theorem F1_cont (m l l' : ℕ) : Continuous (F1 m l l') := by unfold F1; fun_prop
theorem F2_cont (m l l' : ℕ) : Continuous (F2 m l l') := by
  have := continuous_thP_div_sin m l l'
  unfold F2
  fun_prop
theorem F3_cont (m l l' : ℕ) : Continuous (F3 m l l') := by unfold F3; fun_prop

/-- The squared norm of an associated Legendre function. -/
noncomputable def N (l m : ℕ) : ℝ := 2 / (2 * l + 1) * ((l + m).factorial : ℝ) / ((l - m).factorial : ℝ)

theorem diag (m l : ι → ℕ) (hinj : ∀ i j, m i = m j → l i = l j → i = j) (hle : ∀ i, m i ≤ l i)
    (K : ι → ι → ℝ) (c : ℕ → ℝ) :
    (∑ i, ∑ j, if m i = m j then K i j * (c (l i) * ∫ θ in (0 : ℝ)..Real.pi, F1 (m i) (l i) (l j) θ) else 0)
      = ∑ i, K i i * (c (l i) * N (l i) (m i)) := by
  refine Finset.sum_congr rfl fun i _ => ?_
  rw [Finset.sum_eq_single i]
  · rw [if_pos rfl]; simp only [F1]; rw [integral_thP_self (hle i), N]
  · intro j _ hj
    split_ifs with h
    · simp only [F1]
      rw [integral_thP_ne _ (fun e => hj (hinj i j h e).symm)]; ring
    · rfl
  · intro h; exact absurd (Finset.mem_univ i) h

/-- The radial part. -/
theorem radial_int (m l : ι → ℕ) (hinj : ∀ i j, m i = m j → l i = l j → i = j) (hle : ∀ i, m i ≤ l i)
    (a : ι → ℂ) :
    ∫ θ in (0 : ℝ)..Real.pi, (∫ φ in (0 : ℝ)..2 * Real.pi,
        Hs m (fun i => a i * thP (l i) (m i) θ) φ * Hs m (fun i => a i * thP (l i) (m i) θ) φ) * Real.sin θ
      = ∑ i, A (m i) (a i) (a i) * N (l i) (m i) := by
  have h := theta_sum m l (fun i j => A (m i) (a i) (a j)) F1 F1_cont
  have e := diag m l hinj hle (fun i j => A (m i) (a i) (a j)) (fun _ => 1)
  simp only [one_mul] at e
  rw [← e, ← h]
  congr 1
  ext θ
  rw [phi_sum, Finset.sum_mul]
  refine Finset.sum_congr rfl fun i _ => ?_
  rw [Finset.sum_mul]
  refine Finset.sum_congr rfl fun j _ => ?_
  split_ifs with hm
  · rw [A_real, F1, ← hm]; ring
  · ring

/-- The tangential part: the integrand after the azimuthal integration. -/
theorem tangential_phi (m l : ι → ℕ) (u v : ι → ℂ) {θ : ℝ} (hs : 0 < Real.sin θ) :
    (∫ φ in (0 : ℝ)..2 * Real.pi,
      ((-Hs m (fun i => u i * thD (l i) (m i) θ) φ
          + Hs m (fun i => Complex.I * (m i : ℤ) * v i * thP (l i) (m i) θ) φ / Real.sin θ) ^ 2
        + (-(Hs m (fun i => Complex.I * (m i : ℤ) * u i * thP (l i) (m i) θ) φ / Real.sin θ)
          + -Hs m (fun i => v i * thD (l i) (m i) θ) φ) ^ 2)) * Real.sin θ
    = (∑ i, ∑ j, if m i = m j then A (m i) (u i) (u j) * F2 (m i) (l i) (l j) θ else 0)
      + (∑ i, ∑ j, if m i = m j then A (m i) (v i) (v j) * F2 (m i) (l i) (l j) θ else 0)
      + ∑ i, ∑ j, if m i = m j then
          (-(2 * Real.pi * (u i * (starRingEnd ℂ) (v j)).im)) * F3 (m i) (l i) (l j) θ else 0 := by
  set s := Real.sin θ with hsd
  have e : ∀ φ, ((-Hs m (fun i => u i * thD (l i) (m i) θ) φ
          + Hs m (fun i => Complex.I * (m i : ℤ) * v i * thP (l i) (m i) θ) φ / s) ^ 2
        + (-(Hs m (fun i => Complex.I * (m i : ℤ) * u i * thP (l i) (m i) θ) φ / s)
          + -Hs m (fun i => v i * thD (l i) (m i) θ) φ) ^ 2)
      = ((Hs m (fun i => u i * thD (l i) (m i) θ) φ * Hs m (fun i => u i * thD (l i) (m i) θ) φ
        + (1 / s ^ 2) * (Hs m (fun i => Complex.I * (m i : ℤ) * u i * thP (l i) (m i) θ) φ
            * Hs m (fun i => Complex.I * (m i : ℤ) * u i * thP (l i) (m i) θ) φ))
        + (Hs m (fun i => v i * thD (l i) (m i) θ) φ * Hs m (fun i => v i * thD (l i) (m i) θ) φ
        + (1 / s ^ 2) * (Hs m (fun i => Complex.I * (m i : ℤ) * v i * thP (l i) (m i) θ) φ
            * Hs m (fun i => Complex.I * (m i : ℤ) * v i * thP (l i) (m i) θ) φ)))
        + ((2 / s) * (Hs m (fun i => Complex.I * (m i : ℤ) * u i * thP (l i) (m i) θ) φ
            * Hs m (fun i => v i * thD (l i) (m i) θ) φ)
        + (-(2 / s)) * (Hs m (fun i => u i * thD (l i) (m i) θ) φ
            * Hs m (fun i => Complex.I * (m i : ℤ) * v i * thP (l i) (m i) θ) φ)) := by
    intro φ
    field_simp
    ring
  simp only [e]
  rw [integral_add, integral_add, integral_add, integral_add, integral_add, integral_const_mul,
    integral_const_mul, integral_const_mul, integral_const_mul, phi_sum, phi_sum, phi_sum, phi_sum, phi_sum,
    phi_sum]
  · simp only [A_real]
    simp only [add_mul, Finset.mul_sum, Finset.sum_mul, ← Finset.sum_add_distrib]
    refine Finset.sum_congr rfl fun i _ => Finset.sum_congr rfl fun j _ => ?_
    split_ifs with hm
    · rw [F2, F3, ← hm, ← hsd]
      simp only [A_I_I]
      simp only [A_I_left, A_I_right]
      field_simp
      push_cast
      ring
    · ring
  all_goals exact Continuous.intervalIntegrable (by fun_prop) _ _

/-- The tangential part. -/
theorem tangential_int (m l : ι → ℕ) (hinj : ∀ i j, m i = m j → l i = l j → i = j) (hle : ∀ i, m i ≤ l i)
    (u v : ι → ℂ) :
    ∫ θ in (0 : ℝ)..Real.pi,
      ((∑ i, ∑ j, if m i = m j then A (m i) (u i) (u j) * F2 (m i) (l i) (l j) θ else 0)
      + (∑ i, ∑ j, if m i = m j then A (m i) (v i) (v j) * F2 (m i) (l i) (l j) θ else 0)
      + ∑ i, ∑ j, if m i = m j then
          (-(2 * Real.pi * (u i * (starRingEnd ℂ) (v j)).im)) * F3 (m i) (l i) (l j) θ else 0)
    = ∑ i, (A (m i) (u i) (u i) + A (m i) (v i) (v i)) * (l i * (l i + 1) * N (l i) (m i)) := by
  have i1 := (theta_cont m l (fun i j => A (m i) (u i) (u j)) F2 F2_cont).intervalIntegrable 
    (μ := MeasureTheory.volume) 0 Real.pi
  have i2 := (theta_cont m l (fun i j => A (m i) (v i) (v j)) F2 F2_cont).intervalIntegrable 
    (μ := MeasureTheory.volume) 0 Real.pi
  have i3 := (theta_cont m l (fun i j => -(2 * Real.pi * (u i * (starRingEnd ℂ) (v j)).im)) F3 
    F3_cont).intervalIntegrable (μ := MeasureTheory.volume) 0 Real.pi
  rw [integral_add (i1.add i2) i3, integral_add i1 i2,
    theta_sum m l (fun i j => A (m i) (u i) (u j)) F2 F2_cont,
    theta_sum m l (fun i j => A (m i) (v i) (v j)) F2 F2_cont,
    theta_sum m l (fun i j => -(2 * Real.pi * (u i * (starRingEnd ℂ) (v j)).im)) F3 F3_cont]
  have h2 : ∀ m l l' : ℕ, ∫ θ in (0 : ℝ)..Real.pi, F2 m l l' θ
      = ((l : ℝ) * (l + 1)) * ∫ θ in (0 : ℝ)..Real.pi, F1 m l l' θ := fun m l l' => integral_thD m l l'
  have h3 : ∀ m l l' : ℕ, ∫ θ in (0 : ℝ)..Real.pi, F3 m l l' θ = 0 := fun m l l' => integral_cross m l l'
  simp only [h2, h3, mul_zero, ite_self, Finset.sum_const_zero, add_zero]
  rw [diag m l hinj hle (fun i j => A (m i) (u i) (u j)) (fun l => (l : ℝ) * (l + 1)),
    diag m l hinj hle (fun i j => A (m i) (v i) (v j)) (fun l => (l : ℝ) * (l + 1)), ← Finset.sum_add_distrib]
  refine Finset.sum_congr rfl fun i _ => ?_
  ring

end Parseval
end Verif
