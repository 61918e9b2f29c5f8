import Verif.Props.Pfss
import Verif.Lemmas.SolidHarmonic
import Mathlib.Analysis.Calculus.Deriv.Polynomial
import Mathlib.Analysis.Calculus.ContDiff.Polynomial

/-!
# The potential of a coefficient set as a function of cartesian coordinates
-/

namespace Verif
namespace Shell
open Spec Legendre Coefs Pfss Filter Topology InnerProductSpace

private theorem mem_pairs_bounds {s : Coefs ℂ} (h : RadialSet s) {k : ℤ × ℤ} (hk : k ∈ pairs s) :
    0 ≤ k.2 ∧ k.2 ≤ k.1 := h.bounds (by rwa [pairs_eq, List.mem_toFinset] at hk)

/-- The point with given spherical coordinates. -/
noncomputable def point (r θ φ : ℝ) : E3 :=
  (r * Real.sin θ * Real.cos φ) • EuclideanSpace.single 0 1 + (r * Real.sin θ * Real.sin φ) • EuclideanSpace.single 1 1
    + (r * Real.cos θ) • EuclideanSpace.single 2 1

theorem point_zero (r θ φ : ℝ) : point r θ φ 0 = r * Real.sin θ * Real.cos φ := by simp [point]
theorem point_one (r θ φ : ℝ) : point r θ φ 1 = r * Real.sin θ * Real.sin φ := by simp [point]
theorem point_two (r θ φ : ℝ) : point r θ φ 2 = r * Real.cos θ := by simp [point]

theorem normSq_eq (x : E3) : ‖x‖ ^ 2 = x 0 ^ 2 + x 1 ^ 2 + x 2 ^ 2 := by
  rw [EuclideanSpace.norm_sq_eq, Fin.sum_univ_three]; simp

theorem norm_point {r : ℝ} (hr : 0 ≤ r) (θ φ : ℝ) : ‖point r θ φ‖ = r := by
  have h : ‖point r θ φ‖ ^ 2 = r ^ 2 := by
    rw [normSq_eq, point_zero, point_one, point_two]
    have a := Real.sin_sq_add_cos_sq θ
    have b := Real.sin_sq_add_cos_sq φ
    linear_combination r ^ 2 * Real.sin θ ^ 2 * b + r ^ 2 * a
  exact (pow_left_inj₀ (norm_nonneg _) hr two_ne_zero).1 h

/-- The radial function divided by a power of the radius. -/
noncomputable def gRad (A B : ℝ) (m j : ℕ) (r : ℝ) : ℝ := A * r⁻¹ ^ (j + 2 * m + 1) + B * r ^ j

noncomputable def gRad1 (A B : ℝ) (m j : ℕ) (r : ℝ) : ℝ :=
  A * -((j + 2 * m + 1) * r⁻¹ ^ (j + 2 * m + 2)) + B * (j * r ^ (j - 1))

noncomputable def gRad2 (A B : ℝ) (m j : ℕ) (r : ℝ) : ℝ :=
  A * ((j + 2 * m + 1) * ((j + 2 * m + 2) * r⁻¹ ^ (j + 2 * m + 3))) + B * (j * (((j - 1 : ℕ) : ℝ) * r ^ (j - 1 - 1)))

private theorem inv_pow_deriv (n : ℕ) {r : ℝ} (hr : 0 < r) :
    HasDerivAt (fun t : ℝ => t⁻¹ ^ (n + 1)) (-((n + 1) * r⁻¹ ^ (n + 2))) r := by
  refine ((hasDerivAt_inv hr.ne').pow (n + 1)).congr_deriv ?_
  rw [Nat.add_sub_cancel, inv_pow, inv_pow]
  push_cast
  rw [pow_add r n 2]
  field_simp

theorem gRad_deriv (A B : ℝ) (m j : ℕ) (r : ℝ) (hr : 0 < r) : HasDerivAt (gRad A B m j) (gRad1 A B m j r) r := by
  refine (((inv_pow_deriv (j + 2 * m) hr).const_mul A).add ((hasDerivAt_pow j r).const_mul B)).congr_deriv ?_
  simp only [gRad1]; push_cast; ring

theorem gRad1_deriv (A B : ℝ) (m j : ℕ) (r : ℝ) (hr : 0 < r) : HasDerivAt (gRad1 A B m j) (gRad2 A B m j r) r := by
  refine ((((inv_pow_deriv (j + 2 * m + 1) hr).const_mul ((j : ℝ) + 2 * m + 1)).neg.const_mul A).add
    (((hasDerivAt_pow (j - 1) r).const_mul (j : ℝ)).const_mul B)).congr_deriv ?_
  simp only [gRad2]; push_cast; ring

theorem gRad_contDiff {n : WithTop ℕ∞} (A B : ℝ) (m j : ℕ) (r : ℝ) (hr : 0 < r) : ContDiffAt ℝ n (gRad A B m j) r :=
  (contDiffAt_const.mul (((contDiffAt_id (x := r)).inv hr.ne').pow _)).add (contDiffAt_const.mul (contDiffAt_id.pow _))

theorem gRad_ode (A B : ℝ) (m j : ℕ) (r : ℝ) (hr : 0 < r) :
    r ^ 2 * gRad2 A B m j r + 2 * (m + 1) * r * gRad1 A B m j r = ((j : ℝ) * (j + 2 * m + 1)) * gRad A B m j r := by
  have e1 : r ^ 2 * r⁻¹ ^ (j + 2 * m + 3) = r⁻¹ ^ (j + 2 * m + 1) := by
    rw [pow_add r⁻¹ (j + 2 * m + 1) 2]; field_simp
  have e2 : r * r⁻¹ ^ (j + 2 * m + 2) = r⁻¹ ^ (j + 2 * m + 1) := by
    rw [pow_add r⁻¹ (j + 2 * m + 1) 1]; field_simp
  have e3 : r * ((j : ℝ) * r ^ (j - 1)) = j * r ^ j := by
    cases j with
    | zero => simp
    | succ n => rw [Nat.add_sub_cancel, pow_succ]; ring
  have e4 : r ^ 2 * ((j : ℝ) * (((j - 1 : ℕ) : ℝ) * r ^ (j - 1 - 1))) = j * (j - 1) * r ^ j := by
    rcases j with _ | _ | n
    · simp
    · simp
    · simp only [Nat.add_sub_cancel]
      push_cast
      ring
  simp only [gRad, gRad1, gRad2]
  linear_combination A * (j + 2 * m + 1) * (j + 2 * m + 2) * e1 - 2 * (m + 1) * A * (j + 2 * m + 1) * e2
    + 2 * (m + 1) * B * e3 + B * e4

/-- One term of the potential. -/
noncomputable def term (s : Coefs ℂ) (r0 rss : ℝ) (k : ℤ × ℤ) (x : E3) : ℝ :=
  ((starRingEnd ℂ) (coef s k.1 k.2) * solid k.2.toNat
    (gRad (r0 ^ (k.1.toNat + 2) / (k.1.toNat + 1 + k.1.toNat * (r0 / rss) ^ (2 * k.1.toNat + 1)))
      (-(r0 ^ (k.1.toNat + 2) / (k.1.toNat + 1 + k.1.toNat * (r0 / rss) ^ (2 * k.1.toNat + 1)) / rss ^ (2 * k.1.toNat + 1)))
      k.2.toNat (k.1.toNat - k.2.toNat))
    (fun u => thetaScale k.1 k.2 * rodNorm k.1.toNat k.2.toNat * (rod k.1.toNat (k.1.toNat + k.2.toNat)).eval u) x).re

/-- The potential of a coefficient set. -/
noncomputable def pot (s : Coefs ℂ) (r0 rss : ℝ) (x : E3) : ℝ := ∑ k ∈ pairs s, term s r0 rss k x

private theorem harmonicAt_term (s : Coefs ℂ) (r0 rss : ℝ) {k : ℤ × ℤ} (h0 : 0 ≤ k.2) (h1 : k.2 ≤ k.1) {x : E3}
    (hx : x ≠ 0) : HarmonicAt (term s r0 rss k) x := by
  obtain ⟨l, m⟩ := k
  simp only at h0 h1
  obtain ⟨M, rfl⟩ := Int.eq_ofNat_of_zero_le h0
  obtain ⟨L, rfl⟩ := Int.eq_ofNat_of_zero_le (le_trans h0 h1)
  have hLM : M ≤ L := by exact_mod_cast h1
  set C := thetaScale (L : ℤ) (M : ℤ) * rodNorm L M with hC
  have hpd : ∀ n u, HasDerivAt (fun u => C * (rod L n).eval u) (C * (rod L (n + 1)).eval u) u := fun n u => by
    rw [rod_succ]; exact ((rod L n).hasDerivAt u).const_mul C
  have hc : ContDiff ℝ 2 fun u => C * (rod L (L + M)).eval u := by
    have h := (rod L (L + M)).contDiff_aeval (𝕜 := ℝ) 2
    simp only [Polynomial.coe_aeval_eq_eval] at h
    exact contDiff_const.mul h
  have h := harmonicAt_solid (m := M) (lam := ((L - M : ℕ) : ℝ) * ((L - M : ℕ) + 2 * M + 1))
    (gRad_deriv (r0 ^ (L + 2) / (L + 1 + L * (r0 / rss) ^ (2 * L + 1)))
      (-(r0 ^ (L + 2) / (L + 1 + L * (r0 / rss) ^ (2 * L + 1)) / rss ^ (2 * L + 1))) M (L - M)) (gRad1_deriv _ _ _ _)
    (gRad_contDiff _ _ _ _) (hpd (L + M)) (hpd (L + M + 1)) hc (gRad_ode _ _ _ _) (fun u => by
      have := rod_order L M u
      rw [Nat.cast_sub hLM]
      linear_combination C * this) hx
  have h2 := h.comp_CLM (Complex.reCLM.comp (ContinuousLinearMap.restrictScalars ℝ
    (ContinuousLinearMap.mul ℂ ℂ ((starRingEnd ℂ) (coef s L M)))))
  exact h2

/-- The potential is smooth away from the origin. -/
theorem contDiffAt_pot (s : Coefs ℂ) (r0 rss : ℝ) {n : WithTop ℕ∞} {x : E3} (hx : x ≠ 0) :
    ContDiffAt ℝ n (pot s r0 rss) x := by
  refine ContDiffAt.sum fun k _ => ?_
  have hc : ContDiff ℝ n fun u => thetaScale k.1 k.2 * rodNorm k.1.toNat k.2.toNat
      * (rod k.1.toNat (k.1.toNat + k.2.toNat)).eval u := by
    have h := (rod k.1.toNat (k.1.toNat + k.2.toNat)).contDiff_aeval (𝕜 := ℝ) n
    simp only [Polynomial.coe_aeval_eq_eval] at h
    exact contDiff_const.mul h
  have h := contDiffAt_solid (m := k.2.toNat) (gRad_contDiff
    (r0 ^ (k.1.toNat + 2) / (k.1.toNat + 1 + k.1.toNat * (r0 / rss) ^ (2 * k.1.toNat + 1)))
    (-(r0 ^ (k.1.toNat + 2) / (k.1.toNat + 1 + k.1.toNat * (r0 / rss) ^ (2 * k.1.toNat + 1)) / rss ^ (2 * k.1.toNat + 1)))
    k.2.toNat (k.1.toNat - k.2.toNat)) hc hx
  exact Complex.reCLM.contDiff.contDiffAt.comp x (contDiffAt_const.mul h)

/-- The potential is harmonic away from the origin. -/
theorem harmonicAt_pot {s : Coefs ℂ} (h : RadialSet s) (r0 rss : ℝ) {x : E3} (hx : x ≠ 0) :
    HarmonicAt (pot s r0 rss) x := by
  have key : ∀ S : Finset (ℤ × ℤ), S ⊆ pairs s → HarmonicAt (fun x => ∑ k ∈ S, term s r0 rss k x) x := by
    intro S
    induction S using Finset.induction_on with
    | empty => intro _; simpa using harmonicAt_const (0 : ℝ)
    | insert k S hk ih =>
      intro hS
      have hb := mem_pairs_bounds h (hS (Finset.mem_insert_self k S))
      have := (harmonicAt_term s r0 rss hb.1 hb.2 hx).add (ih fun j hj => hS (Finset.mem_insert_of_mem hj))
      simp only [Finset.sum_insert hk]
      exact this
  exact key _ subset_rfl

theorem pot_point {s : Coefs ℂ} (h : RadialSet s) (r0 rss : ℝ) (hss : 0 < rss) {r θ : ℝ} (hr : 0 < r)
    (hθ : 0 ≤ Real.sin θ) (φ : ℝ) : pot s r0 rss (point r θ φ) = potential s r0 rss r θ φ := by
  rw [pot, potential]
  refine Finset.sum_congr rfl fun k hk => ?_
  have hb := mem_pairs_bounds h hk
  rw [schmidt_eq hb.1 hb.2, tv, legendreP_cos _ _ hθ, thP]
  obtain ⟨l, m⟩ := k
  simp only at hb ⊢
  obtain ⟨M, rfl⟩ := Int.eq_ofNat_of_zero_le hb.1
  obtain ⟨L, rfl⟩ := Int.eq_ofNat_of_zero_le (le_trans hb.1 hb.2)
  have hLM : M ≤ L := by exact_mod_cast hb.2
  simp only [term, solid, Int.toNat_natCast, norm_point hr.le, point_zero, point_one, point_two, Int.cast_natCast]
  rw [mul_div_cancel_left₀ _ hr.ne']
  have hz : (((r * Real.sin θ * Real.cos φ : ℝ) : ℂ) + ((r * Real.sin θ * Real.sin φ : ℝ) : ℂ) * Complex.I) ^ M
      = (((r * Real.sin θ) ^ M * Real.cos (M * φ) : ℝ) : ℂ) + (((r * Real.sin θ) ^ M * Real.sin (M * φ) : ℝ) : ℂ) * Complex.I := by
    have h1 : ((r * Real.sin θ * Real.cos φ : ℝ) : ℂ) + ((r * Real.sin θ * Real.sin φ : ℝ) : ℂ) * Complex.I
        = ((r * Real.sin θ : ℝ) : ℂ) * (Complex.cos φ + Complex.sin φ * Complex.I) := by push_cast; ring
    rw [h1, mul_pow, Complex.cos_add_sin_mul_I_pow]
    push_cast; ring
  rw [hz]
  have hg : ∀ A rs : ℝ, gRad A (-(A / rs)) M (L - M) r * r ^ M = A * (r⁻¹ ^ (L + 1) - r ^ L / rs) := by
    intro A rs
    have e1 : r⁻¹ ^ (L - M + 2 * M + 1) * r ^ M = r⁻¹ ^ (L + 1) := by
      rw [show L - M + 2 * M + 1 = L + 1 + M by omega, pow_add r⁻¹ (L + 1), mul_assoc, ← mul_pow, inv_mul_cancel₀ hr.ne',
        one_pow, mul_one]
    have e2 : r ^ (L - M) * r ^ M = r ^ L := by rw [← pow_add]; congr 1; omega
    simp only [gRad]
    linear_combination A * e1 - A / rs * e2
  have hR : radialFn L r0 rss r = r0 ^ (L + 2) / (L + 1 + L * (r0 / rss) ^ (2 * L + 1))
      * (r⁻¹ ^ (L + 1) - r ^ L / rss ^ (2 * L + 1)) := by
    rw [radialFn, div_pow r0 r, div_pow r rss, inv_pow]
    have e : r ^ (2 * L + 1) = r ^ (L + 1) * r ^ L := by rw [← pow_add]; congr 1; omega
    have hrn := hr.ne'
    have hsn := hss.ne'
    rw [e]
    generalize (L : ℝ) + 1 + L * (r0 / rss) ^ (2 * L + 1) = D
    rw [pow_succ r0 (L + 1)]
    by_cases hD : D = 0
    · simp [hD]
    · field_simp
  have hre : ∀ (c : ℂ) (a b G : ℝ), ((starRingEnd ℂ) c * (((a : ℂ) + (b : ℂ) * Complex.I) * (G : ℂ))).re
      = (c.re * a + c.im * b) * G := by
    intro c a b G
    simp [Complex.mul_re, Complex.mul_im]; ring
  rw [hre, hR, ← hg, mul_pow]
  ring

end Shell
end Verif
