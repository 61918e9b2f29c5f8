import Verif.Lemmas.Wigner
import Verif.Props.Rotate
import Verif.Props.Conversion
import Verif.Props.ImageLimit
import Mathlib.Algebra.Star.Unitary

/-!
# C69: rotating coefficients rotates the field
-/

namespace Verif
open Spec Coefs Rotate Wigner Quaternion Zdi Converter

namespace Spec

/-- The point of the unit sphere with these coordinates, as a quaternion. -/
noncomputable def dirQ (θ φ : ℝ) : ℍ[ℝ] := ⟨0, Real.sin θ * Real.cos φ, Real.sin θ * Real.sin φ, Real.cos θ⟩

/-- The rotation `R` moves the point `(θ, φ)` to the point `(θ', φ')`. -/
def Moves (R : ℍ[ℝ]) (θ φ θ' φ' : ℝ) : Prop := R * dirQ θ φ * star R = dirQ θ' φ'

end Spec

namespace Wigner

/-- The sum over the orders, counted from below. -/
theorem sum_shift (l : ℕ) (f : ℕ → ℂ) :
    ∑ j ∈ Finset.range (2 * l + 1), f j = ∑ k ∈ Finset.Icc (-(l : ℤ)) l, f ((l : ℤ) + k).toNat := by
  refine Finset.sum_bij' (fun j _ => (j : ℤ) - l) (fun k _ => ((l : ℤ) + k).toNat) ?_ ?_ ?_ ?_ ?_
  · intro j hj; rw [Finset.mem_range] at hj; rw [Finset.mem_Icc]; omega
  · intro k hk; rw [Finset.mem_Icc] at hk; rw [Finset.mem_range]; omega
  · intro j _; simp
  · intro k hk; rw [Finset.mem_Icc] at hk; omega
  · intro j _; congr 1; omega

theorem wignerD_eq (q : ℍ[ℝ]) {l : ℕ} {mp m : ℤ} (h1 : |mp| ≤ l) (h2 : |m| ≤ l) :
    wignerD q l mp m = E (2 * l) ((l : ℤ) + mp).toNat ((l : ℤ) + m).toNat (qa q) (-(starRingEnd ℂ) (qb q)) (qb q)
      ((starRingEnd ℂ) (qa q)) := by
  have a1 := abs_le.1 h1
  have a2 := abs_le.1 h2
  rw [wignerD, if_pos ⟨h1, h2⟩, E, show 2 * l - ((l : ℤ) + m).toNat = ((l : ℤ) - m).toNat by omega,
    show 2 * l - ((l : ℤ) + mp).toNat = ((l : ℤ) - mp).toNat by omega, form_coeff]
  congr 1
  set F : ℕ → ℂ := fun i => ((((l : ℤ) + mp).toNat.choose i : ℕ) : ℂ) * qa q ^ i * (-(starRingEnd ℂ) (qb q)) ^ (((l : ℤ) + mp).toNat - i)
      * (((((l : ℤ) - mp).toNat.choose (((l : ℤ) + m).toNat - i) : ℕ) : ℂ) * qb q ^ (((l : ℤ) + m).toNat - i)
        * (starRingEnd ℂ) (qa q) ^ (((l : ℤ) - mp).toNat - (((l : ℤ) + m).toNat - i))) with hF
  have hsub : (Finset.range (((l : ℤ) + m).toNat + 1)).filter (fun i => i ≤ ((l : ℤ) + mp).toNat ∧
      ((l : ℤ) + m).toNat - i ≤ ((l : ℤ) - mp).toNat) ⊆ Finset.range (((l : ℤ) + m).toNat + 1) := Finset.filter_subset _ _
  rw [← Finset.sum_subset hsub]
  · refine Finset.sum_bij' (fun ρ _ => ((l : ℤ) + mp - ρ).toNat) (fun i _ => (l : ℤ) + mp - i) ?_ ?_ ?_ ?_ ?_
    · intro ρ hρ
      rw [Finset.mem_Icc] at hρ
      rw [Finset.mem_filter, Finset.mem_range]
      omega
    · intro i hi
      rw [Finset.mem_filter, Finset.mem_range] at hi
      rw [Finset.mem_Icc]
      omega
    · intro ρ hρ; rw [Finset.mem_Icc] at hρ; omega
    · intro i hi; rw [Finset.mem_filter, Finset.mem_range] at hi; omega
    · intro ρ hρ
      rw [Finset.mem_Icc] at hρ
      have r0 : ((l : ℤ) + mp).toNat - ((l : ℤ) + mp - ρ).toNat = ρ.toNat := by omega
      have r1 : ((l : ℤ) + m).toNat - ((l : ℤ) + mp - ρ).toNat = (ρ - mp + m).toNat := by omega
      have r2 : ((l : ℤ) - mp).toNat - (ρ - mp + m).toNat = ((l : ℤ) - ρ - m).toNat := by omega
      rw [r0, r1, r2, ← Nat.choose_symm (show ρ.toNat ≤ ((l : ℤ) + mp).toNat by omega),
        ← Nat.choose_symm (show (ρ - mp + m).toNat ≤ ((l : ℤ) - mp).toNat by omega), r2,
        show ((l : ℤ) + mp).toNat - ρ.toNat = ((l : ℤ) + mp - ρ).toNat by omega, neg_pow ((starRingEnd ℂ) (qb q))]
      ring
  · intro i hi hn
    rw [Finset.mem_filter, not_and] at hn
    have := hn hi
    have h' : ((l : ℤ) + mp).toNat < i ∨ ((l : ℤ) - mp).toNat < ((l : ℤ) + m).toNat - i := by omega
    rcases h' with h' | h'
    · rw [Nat.choose_eq_zero_of_lt h']; simp
    · rw [Nat.choose_eq_zero_of_lt h']; simp

theorem qa_mul (q r : ℍ[ℝ]) : qa (q * r) = qa q * qa r + -(starRingEnd ℂ) (qb q) * qb r := by
  apply Complex.ext <;> simp [qa, qb] <;> ring

theorem qb_mul (q r : ℍ[ℝ]) : qb (q * r) = qb q * qa r + (starRingEnd ℂ) (qa q) * qb r := by
  apply Complex.ext <;> simp [qa, qb] <;> ring

/-- Products. -/
theorem wignerD_mul (q r : ℍ[ℝ]) {l m m' : ℤ} (h1 : |m| ≤ l) (h2 : |m'| ≤ l) :
    wignerD (q * r) l m m' = ∑ k ∈ Finset.Icc (-l) l, wignerD q l m k * wignerD r l k m' := by
  obtain ⟨l, rfl⟩ := Int.eq_ofNat_of_zero_le ((abs_nonneg m).trans h1)
  have a1 := abs_le.1 h1
  rw [wignerD_eq _ h1 h2, qa_mul, qb_mul]
  have h := E_mul (n := 2 * l) (p := ((l : ℤ) + m).toNat) (by omega) ((l : ℤ) + m').toNat (qa q) (-(starRingEnd ℂ) (qb q)) (qb q)
      ((starRingEnd ℂ) (qa q)) (qa r) (-(starRingEnd ℂ) (qb r)) (qb r) ((starRingEnd ℂ) (qa r))
  rw [sum_shift] at h
  have e1 : -(starRingEnd ℂ) (qb q * qa r + (starRingEnd ℂ) (qa q) * qb r)
      = qa q * -(starRingEnd ℂ) (qb r) + -(starRingEnd ℂ) (qb q) * (starRingEnd ℂ) (qa r) := by
    simp only [map_add, map_mul, Complex.conj_conj]; ring
  have e2 : (starRingEnd ℂ) (qa q * qa r + -(starRingEnd ℂ) (qb q) * qb r)
      = qb q * -(starRingEnd ℂ) (qb r) + (starRingEnd ℂ) (qa q) * (starRingEnd ℂ) (qa r) := by
    simp only [map_add, map_mul, map_neg, Complex.conj_conj]; ring
  rw [e1, e2, h]
  refine Finset.sum_congr rfl fun k hk => ?_
  rw [Finset.mem_Icc] at hk
  rw [wignerD_eq _ h1 (abs_le.2 hk), wignerD_eq _ (abs_le.2 hk) h2]

/-- Unit quaternions. -/
theorem unit_norm {q : ℍ[ℝ]} (h : q * star q = 1) :
    qa q * (starRingEnd ℂ) (qa q) + qb q * (starRingEnd ℂ) (qb q) = 1 := by
  have h1 := congrArg (fun x : ℍ[ℝ] => x.re) h
  simp at h1
  apply Complex.ext
  · simp [qa, qb]; linarith
  · simp [qa, qb]; ring

end Wigner

/-! ## C69 -/

/-- **C69.** The Wigner matrices of the unit quaternions form a unitary representation, so C54 applies to them. -/
theorem C69_representation : UnitaryRep (G := unitary ℍ[ℝ]) fun R => wignerD (R : ℍ[ℝ]) where
  one l m m' hm hm' := by
    obtain ⟨l, rfl⟩ := Int.eq_ofNat_of_zero_le ((abs_nonneg m).trans hm)
    have a1 := abs_le.1 hm
    have a2 := abs_le.1 hm'
    rw [wignerD_eq _ hm hm']
    have e1 : qa ((1 : unitary ℍ[ℝ]) : ℍ[ℝ]) = 1 := by apply Complex.ext <;> simp [qa]
    have e2 : qb ((1 : unitary ℍ[ℝ]) : ℍ[ℝ]) = 0 := by apply Complex.ext <;> simp [qb]
    rw [e1, e2, map_zero, neg_zero, map_one, E_one]
    by_cases h : m = m'
    · rw [if_pos h, if_pos (by rw [h])]
    · rw [if_neg h, if_neg (by omega)]
  mul R S l m m' hm hm' := wignerD_mul _ _ hm hm'
  unitary R l m m' hm hm' := by
    obtain ⟨l, rfl⟩ := Int.eq_ofNat_of_zero_le ((abs_nonneg m).trans hm)
    have a1 := abs_le.1 hm
    have a2 := abs_le.1 hm'
    have hn := unit_norm (Unitary.mem_iff.1 R.2).2
    have h := E_unitary (n := 2 * l) (p := ((l : ℤ) + m).toNat) (p' := ((l : ℤ) + m').toNat) (by omega) (by omega)
      (a := qa (R : ℍ[ℝ])) (b := -(starRingEnd ℂ) (qb (R : ℍ[ℝ]))) (c := qb (R : ℍ[ℝ])) (d := (starRingEnd ℂ) (qa (R : ℍ[ℝ])))
      (by rw [map_neg, Complex.conj_conj, ← hn]; ring) (by rw [Complex.conj_conj]; ring)
      (by rw [map_neg, Complex.conj_conj]; ring) (by rw [Complex.conj_conj, ← hn]; ring)
    rw [sum_shift] at h
    have e : ∑ k ∈ Finset.Icc (-(l : ℤ)) l, wignerD (R : ℍ[ℝ]) l m k * (starRingEnd ℂ) (wignerD (R : ℍ[ℝ]) l m' k)
        = if ((l : ℤ) + m).toNat = ((l : ℤ) + m').toNat then 1 else 0 := by
      rw [← h]
      refine Finset.sum_congr rfl fun k hk => ?_
      rw [Finset.mem_Icc] at hk
      rw [wignerD_eq _ hm (abs_le.2 hk), wignerD_eq _ hm' (abs_le.2 hk)]
    refine e.trans ?_
    by_cases h : m = m'
    · rw [if_pos h, if_pos (by rw [h])]
    · rw [if_neg h, if_neg (by omega)]

namespace Wigner

@[simp] theorem dirQ_re (θ φ : ℝ) : (dirQ θ φ).re = 0 := rfl
@[simp] theorem dirQ_imI (θ φ : ℝ) : (dirQ θ φ).imI = Real.sin θ * Real.cos φ := rfl
@[simp] theorem dirQ_imJ (θ φ : ℝ) : (dirQ θ φ).imJ = Real.sin θ * Real.sin φ := rfl
@[simp] theorem dirQ_imK (θ φ : ℝ) : (dirQ θ φ).imK = Real.cos θ := rfl

/-- Where a rotation moves the z axis, in terms of the two complex numbers. -/
theorem moves_axis {q : ℍ[ℝ]} (hq : q * star q = 1) {θ φ : ℝ} (h : q * dirQ 0 0 * star q = dirQ θ φ) :
    qa q * (starRingEnd ℂ) (qa q) = ((1 + Real.cos θ) / 2 : ℝ) ∧
    -(starRingEnd ℂ) (qb q) * qb q = ((Real.cos θ - 1) / 2 : ℝ) ∧
    qa q * -(starRingEnd ℂ) (qb q) = -(((Real.sin θ / 2 : ℝ) : ℂ) * Zdi.expi 1 φ) := by
  have h0 := congrArg (fun x : ℍ[ℝ] => x.re) hq
  have h1 := congrArg (fun x : ℍ[ℝ] => x.imI) h
  have h2 := congrArg (fun x : ℍ[ℝ] => x.imJ) h
  have h3 := congrArg (fun x : ℍ[ℝ] => x.imK) h
  simp at h0 h1 h2 h3
  have e : Zdi.expi 1 φ = ⟨Real.cos φ, Real.sin φ⟩ := by
    rw [Zdi.expi, Int.cast_one, mul_one, mul_comm, Complex.exp_mul_I]
    apply Complex.ext <;> simp [Complex.cos_ofReal_re, Complex.sin_ofReal_re, Complex.cos_ofReal_im, Complex.sin_ofReal_im]
  refine ⟨?_, ?_, ?_⟩
  · apply Complex.ext
    · rw [Complex.ofReal_re]; simp [qa]; linarith
    · rw [Complex.ofReal_im]; simp [qa]; ring
  · apply Complex.ext
    · rw [Complex.ofReal_re]; simp [qb]; linarith
    · rw [Complex.ofReal_im]; simp [qb]; ring
  · rw [e]
    apply Complex.ext
    · rw [Complex.neg_re, Complex.re_ofReal_mul]; simp [qa, qb]; linarith
    · rw [Complex.neg_im, Complex.im_ofReal_mul]; simp [qa, qb]; linarith

theorem expi_one_pow (m : ℕ) (φ : ℝ) : Zdi.expi 1 φ ^ m = Zdi.expi m φ := by
  rw [Zdi.expi, Zdi.expi, ← Complex.exp_nat_mul]; congr 1; push_cast; ring

/-- The spherical harmonics are the middle column of the matrix of any rotation that moves the z axis there. -/
theorem sphY_wignerD {q : ℍ[ℝ]} (hq : q * star q = 1) {θ φ : ℝ} (h : Moves q 0 0 θ φ) (hθ : 0 ≤ Real.sin θ) {l m : ℤ}
    (hm : |m| ≤ l) : sphY l m θ φ = (Real.sqrt ((2 * l + 1) / (4 * Real.pi)) : ℂ) * wignerD q l m 0 := by
  obtain ⟨h1, h2, h3⟩ := moves_axis hq h
  obtain ⟨l, rfl⟩ := Int.eq_ofNat_of_zero_le ((abs_nonneg m).trans hm)
  have hs : Real.sqrt (1 - Real.cos θ ^ 2) = Real.sin θ := by
    rw [← Real.sin_sq_add_cos_sq θ, add_sub_cancel_right, Real.sqrt_sq hθ]
  have pos : ∀ n : ℕ, n ≤ l → sphY (l : ℤ) n θ φ
      = (Real.sqrt ((2 * l + 1) / (4 * Real.pi)) : ℂ) * E (2 * l) (l + n) l (qa q) (-(starRingEnd ℂ) (qb q)) (qb q)
        ((starRingEnd ℂ) (qa q)) := by
    intro n hn
    have f1 : ((l : ℤ) - n).toNat = l - n := by omega
    have f2 : ((l : ℤ) + n).toNat = l + n := by omega
    rw [E_legendre hn h1 h2 h3, expi_one_pow, sphY, ← lpmv, lpmv_nonneg (by omega) (by omega), f1, f2, legendreP,
      Int.toNat_natCast, Int.toNat_natCast, hs, Real.sqrt_mul (by positivity), Zdi.expi]
    push_cast
    ring
  have h0 : |(0 : ℤ)| ≤ l := by simp
  rw [wignerD_eq _ hm h0, add_zero, Int.toNat_natCast, Int.cast_natCast]
  rcases le_or_gt 0 m with hm0 | hm0
  · obtain ⟨n, rfl⟩ := Int.eq_ofNat_of_zero_le hm0
    rw [abs_of_nonneg hm0] at hm
    rw [show ((l : ℤ) + n).toNat = l + n by omega]
    exact pos n (by omega)
  · obtain ⟨n, rfl⟩ : ∃ n : ℕ, m = -n := ⟨m.natAbs, by omega⟩
    rw [abs_of_neg hm0, neg_neg] at hm
    have hn : n ≤ l := by omega
    rw [show ((l : ℤ) + -n).toNat = l - n by omega, sphY_neg (by omega) (by omega), pos n hn, map_mul,
      Complex.conj_ofReal, E_conj, map_neg, Complex.conj_conj, Complex.conj_conj]
    have e := E_reverse (n := 2 * l) (p := l + n) (k := l) (by omega) (by omega) (qa q) (-(starRingEnd ℂ) (qb q)) (qb q)
        ((starRingEnd ℂ) (qa q))
    rw [neg_neg, show 2 * l - (l + n) = l - n by omega, show 2 * l - l = l by omega] at e
    rw [e]
    have e2 : ((-1 : ℂ)) ^ (n : ℤ) * ((-1) ^ (l - n) * (-1) ^ l) = 1 := by
      rw [zpow_natCast, ← pow_add, ← pow_add, show n + (l - n + l) = 2 * l by omega, pow_mul]; simp
    linear_combination (Real.sqrt ((2 * l + 1) / (4 * Real.pi)) : ℂ) * E (2 * l) (l - n) l (qa q) (-(starRingEnd ℂ) (qb q))
      (qb q) ((starRingEnd ℂ) (qa q)) * e2

@[simp] theorem fromEuler_re (α β γ : ℝ) : (fromEuler α β γ).re = Real.cos (β / 2) * Real.cos ((α + γ) / 2) := rfl
@[simp] theorem fromEuler_imI (α β γ : ℝ) : (fromEuler α β γ).imI = -(Real.sin (β / 2) * Real.sin ((α - γ) / 2)) := rfl
@[simp] theorem fromEuler_imJ (α β γ : ℝ) : (fromEuler α β γ).imJ = Real.sin (β / 2) * Real.cos ((α - γ) / 2) := rfl
@[simp] theorem fromEuler_imK (α β γ : ℝ) : (fromEuler α β γ).imK = Real.cos (β / 2) * Real.sin ((α + γ) / 2) := rfl

theorem fromEuler_unit (α β γ : ℝ) : fromEuler α β γ * star (fromEuler α β γ) = 1 := by
  ext
  · simp
    linear_combination Real.cos (β / 2) ^ 2 * Real.sin_sq_add_cos_sq ((α + γ) / 2)
      + Real.sin (β / 2) ^ 2 * Real.sin_sq_add_cos_sq ((α - γ) / 2) + Real.sin_sq_add_cos_sq (β / 2)
  · simp; ring
  · simp; ring
  · simp; ring

theorem fromEuler_unit' (α β γ : ℝ) : star (fromEuler α β γ) * fromEuler α β γ = 1 := by
  rw [Quaternion.star_mul_self, ← Quaternion.self_mul_star, fromEuler_unit]

/-- Half angles. -/
theorem half (x : ℝ) : Real.cos x = Real.cos (x / 2) ^ 2 - Real.sin (x / 2) ^ 2 ∧
    Real.sin x = 2 * Real.sin (x / 2) * Real.cos (x / 2) := by
  constructor
  · rw [← Real.cos_two_mul']; congr 1; ring
  · rw [← Real.sin_two_mul]; congr 1; ring

theorem fromEuler_axis (θ φ : ℝ) : Moves (fromEuler φ θ 0) 0 0 θ φ := by
  have c1 := (half θ).1
  have c2 := (half θ).2
  have d1 := (half φ).1
  have d2 := (half φ).2
  have u := Real.sin_sq_add_cos_sq (φ / 2)
  ext
  · simp; ring
  · simp; rw [c2, d1]; ring
  · simp; rw [c2, d2]; ring
  · simp; rw [c1]
    linear_combination (Real.cos (θ / 2) ^ 2 - Real.sin (θ / 2) ^ 2) * u

end Wigner

/-- **C69.** The spherical harmonics at the moved point are mixtures of those at the original one, and the matrix
elements are the weights. -/
theorem C69_harmonics (R : unitary ℍ[ℝ]) {θ φ θ' φ' : ℝ} (hR : Moves (R : ℍ[ℝ]) θ φ θ' φ') (hθ : 0 ≤ Real.sin θ)
    (hθ' : 0 ≤ Real.sin θ') (l m : ℤ) (hm : |m| ≤ l) :
    ∑ k ∈ Finset.Icc (-l) l, wignerD R l m k * sphY l k θ φ = sphY l m θ' φ' := by
  have hp := fromEuler_unit φ θ 0
  have ha := fromEuler_axis θ φ
  set p := fromEuler φ θ 0 with hpd
  have hRR := (Unitary.mem_iff.1 R.2).2
  have hq : (R : ℍ[ℝ]) * p * star ((R : ℍ[ℝ]) * p) = 1 := by
    rw [star_mul, mul_assoc, ← mul_assoc p, hp, one_mul, hRR]
  have hq' : Moves ((R : ℍ[ℝ]) * p) 0 0 θ' φ' := by
    rw [Moves, ← hR, ← ha, star_mul]; simp only [mul_assoc]
  have h0 : |(0 : ℤ)| ≤ l := by rw [abs_zero]; exact (abs_nonneg m).trans hm
  rw [sphY_wignerD hq hq' hθ' hm, wignerD_mul _ _ hm h0, Finset.mul_sum]
  refine Finset.sum_congr rfl fun k hk => ?_
  rw [Finset.mem_Icc] at hk
  rw [sphY_wignerD hp ha hθ (abs_le.2 hk)]
  ring

namespace Wigner

/-- Every unit vector is a point of the sphere. -/
theorem exists_dirQ {v : ℍ[ℝ]} (h0 : v.re = 0) (h1 : v * star v = 1) :
    ∃ θ φ, 0 ≤ θ ∧ θ ≤ Real.pi ∧ v = dirQ θ φ := by
  have hn := congrArg (fun x : ℍ[ℝ] => x.re) h1
  simp [h0] at hn
  set w : ℂ := ⟨v.imI, v.imJ⟩ with hw
  have hz : v.imK ^ 2 ≤ 1 := by nlinarith [mul_self_nonneg v.imI, mul_self_nonneg v.imJ]
  have hz' := abs_le.1 (abs_le_one_iff_mul_self_le_one.2 (by nlinarith : v.imK * v.imK ≤ 1))
  have hs : Real.sin (Real.arccos v.imK) = ‖w‖ := by
    rw [Real.sin_arccos, Complex.norm_def, Complex.normSq_apply]
    congr 1
    linarith
  refine ⟨Real.arccos v.imK, w.arg, Real.arccos_nonneg _, Real.arccos_le_pi _, ?_⟩
  ext
  · rw [h0, dirQ_re]
  · rw [dirQ_imI, hs, Complex.norm_mul_cos_arg]
  · rw [dirQ_imJ, hs, Complex.norm_mul_sin_arg]
  · rw [dirQ_imK, Real.cos_arccos hz'.1 hz'.2]

theorem dirQ_unit (θ φ : ℝ) : dirQ θ φ * star (dirQ θ φ) = 1 := by
  ext
  · simp
    linear_combination Real.sin θ ^ 2 * Real.sin_sq_add_cos_sq φ + Real.sin_sq_add_cos_sq θ
  · simp; ring
  · simp; ring
  · simp; ring

end Wigner

/-- **C69.** A rotation moves every point of the sphere to some point of the sphere. -/
theorem C69_moves (R : unitary ℍ[ℝ]) (θ φ : ℝ) : ∃ θ' φ', 0 ≤ θ' ∧ θ' ≤ Real.pi ∧ Moves (R : ℍ[ℝ]) θ φ θ' φ' := by
  have hR := Unitary.mem_iff.1 R.2
  refine exists_dirQ ?_ ?_
  · simp; ring
  · rw [star_mul, star_mul, star_star]
    calc _ = (R : ℍ[ℝ]) * (dirQ θ φ * (star (R : ℍ[ℝ]) * R) * star (dirQ θ φ)) * star (R : ℍ[ℝ]) := by
          simp only [mul_assoc]
      _ = 1 := by rw [hR.1, mul_one, dirQ_unit, mul_one, hR.2]

/-- **C69.** The field of the rotated set at any point is the field of the original one at the moved point. -/
theorem C69_surface {n : ℕ} (R : unitary ℍ[ℝ]) (s t : Coefs ℂ) (hs : Operand .cplx n s)
    (ht : rotate (wignerD R) s = .ok t) {θ φ θ' φ' : ℝ} (hR : Moves (R : ℍ[ℝ]) θ φ θ' φ') (hθ : 0 ≤ Real.sin θ)
    (hθ' : 0 ≤ Real.sin θ') : surfaceField t θ φ = surfaceField s θ' φ' := by
  obtain ⟨w, d, _, _, st, v⟩ := values_zero hs ht
  have hsub : pairs s ⊆ pairs t := by
    intro k hk
    rw [mem_pairs] at hk ⊢
    rw [stores, has_int] at hk
    exact (st _ _).2 ⟨hs.reach.WF.valid _ hk, hs.reach.WF.degUpper _ hk⟩
  have hp : pairs t = (Finset.Icc 0 s.degreeMax).biUnion fun l => (Finset.Icc (-l) l).image fun m => (l, m) := by
    ext ⟨l, m⟩
    rw [mem_pairs, st]
    simp only [Finset.mem_biUnion, Finset.mem_image, Finset.mem_Icc, Prod.mk.injEq]
    constructor
    · rintro ⟨h1, h2⟩
      exact ⟨l, ⟨(abs_nonneg m).trans h1, h2⟩, m, abs_le.1 h1, rfl, rfl⟩
    · rintro ⟨a, ⟨_, h2⟩, b, h3, rfl, rfl⟩
      exact ⟨abs_le.2 h3, h2⟩
  have hsum : ∀ f : ℤ × ℤ → ℂ, ∑ k ∈ pairs t, f k
      = ∑ l ∈ Finset.Icc 0 s.degreeMax, ∑ m ∈ Finset.Icc (-l) l, f (l, m) := by
    intro f
    rw [hp, Finset.sum_biUnion]
    · refine Finset.sum_congr rfl fun l _ => Finset.sum_image fun a _ b _ h => (Prod.mk.inj h).2
    · intro a _ b _ hab
      rw [Function.onFun, Finset.disjoint_left]
      intro k hk hk'
      obtain ⟨_, _, rfl⟩ := Finset.mem_image.1 hk
      obtain ⟨_, _, h⟩ := Finset.mem_image.1 hk'
      exact hab (Prod.mk.inj h).1.symm
  rw [surfaceField, surfaceField]
  congr 1
  simp only [coef_eq_coefCol]
  rw [sum_pairs_extend hs.reach.WF hs.zero 0 hsub (fun k c => c * sphY k.1 k.2 θ' φ') (by simp), hsum, hsum]
  refine Finset.sum_congr rfl fun l _ => ?_
  have e1 : ∀ m ∈ Finset.Icc (-l) l, coefCol 0 t l m * sphY l m θ φ
      = ∑ k ∈ Finset.Icc (-l) l, coefCol 0 s l k * (wignerD R l k m * sphY l m θ φ) := by
    intro m hm
    rw [v 0 l m (abs_le.2 (Finset.mem_Icc.1 hm)), Finset.sum_mul]
    exact Finset.sum_congr rfl fun k _ => by ring
  rw [Finset.sum_congr rfl e1, Finset.sum_comm]
  refine Finset.sum_congr rfl fun k hk => ?_
  rw [← Finset.mul_sum, C69_harmonics R hR hθ hθ' l k (abs_le.2 (Finset.mem_Icc.1 hk))]

/-! ### Euler angles -/

namespace Spec

/-- Rotation by the angle `α` about the z axis, and about the y axis. -/
noncomputable def zTurn (α : ℝ) : ℍ[ℝ] := ⟨Real.cos (α / 2), 0, 0, Real.sin (α / 2)⟩
noncomputable def yTurn (α : ℝ) : ℍ[ℝ] := ⟨Real.cos (α / 2), 0, Real.sin (α / 2), 0⟩

/-- The vector with these components. -/
def vecQ (x y z : ℝ) : ℍ[ℝ] := ⟨0, x, y, z⟩

/-- The rotation that three Euler angles in degrees stand for (first about z by the last, then y, then z). -/
noncomputable def zyz (α β γ : ℝ) : ℍ[ℝ] :=
  zTurn (α * Real.pi / 180) * yTurn (β * Real.pi / 180) * zTurn (γ * Real.pi / 180)

end Spec

namespace Wigner

@[simp] theorem zTurn_re (α : ℝ) : (zTurn α).re = Real.cos (α / 2) := rfl
@[simp] theorem zTurn_imI (α : ℝ) : (zTurn α).imI = 0 := rfl
@[simp] theorem zTurn_imJ (α : ℝ) : (zTurn α).imJ = 0 := rfl
@[simp] theorem zTurn_imK (α : ℝ) : (zTurn α).imK = Real.sin (α / 2) := rfl
@[simp] theorem yTurn_re (α : ℝ) : (yTurn α).re = Real.cos (α / 2) := rfl
@[simp] theorem yTurn_imI (α : ℝ) : (yTurn α).imI = 0 := rfl
@[simp] theorem yTurn_imJ (α : ℝ) : (yTurn α).imJ = Real.sin (α / 2) := rfl
@[simp] theorem yTurn_imK (α : ℝ) : (yTurn α).imK = 0 := rfl

theorem fromEuler_eq (α β γ : ℝ) : fromEuler α β γ = zTurn α * yTurn β * zTurn γ := by
  have e1 : (α + γ) / 2 = α / 2 + γ / 2 := by ring
  have e2 : (α - γ) / 2 = α / 2 - γ / 2 := by ring
  ext
  · simp [e1, Real.cos_add]; ring
  · simp [e2, Real.sin_sub]; ring
  · simp [e2, Real.cos_sub]; ring
  · simp [e1, Real.sin_add]; ring

theorem fromEuler_rad (α β γ : ℝ) : fromEuler (rad α) (rad β) (rad γ) = zyz α β γ := by
  rw [fromEuler_eq, zyz]
  simp only [rad, mul_div_assoc]

theorem fromEuler_mem (α β γ : ℝ) : fromEuler α β γ ∈ unitary ℍ[ℝ] :=
  Unitary.mem_iff.2 ⟨fromEuler_unit' α β γ, fromEuler_unit α β γ⟩

end Wigner

/-- **C69.** Turns about the axes do what their names say. -/
theorem C69_turns (α x y z : ℝ) :
    zTurn α * vecQ x y z * star (zTurn α)
      = vecQ (x * Real.cos α - y * Real.sin α) (x * Real.sin α + y * Real.cos α) z ∧
    yTurn α * vecQ x y z * star (yTurn α)
      = vecQ (x * Real.cos α + z * Real.sin α) y (z * Real.cos α - x * Real.sin α) := by
  have v0 : ∀ x y z, (vecQ x y z).re = 0 := fun _ _ _ => rfl
  have v1 : ∀ x y z, (vecQ x y z).imI = x := fun _ _ _ => rfl
  have v2 : ∀ x y z, (vecQ x y z).imJ = y := fun _ _ _ => rfl
  have v3 : ∀ x y z, (vecQ x y z).imK = z := fun _ _ _ => rfl
  have c := (half α).1
  have s := (half α).2
  have u := Real.sin_sq_add_cos_sq (α / 2)
  constructor
  · ext
    · simp [v0, v1, v2, v3]; ring
    · simp [v0, v1, v2, v3]; rw [c, s]; ring
    · simp [v0, v1, v2, v3]; rw [c, s]; ring
    · simp [v0, v1, v2, v3]; linear_combination z * u
  · ext
    · simp [v0, v1, v2, v3]; ring
    · simp [v0, v1, v2, v3]; rw [c, s]; ring
    · simp [v0, v1, v2, v3]; linear_combination y * u
    · simp [v0, v1, v2, v3]; rw [c, s]; ring

/-- **C69.** Rotation of a complex set by Euler angles never raises, and the radial magnetogram of the result at a
point is that of the original at the point to which the angles move it. -/
theorem C69_euler {n : ℕ} (α β γ : ℝ) (s : Coefs ℂ) (hs : Operand .cplx n s) (hn : n = 1 ∨ n = 2 ∨ n = 3)
    (hne : ∃ l m, stores s l m) :
    ∃ t z z', rotateEuler s α β γ = .ok t ∧ Zdi.fromCoefficients s = .ok z ∧ Zdi.fromCoefficients t = .ok z' ∧
      ∀ θ φ θ' φ', 0 ≤ Real.sin θ → 0 ≤ Real.sin θ' → Moves (zyz α β γ) θ φ θ' φ' →
        Zdi.radial z' θ φ = Zdi.radial z θ' φ' := by
  obtain ⟨t, ht, _⟩ := rotate_spec hs.reach.WF hs.dtype (wignerD (fromEuler (rad α) (rad β) (rad γ)))
  obtain ⟨w, d, _, _, st, _⟩ := values_zero hs ht
  have zs : ZdiSet s := ⟨wellFormed_of_WF hs.reach.WF, by rw [hs.cols]; exact hn, hne⟩
  have zt : ZdiSet t := by
    obtain ⟨l, m, hk⟩ := hne
    rw [stores, has_int] at hk
    exact ⟨wellFormed_of_WF w, by rw [d, hs.cols]; exact hn, l, m,
      (st _ _).2 ⟨hs.reach.WF.valid _ hk, hs.reach.WF.degUpper _ hk⟩⟩
  refine ⟨t, _, _, ht, zs.fromCoefficients, zt.fromCoefficients, fun θ φ θ' φ' h1 h2 hR => ?_⟩
  rw [C25_radial_is_surfaceField t zt _ zt.fromCoefficients, C25_radial_is_surfaceField s zs _ zs.fromCoefficients]
  rw [← fromEuler_rad] at hR
  exact C69_surface ⟨_, fromEuler_mem _ _ _⟩ s t hs ht hR h1 h2

/-- **C69.** The pipeline of the test-suite and of `plot_zdi`: rotate, fold to positive orders, evaluate. -/
theorem C69_folded (α β γ : ℝ) (s : Coefs ℂ) (hs : Operand .cplx 1 s) (hne : ∃ l m, stores s l m) :
    ∃ t u z z', rotateEuler s α β γ = .ok t ∧ mapToPositiveOrders t = .ok u ∧ RadialSet u ∧
      Zdi.fromCoefficients s = .ok z ∧ Zdi.fromCoefficients u = .ok z' ∧
      ∀ θ φ θ' φ', 0 ≤ Real.sin θ → 0 ≤ Real.sin θ' → Moves (zyz α β γ) θ φ θ' φ' →
        Zdi.radial z' θ φ = Zdi.radial z θ' φ' := by
  obtain ⟨t, z, zt, ht, hz, hzt, h⟩ := C69_euler α β γ s hs (Or.inl rfl) hne
  have ot := operand_of_rotate hs ht
  obtain ⟨w, d, _, dm, st, _⟩ := values_zero hs ht
  obtain ⟨u, hu, ou, su, fu⟩ := C25_fold .cplx (Or.inr rfl) t ot
  obtain ⟨l, m, hk⟩ := hne
  have hk' := hk
  rw [stores, has_int] at hk'
  have hk1 := hs.reach.WF.valid _ hk'
  have hk2 := hs.reach.WF.degUpper _ hk'
  have zt' : ZdiSet t := ⟨wellFormed_of_WF w, by rw [d, hs.cols]; exact Or.inl rfl, l, m, (st _ _).2 ⟨hk1, hk2⟩⟩
  have hl : 0 ≤ l := (abs_nonneg _).trans hk1
  have ru : RadialSet u := ⟨wellFormed_of_WF ou.reach.WF, ou.cols, ⟨l, 0, (su _ _).2 ⟨le_rfl, hl, by rw [dm]; exact hk2⟩⟩,
    fun l m h => ((su l m).1 h).1⟩
  have zu : ZdiSet u := ⟨ru.wf, Or.inl ru.single, ru.nonempty⟩
  refine ⟨t, u, z, _, ht, hu, ru, hz, zu.fromCoefficients, fun θ φ θ' φ' h1 h2 hR => ?_⟩
  rw [← h θ φ θ' φ' h1 h2 hR, C25_radial_is_surfaceField u zu _ zu.fromCoefficients,
    C25_radial_is_surfaceField t zt' _ hzt, fu]

/-- **C69.** The same with conversion to the other convention: the radial surface field of the potential-field
extrapolation of the rotated set. -/
theorem C69_extrapolated (α β γ : ℝ) (s : Coefs ℂ) (hs : Operand .cplx 1 s) (hne : ∃ l m, stores s l m) :
    ∃ t u p z, rotateEuler s α β γ = .ok t ∧ mapToPositiveOrders t = .ok u ∧ zdiToPfss u = .ok p ∧
      Zdi.fromCoefficients s = .ok z ∧
      ∀ r0 rss θ φ θ' φ', 0 < r0 → r0 < rss → 0 ≤ Real.sin θ → 0 ≤ Real.sin θ' → Moves (zyz α β γ) θ (-φ) θ' φ' →
        ∃ bp ba, Pfss.evalSpherical p r0 θ φ r0 rss = .ok (Zdi.radial z θ' φ', bp, ba) := by
  obtain ⟨t, u, z, zu, ht, hu, ru, hz, hzu, h⟩ := C69_folded α β γ s hs hne
  obtain ⟨u', hu', ou, _⟩ := C25_fold .cplx (Or.inr rfl) t (operand_of_rotate hs ht)
  rw [hu] at hu'; cases hu'
  obtain ⟨p, _, _, _, hp, _⟩ := C28_surface .cplx (Or.inr rfl) u ou ru 1 2 (by norm_num) (by norm_num) 0 0
  refine ⟨t, u, p, z, ht, hu, hp, hz, fun r0 rss θ φ θ' φ' h0 h1 h2 h3 hR => ?_⟩
  obtain ⟨p', z', bp, ba, hp', hz', e⟩ := C28_surface .cplx (Or.inr rfl) u ou ru r0 rss h0 h1 θ φ
  rw [hp] at hp'; cases hp'
  rw [hzu] at hz'; cases hz'
  exact ⟨bp, ba, by rw [e, h _ _ _ _ h2 h3 hR]⟩

/-- **C69.** Extreme values do not change: the fields take the same values on the sphere. -/
theorem C69_range {n : ℕ} (R : unitary ℍ[ℝ]) (s t : Coefs ℂ) (hs : Operand .cplx n s)
    (ht : rotate (wignerD R) s = .ok t) :
    {b | ∃ θ φ, 0 ≤ θ ∧ θ ≤ Real.pi ∧ surfaceField t θ φ = b} = {b | ∃ θ φ, 0 ≤ θ ∧ θ ≤ Real.pi ∧ surfaceField s θ φ = b} := by
  have hR := Unitary.mem_iff.1 R.2
  ext b
  constructor
  · rintro ⟨θ, φ, h1, h2, rfl⟩
    obtain ⟨θ', φ', h3, h4, h5⟩ := C69_moves R θ φ
    exact ⟨θ', φ', h3, h4, (C69_surface R s t hs ht h5 (Real.sin_nonneg_of_nonneg_of_le_pi h1 h2)
      (Real.sin_nonneg_of_nonneg_of_le_pi h3 h4)).symm⟩
  · rintro ⟨θ, φ, h1, h2, rfl⟩
    obtain ⟨θ', φ', h3, h4, h5⟩ := C69_moves R⁻¹ θ φ
    refine ⟨θ', φ', h3, h4, C69_surface R s t hs ht ?_ (Real.sin_nonneg_of_nonneg_of_le_pi h3 h4)
      (Real.sin_nonneg_of_nonneg_of_le_pi h1 h2)⟩
    have e : ((R⁻¹ : unitary ℍ[ℝ]) : ℍ[ℝ]) = star (R : ℍ[ℝ]) := rfl
    rw [Moves, e, star_star] at h5
    rw [Moves, ← h5]
    calc _ = ((R : ℍ[ℝ]) * star (R : ℍ[ℝ])) * dirQ θ φ * ((R : ℍ[ℝ]) * star (R : ℍ[ℝ])) := by simp only [mul_assoc]
      _ = _ := by rw [hR.2, one_mul, mul_one]

/-- **C69.** Rotation by the angles reversed, with opposite signs, undoes a rotation. -/
theorem C69_undo {n : ℕ} (α β γ : ℝ) (s : Coefs ℂ) (hs : Operand .cplx n s) :
    ∃ t u, rotateEuler s α β γ = .ok t ∧ rotateEuler t (-γ) (-β) (-α) = .ok u ∧ SameValues u s := by
  obtain ⟨t, ht, _⟩ := rotate_spec hs.reach.WF hs.dtype (wignerD (fromEuler (rad α) (rad β) (rad γ)))
  have ot := operand_of_rotate hs ht
  obtain ⟨u, hu, _⟩ := rotate_spec ot.reach.WF ot.dtype (wignerD (fromEuler (rad (-γ)) (rad (-β)) (rad (-α))))
  refine ⟨t, u, ht, hu, C54_inverse C69_representation ⟨_, fromEuler_mem (rad α) (rad β) (rad γ)⟩ s t u hs ht ?_⟩
  rw [← hu]
  congr 2
  show star (fromEuler (rad α) (rad β) (rad γ)) = _
  have e1 : (rad α + rad γ) / 2 = -((rad (-γ) + rad (-α)) / 2) := by simp only [rad]; ring
  have e2 : (rad α - rad γ) / 2 = (rad (-γ) - rad (-α)) / 2 := by simp only [rad]; ring
  have e3 : rad β / 2 = -(rad (-β) / 2) := by simp only [rad]; ring
  ext <;> simp [e1, e2, e3]

/-- **C69.** With the first angle only, this is the rotation of C55. -/
theorem C69_about_z (α : ℝ) (l m m' : ℤ) (hm : |m| ≤ l) (hm' : |m'| ≤ l) :
    wignerD (fromEuler (rad α) (rad 0) (rad 0)) l m m' = zRotation (α * Real.pi / 180) l m m' := by
  obtain ⟨l, rfl⟩ := Int.eq_ofNat_of_zero_le ((abs_nonneg m).trans hm)
  have a1 := abs_le.1 hm
  have a2 := abs_le.1 hm'
  set x := α * Real.pi / 180 with hx
  have r : rad α = x := by rw [rad, hx]; ring
  have r0 : rad 0 = 0 := by rw [rad, zero_mul]
  have e1 : qa (fromEuler (rad α) (rad 0) (rad 0)) = Complex.exp (Complex.I * (x / 2)) := by
    rw [mul_comm, Complex.exp_mul_I, show ((x : ℂ) / 2) = ((x / 2 : ℝ) : ℂ) by push_cast; rfl]
    apply Complex.ext <;> simp [qa, r, r0, -Complex.ofReal_div, Complex.cos_ofReal_re, Complex.sin_ofReal_re]
  have e2 : qb (fromEuler (rad α) (rad 0) (rad 0)) = 0 := by apply Complex.ext <;> simp [qb, r0]
  rw [wignerD_eq _ hm hm', e1, e2, map_zero, neg_zero, E_diag, zRotation, ← Complex.exp_conj, ← Complex.exp_nat_mul,
    ← Complex.exp_nat_mul, ← Complex.exp_add]
  by_cases h : m = m'
  · rw [if_pos (by rw [h]), if_pos ⟨h, hm⟩]
    congr 1
    have c1 : ((((l : ℤ) + m).toNat : ℕ) : ℂ) = (l : ℂ) + m := by
      have : ((((l : ℤ) + m).toNat : ℕ) : ℤ) = (l : ℤ) + m := by omega
      exact_mod_cast congrArg (Int.cast : ℤ → ℂ) this
    have c2 : (((2 * l - ((l : ℤ) + m).toNat : ℕ) : ℕ) : ℂ) = (l : ℂ) - m := by
      have : (((2 * l - ((l : ℤ) + m).toNat : ℕ) : ℕ) : ℤ) = (l : ℤ) - m := by omega
      exact_mod_cast congrArg (Int.cast : ℤ → ℂ) this
    rw [c1, c2]
    simp [map_ofNat]
    ring
  · rw [if_neg (by omega), if_neg (fun h' => h h'.1)]

/-! ### Non-vacuity -/

/-- The set with `1` at (1, 0). -/
private noncomputable def exAxial : Coefs ℂ := ⟨[0], .cplx, [((1, 0), [1])], 1, 0⟩

private theorem exAxial_operand : Operand .cplx 1 exAxial := by
  refine ⟨?_, by simp [exAxial, ZeroDefault], rfl, rfl⟩
  refine Reach.append (s := Coefs.new [0] .cplx) (.int 1) (.int 0) [1] ?_ rfl
  exact Reach.new _ _ (by simp)

/-- The angles (0, 90, 0) move the pole to the equator. -/
private theorem moves_quarter : Moves (zyz 0 90 0) 0 0 (Real.pi / 2) 0 := by
  have e := fromEuler_axis (Real.pi / 2) 0
  have r : rad 90 = Real.pi / 2 := by rw [rad]; ring
  have r0 : rad 0 = 0 := by rw [rad, zero_mul]
  rw [← fromEuler_rad, r, r0]
  exact e

private theorem exAxial_stores : stores exAxial 1 0 := by simp [stores, has_int, Coefs.keys, exAxial]

private theorem exAxial_field (θ φ : ℝ) :
    surfaceField exAxial θ φ = Real.sqrt (3 / (4 * Real.pi)) * Real.cos θ := by
  have hp : pairs exAxial = {(1, 0)} := by rw [pairs_eq]; rfl
  have hc : coef exAxial 1 0 = 1 := by simp [coef, valueAt_eq, getI, exAxial, dictGet]
  have e : legendreP 1 0 (Real.cos θ) = Real.cos θ := by
    norm_num [legendreP, rodNorm, rod, rodBase]
    ring
  rw [surfaceField, hp, Finset.sum_singleton, hc, one_mul, sphY, ← lpmv, lpmv_nonneg le_rfl (by norm_num)]
  simp only [Int.toNat_one, Int.toNat_zero]
  rw [e, show ((0 : ℤ) : ℂ) = 0 by simp, mul_zero, zero_mul, Complex.exp_zero, mul_one, Complex.ofReal_re]
  norm_num

/-- A dipole turned by a quarter: the field at the pole, which was not zero, is now what it was on the equator, zero. -/
example : ∃ t z z', rotateEuler exAxial 0 90 0 = .ok t ∧ Zdi.fromCoefficients exAxial = .ok z ∧
    Zdi.fromCoefficients t = .ok z' ∧ Zdi.radial z 0 0 ≠ 0 ∧ Zdi.radial z' 0 0 = 0 := by
  obtain ⟨t, z, z', h1, h2, h3, h4⟩ := C69_euler 0 90 0 exAxial exAxial_operand (Or.inl rfl) ⟨1, 0, exAxial_stores⟩
  have zs : ZdiSet exAxial := ⟨wellFormed_of_WF exAxial_operand.reach.WF, Or.inl rfl, 1, 0, exAxial_stores⟩
  refine ⟨t, z, z', h1, h2, h3, ?_, ?_⟩
  · rw [C25_radial_is_surfaceField _ zs z h2, exAxial_field, Real.cos_zero, mul_one]
    have := Real.pi_pos
    positivity
  · rw [h4 _ _ _ _ (by simp) (by simp) moves_quarter, C25_radial_is_surfaceField _ zs z h2, exAxial_field]
    simp

end Verif
