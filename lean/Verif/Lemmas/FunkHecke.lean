import Verif.Lemmas.DiscNull
import Verif.Props.Wigner
import Verif.Props.ImageLimit
import Mathlib.Analysis.Calculus.ContDiff.Polynomial

/-!
# Integrals of spherical harmonics against functions of the angle to the observer
-/

namespace Verif
open Geometry Spec

namespace Disc
open Zdi Riemann Rotation SphereLimit Legendre Analysis Filter Topology

/-- A point of the unit sphere after a rotation about the y axis. -/
noncomputable def pt (τ θ φ : ℝ) : ℝ × ℝ × ℝ :=
  (Real.cos τ * (Real.sin θ * Real.cos φ) + Real.sin τ * Real.cos θ, Real.sin θ * Real.sin φ,
    Real.cos τ * Real.cos θ - Real.sin τ * (Real.sin θ * Real.cos φ))

noncomputable def ptT (τ θ φ : ℝ) : ℝ × ℝ × ℝ :=
  (-Real.sin τ * (Real.sin θ * Real.cos φ) + Real.cos τ * Real.cos θ, 0,
    -Real.sin τ * Real.cos θ - Real.cos τ * (Real.sin θ * Real.cos φ))

noncomputable def ptP (τ θ φ : ℝ) : ℝ × ℝ × ℝ :=
  (Real.cos τ * (Real.cos θ * Real.cos φ) + Real.sin τ * -Real.sin θ, Real.cos θ * Real.sin φ,
    Real.cos τ * -Real.sin θ - Real.sin τ * (Real.cos θ * Real.cos φ))

noncomputable def ptA (τ θ φ : ℝ) : ℝ × ℝ × ℝ :=
  (Real.cos τ * (Real.sin θ * -Real.sin φ), Real.sin θ * Real.cos φ, -(Real.sin τ * (Real.sin θ * -Real.sin φ)))

theorem pt_dT (τ θ φ : ℝ) : HasDerivAt (fun τ => pt τ θ φ) (ptT τ θ φ) τ := by
  have hc := Real.hasDerivAt_cos τ
  have hs := Real.hasDerivAt_sin τ
  exact ((hc.mul_const _).add (hs.mul_const _)).prodMk ((hasDerivAt_const _ _).prodMk ((hc.mul_const _).sub (hs.mul_const _)))

theorem pt_dP (τ θ φ : ℝ) : HasDerivAt (fun θ => pt τ θ φ) (ptP τ θ φ) θ := by
  have hc := Real.hasDerivAt_cos θ
  have hs := Real.hasDerivAt_sin θ
  exact (((hs.mul_const _).const_mul _).add (hc.const_mul _)).prodMk
    ((hs.mul_const _).prodMk ((hc.const_mul _).sub ((hs.mul_const _).const_mul _)))

theorem pt_dA (τ θ φ : ℝ) : HasDerivAt (fun φ => pt τ θ φ) (ptA τ θ φ) φ := by
  have hc := Real.hasDerivAt_cos φ
  have hs := Real.hasDerivAt_sin φ
  exact (((hc.const_mul _).const_mul _).add_const _).prodMk
    ((hs.const_mul _).prodMk (((hc.const_mul _).const_mul _).const_sub _))

theorem pt_rel (τ θ φ : ℝ) : Real.sin θ • ptT τ θ φ
    = (Real.sin θ * Real.cos φ) • ptP τ θ φ - (Real.cos θ * Real.sin φ) • ptA τ θ φ := by
  have e := Real.sin_sq_add_cos_sq φ
  simp only [ptT, ptP, ptA, Prod.smul_mk, smul_eq_mul, Prod.mk_sub_mk, Prod.mk.injEq]
  refine ⟨?_, by ring, ?_⟩
  · linear_combination (-(Real.sin θ * Real.cos θ * Real.cos τ)) * e
  · linear_combination (Real.sin θ * Real.cos θ * Real.sin τ) * e

theorem pt_cont : Continuous fun p : ℝ × ℝ × ℝ => pt p.1 p.2.1 p.2.2 := by unfold pt; fun_prop
theorem ptT_cont : Continuous fun p : ℝ × ℝ × ℝ => ptT p.1 p.2.1 p.2.2 := by unfold ptT; fun_prop
theorem ptP_cont (τ : ℝ) : Continuous fun p : ℝ × ℝ => ptP τ p.1 p.2 := by unfold ptP; fun_prop
theorem ptA_cont (τ : ℝ) : Continuous fun p : ℝ × ℝ => ptA τ p.1 p.2 := by unfold ptA; fun_prop
theorem pt_cont2 (τ : ℝ) : Continuous fun p : ℝ × ℝ => pt τ p.1 p.2 := by unfold pt; fun_prop

/-- Integrals over the sphere do not change under rotations about the y axis. -/
theorem turn_y {g : ℝ × ℝ × ℝ → ℝ} (hg : ContDiff ℝ 1 g) (T : ℝ) :
    sphereInt (fun θ φ => g (pt T θ φ)) = sphereInt (fun θ φ => g (pt 0 θ φ)) := by
  have hd : Differentiable ℝ g := hg.differentiable one_ne_zero
  have hD : Continuous (fderiv ℝ g) := hg.continuous_fderiv one_ne_zero
  have hgc := hg.continuous
  have d1 : ∀ τ θ φ, HasDerivAt (fun τ => g (pt τ θ φ)) (fderiv ℝ g (pt τ θ φ) (ptT τ θ φ)) τ := fun τ θ φ =>
    (hd _).hasFDerivAt.comp_hasDerivAt τ (pt_dT τ θ φ)
  have d2 : ∀ τ θ φ, HasDerivAt (fun θ => g (pt τ θ φ)) (fderiv ℝ g (pt τ θ φ) (ptP τ θ φ)) θ := fun τ θ φ =>
    (hd _).hasFDerivAt.comp_hasDerivAt θ (pt_dP τ θ φ)
  have d3 : ∀ τ θ φ, HasDerivAt (fun φ => g (pt τ θ φ)) (fderiv ℝ g (pt τ θ φ) (ptA τ θ φ)) φ := fun τ θ φ =>
    (hd _).hasFDerivAt.comp_hasDerivAt φ (pt_dA τ θ φ)
  have c1 : Continuous fun p : ℝ × ℝ × ℝ => fderiv ℝ g (pt p.1 p.2.1 p.2.2) (ptT p.1 p.2.1 p.2.2) * Real.sin p.2.1 :=
    ((hD.comp pt_cont).clm_apply ptT_cont).mul (Real.continuous_sin.comp (continuous_fst.comp continuous_snd))
  have c2 : ∀ τ, Continuous fun p : ℝ × ℝ => fderiv ℝ g (pt τ p.1 p.2) (ptP τ p.1 p.2) := fun τ =>
    (hD.comp (pt_cont2 τ)).clm_apply (ptP_cont τ)
  have c3 : ∀ τ, Continuous fun p : ℝ × ℝ => fderiv ℝ g (pt τ p.1 p.2) (ptA τ p.1 p.2) := fun τ =>
    (hD.comp (pt_cont2 τ)).clm_apply (ptA_cont τ)
  have c0 : ∀ τ, Continuous fun p : ℝ × ℝ => g (pt τ p.1 p.2) := fun τ => hgc.comp (pt_cont2 τ)
  have s1 : Continuous fun p : ℝ × ℝ => Real.sin p.1 := Real.continuous_sin.comp continuous_fst
  have s2 : Continuous fun p : ℝ × ℝ => Real.cos p.1 := Real.continuous_cos.comp continuous_fst
  have s3 : Continuous fun p : ℝ × ℝ => Real.sin p.2 := Real.continuous_sin.comp continuous_snd
  have s4 : Continuous fun p : ℝ × ℝ => Real.cos p.2 := Real.continuous_cos.comp continuous_snd
  refine int_const (F := fun τ θ φ => g (pt τ θ φ) * Real.sin θ) (H := fun τ θ φ => fderiv ℝ g (pt τ θ φ) (ptT τ θ φ) * Real.sin θ)
    (fun τ θ φ => (d1 τ θ φ).mul_const _) (fun τ => (c0 τ).mul s1) c1 Real.pi_pos Real.two_pi_pos (fun τ => ?_) T
  let A : ℝ → ℝ → ℝ := fun θ φ => Real.cos φ * (Real.cos θ * g (pt τ θ φ) + Real.sin θ * fderiv ℝ g (pt τ θ φ) (ptP τ θ φ))
  let B : ℝ → ℝ → ℝ := fun θ φ => Real.cos θ * (Real.cos φ * g (pt τ θ φ) + Real.sin φ * fderiv ℝ g (pt τ θ φ) (ptA τ θ φ))
  have key : ∀ θ φ, fderiv ℝ g (pt τ θ φ) (ptT τ θ φ) * Real.sin θ = A θ φ - B θ φ := by
    intro θ φ
    have := congrArg (fderiv ℝ g (pt τ θ φ)) (pt_rel τ θ φ)
    simp only [map_smul, map_sub, smul_eq_mul] at this
    simp only [A, B]
    linear_combination this
  have hA : Continuous fun p : ℝ × ℝ => A p.1 p.2 := s4.mul ((s2.mul (c0 τ)).add (s1.mul (c2 τ)))
  have hB : Continuous fun p : ℝ × ℝ => B p.1 p.2 := s2.mul ((s4.mul (c0 τ)).add (s3.mul (c3 τ)))
  have zA : ∀ φ, ∫ θ in (0 : ℝ)..Real.pi, A θ φ = 0 := by
    intro φ
    rw [intervalIntegral.integral_eq_sub_of_hasDerivAt (f := fun θ => Real.cos φ * (Real.sin θ * g (pt τ θ φ)))
      (fun θ _ => ((Real.hasDerivAt_sin θ).mul (d2 τ θ φ)).const_mul _) (slice1 hA φ _ _)]
    simp
  have zB : ∀ θ, ∫ φ in (0 : ℝ)..2 * Real.pi, B θ φ = 0 := by
    intro θ
    rw [intervalIntegral.integral_eq_sub_of_hasDerivAt (f := fun φ => Real.cos θ * (Real.sin φ * g (pt τ θ φ)))
      (fun φ _ => ((Real.hasDerivAt_sin φ).mul (d3 τ θ φ)).const_mul _) (slice2 hB θ _ _)]
    simp
  simp only [key]
  have e : ∀ φ, ∫ θ in (0 : ℝ)..Real.pi, (A θ φ - B θ φ) = -∫ θ in (0 : ℝ)..Real.pi, B θ φ := by
    intro φ
    rw [intervalIntegral.integral_sub (slice1 hA φ _ _) (slice1 hB φ _ _), zA, zero_sub]
  simp only [e]
  rw [intervalIntegral.integral_neg, int_swap Real.pi_pos Real.two_pi_pos hB]
  simp only [zB]
  simp

/-- Rotation about the z axis. -/
noncomputable def rz (x : ℝ) (v : ℝ × ℝ × ℝ) : ℝ × ℝ × ℝ :=
  (Real.cos x * v.1 - Real.sin x * v.2.1, Real.sin x * v.1 + Real.cos x * v.2.1, v.2.2)

theorem rz_pt (x θ φ : ℝ) : rz x (pt 0 θ φ) = pt 0 θ (φ + x) := by
  simp only [rz, pt, Real.cos_zero, Real.sin_zero, one_mul, zero_mul, add_zero, sub_zero, Real.cos_add, Real.sin_add,
    Prod.mk.injEq, and_true]
  constructor <;> ring

/-- Integrals over the sphere do not change under rotations. -/
theorem turn_all {g : ℝ × ℝ × ℝ → ℝ} (hg : ContDiff ℝ 1 g) (t x : ℝ) :
    sphereInt (fun θ φ => g (rz x (pt t θ φ))) = sphereInt (fun θ φ => g (pt 0 θ φ)) := by
  have h : ContDiff ℝ 1 fun v => g (rz x v) := hg.comp (by unfold rz; fun_prop)
  rw [turn_y h t]
  simp only [rz_pt]
  have := sphereInt_turn (F := fun θ φ => g (pt 0 θ φ)) (fun θ φ => by
    simp only [pt, Real.cos_add_two_pi, Real.sin_add_two_pi]) (-x)
  simpa only [sub_neg_eq_add] using this

/-- The spherical harmonic of degree `l` and order `m ≥ 0` as a function of the cartesian coordinates. -/
noncomputable def solid (l m : ℕ) (v : ℝ × ℝ × ℝ) : ℂ :=
  ((cLm l m * rodNorm l m * (rod l (l + m)).eval v.2.2 : ℝ) : ℂ) * ((v.1 : ℂ) + v.2.1 * Complex.I) ^ m

theorem solid_smooth (l m : ℕ) (w : ℂ) : ContDiff ℝ 1 fun v => (w * solid l m v).re := by
  have h0 : ContDiff ℝ 1 fun y : ℝ => (rod l (l + m)).eval y := by
    simpa using Polynomial.contDiff_aeval (𝕜 := ℝ) (rod l (l + m)) 1
  have h1 : ContDiff ℝ 1 fun v : ℝ × ℝ × ℝ => (rod l (l + m)).eval v.2.2 := h0.comp (contDiff_snd.comp contDiff_snd)
  have h2 : ContDiff ℝ 1 fun v : ℝ × ℝ × ℝ => (v.1 : ℂ) + v.2.1 * Complex.I :=
    (Complex.ofRealCLM.contDiff.comp contDiff_fst).add
      ((Complex.ofRealCLM.contDiff.comp (contDiff_fst.comp contDiff_snd)).mul contDiff_const)
  exact Complex.reCLM.contDiff.comp (contDiff_const.mul
    ((Complex.ofRealCLM.contDiff.comp (contDiff_const.mul h1)).mul (h2.pow m)))

theorem solid_dir (l m : ℕ) (θ φ : ℝ) : solid l m (pt 0 θ φ) = ((cLm l m * thP l m θ : ℝ) : ℂ) * expi m φ := by
  have e : ((Real.sin θ * Real.cos φ : ℝ) : ℂ) + (Real.sin θ * Real.sin φ : ℝ) * Complex.I = Real.sin θ * expi 1 φ := by
    rw [expi]
    push_cast
    rw [show Complex.I * 1 * (φ : ℂ) = φ * Complex.I by ring, Complex.exp_mul_I]
    ring
  simp only [solid, pt, Real.cos_zero, Real.sin_zero, one_mul, zero_mul, add_zero, sub_zero]
  rw [e, mul_pow, Wigner.expi_one_pow, thP]
  push_cast
  ring

theorem solid_sphY {l m : ℕ} (hm : m ≤ l) {θ : ℝ} (hs : 0 ≤ Real.sin θ) (φ : ℝ) :
    solid l m (pt 0 θ φ) = sphY l m θ φ := by
  rw [solid_dir, ImageLimit.sphY_thP (by simpa using hm) hs, ImageLimit.sgn, if_neg (by omega), one_mul]
  simp

open Quaternion in
/-- The rotation that takes the z axis to the observer, as a quaternion. -/
theorem moves_pt (t x θ φ θ' φ' : ℝ) (h : Moves (Rotate.fromEuler x t 0) θ φ θ' φ') : pt 0 θ' φ' = rz x (pt t θ φ) := by
  have c1 := (Wigner.half t).1
  have c2 := (Wigner.half t).2
  have d1 := (Wigner.half x).1
  have d2 := (Wigner.half x).2
  have u := Real.sin_sq_add_cos_sq (x / 2)
  have u' := Real.sin_sq_add_cos_sq (t / 2)
  have h1 := congrArg (fun q : ℍ[ℝ] => q.imI) h
  have h2 := congrArg (fun q : ℍ[ℝ] => q.imJ) h
  have h3 := congrArg (fun q : ℍ[ℝ] => q.imK) h
  simp at h1 h2 h3
  simp only [pt, rz, Real.cos_zero, Real.sin_zero, one_mul, zero_mul, add_zero, sub_zero, Prod.mk.injEq, ← h1, ← h2, ← h3]
  rw [c1, c2, d1, d2]
  generalize Real.sin θ * Real.cos φ = a
  generalize Real.sin θ * Real.sin φ = b
  generalize Real.cos θ = c
  generalize Real.cos (x / 2) = C at *
  generalize Real.sin (x / 2) = S at *
  generalize Real.cos (t / 2) = K at *
  generalize Real.sin (t / 2) = Z at *
  refine ⟨?_, ?_, ?_⟩
  · linear_combination (-2 * S * C * b) * u'
  · linear_combination ((C ^ 2 - S ^ 2) * b) * u'
  · linear_combination ((K ^ 2 - Z ^ 2) * c - 2 * Z * K * a) * u

theorem dot_turned (t x θ φ : ℝ) : dot3 (rz x (pt t 0 0)) (rz x (pt t θ φ)) = Real.cos θ := by
  have u := Real.sin_sq_add_cos_sq x
  have u' := Real.sin_sq_add_cos_sq t
  simp only [dot3, rz, pt, Real.cos_zero, Real.sin_zero]
  linear_combination (Real.sin t * (Real.cos t * (Real.sin θ * Real.cos φ) + Real.sin t * Real.cos θ)) * u + Real.cos θ * u'

theorem dot_pt (t x θ φ : ℝ) : dot3 (rz x (pt t 0 0)) (pt 0 θ φ) = kr t θ (φ - x) := by
  simp only [dot3, rz, pt, Real.cos_zero, Real.sin_zero, kr, Real.cos_sub]
  ring

/-- Funk-Hecke: against a function of the angle to the observer a spherical harmonic gives its value at the observer's
position, with a factor that depends on the degree only. -/
theorem funk {l m : ℕ} (hm : m ≤ l) (w : ℂ) {s : ℝ → ℝ} (hs : ContDiff ℝ 1 s) {t : ℝ} (ht : 0 ≤ Real.sin t) (x : ℝ) :
    sphereInt (fun θ φ => (w * (thP l m θ : ℝ) * expi m φ).re * s (kr t θ (φ - x)))
      = (w * (thP l m t : ℝ) * expi m x).re * (2 * Real.pi * ∫ θ in (0 : ℝ)..Real.pi, thP l 0 θ * s (Real.cos θ) * Real.sin θ) := by
  have hc : ((cLm l m : ℝ) : ℂ) ≠ 0 := by
    have := (C40_methods_agree (l : ℤ) m (by omega) (by omega)).2
    exact_mod_cast this.ne'
  have hml : |(m : ℤ)| ≤ (l : ℤ) := by simpa using hm
  have hg : ContDiff ℝ 1 fun v => (w / (cLm l m : ℝ) * solid l m v).re * s (dot3 (rz x (pt t 0 0)) v) := by
    refine (solid_smooth l m _).mul (hs.comp ?_)
    unfold dot3
    fun_prop
  have e0 : ∀ θ φ, (w * (thP l m θ : ℝ) * expi m φ).re * s (kr t θ (φ - x))
      = (w / (cLm l m : ℝ) * solid l m (pt 0 θ φ)).re * s (dot3 (rz x (pt t 0 0)) (pt 0 θ φ)) := by
    intro θ φ
    rw [solid_dir, dot_pt]
    congr 2
    push_cast
    field_simp
  simp only [e0]
  rw [← turn_all hg t x]
  set q : unitary (Quaternion ℝ) := ⟨Rotate.fromEuler x t 0,
    Unitary.mem_iff.2 ⟨Wigner.fromEuler_unit' x t 0, Wigner.fromEuler_unit x t 0⟩⟩ with hq
  set B : ℤ → ℝ → ℝ := fun k θ => ImageLimit.sgn k * cLm l |k| * thP l k.natAbs θ with hB
  set c : ℤ → ℂ := fun k => w / (cLm l m : ℝ) * Rotate.wignerD q l m k with hcd
  have e1 : sphereInt (fun θ φ => (w / (cLm l m : ℝ) * solid l m (rz x (pt t θ φ))).re
        * s (dot3 (rz x (pt t 0 0)) (rz x (pt t θ φ))))
      = sphereInt (fun θ φ => (∑ k ∈ Finset.Icc (-(l : ℤ)) l, c k * (B k θ : ℝ) * expi k φ).re * s (Real.cos θ)) := by
    refine sphereInt_congr fun θ φ hθ => ?_
    have hsθ := (Real.sin_pos_of_pos_of_lt_pi hθ.1 hθ.2).le
    obtain ⟨θ', φ', h0, h1, hM⟩ := C69_moves q θ φ
    have hsθ' := Real.sin_nonneg_of_nonneg_of_le_pi h0 h1
    rw [dot_turned, ← moves_pt t x θ φ θ' φ' hM, solid_sphY hm hsθ', ← C69_harmonics q hM hsθ hsθ' l m hml, Finset.mul_sum]
    congr 2
    refine Finset.sum_congr rfl fun k hk => ?_
    rw [Finset.mem_Icc] at hk
    rw [ImageLimit.sphY_thP (abs_le.2 hk) hsθ, Int.toNat_natCast]
    simp only [hcd, hB]
    ring
  rw [e1]
  have cE : ∀ k, Continuous fun p : ℝ × ℝ => (c k * (B k p.1 : ℝ) * expi k p.2) := fun k =>
    (continuous_const.mul (Complex.continuous_ofReal.comp
      ((continuous_const.mul (continuous_thP _ _)).comp continuous_fst))).mul ((Parseval.continuous_expi k).comp continuous_snd)
  have cS : Continuous fun p : ℝ × ℝ => (∑ k ∈ Finset.Icc (-(l : ℤ)) l, c k * (B k p.1 : ℝ) * expi k p.2).re
      * s (Real.cos p.1) * Real.sin p.1 :=
    ((Complex.continuous_re.comp (continuous_finset_sum _ fun k _ => cE k)).mul
      (hs.continuous.comp (Real.continuous_cos.comp continuous_fst))).mul (Real.continuous_sin.comp continuous_fst)
  rw [sphereInt, int_swap Real.pi_pos Real.two_pi_pos (h := fun θ φ => (∑ k ∈ Finset.Icc (-(l : ℤ)) l,
    c k * (B k θ : ℝ) * expi k φ).re * s (Real.cos θ) * Real.sin θ) cS]
  have inner : ∀ θ, ∫ φ in (0 : ℝ)..2 * Real.pi, (∑ k ∈ Finset.Icc (-(l : ℤ)) l, c k * (B k θ : ℝ) * expi k φ).re
      * s (Real.cos θ) * Real.sin θ = 2 * Real.pi * ((c 0).re * B 0 θ) * s (Real.cos θ) * Real.sin θ := by
    intro θ
    simp only [intervalIntegral.integral_mul_const, Complex.re_sum]
    have ci : ∀ k, Continuous fun φ : ℝ => (c k * (B k θ : ℝ) * expi k φ).re := fun k =>
      Complex.continuous_re.comp (continuous_const.mul (Parseval.continuous_expi k))
    rw [intervalIntegral.integral_finset_sum fun k _ => (ci k).intervalIntegrable _ _]
    simp only [Parseval.integral_re_expi]
    rw [Finset.sum_ite_eq' (Finset.Icc (-(l : ℤ)) l) 0, if_pos (by simp), Complex.re_mul_ofReal]
  simp only [inner]
  have hY := Wigner.sphY_wignerD (Wigner.fromEuler_unit x t 0) (Wigner.fromEuler_axis t x) ht hml
  rw [← solid_sphY hm ht, solid_dir] at hY
  have hc0 : cLm l 0 = Real.sqrt ((2 * l + 1) / (4 * Real.pi)) := by
    have h0 : (spFactorial l : ℝ) ≠ 0 := by simp [spFactorial, Nat.factorial_ne_zero]
    rw [cLm]
    simp only [Int.cast_natCast, sub_zero, add_zero]
    rw [mul_div_assoc, div_self h0, mul_one]
  have hB0 : ∀ θ, B 0 θ = cLm l 0 * thP l 0 θ := by
    intro θ
    simp [hB, ImageLimit.sgn]
  have hval : (c 0).re * cLm l 0 = (w * (thP l m t : ℝ) * expi m x).re := by
    rw [← Complex.re_mul_ofReal, hc0]
    congr 1
    simp only [hcd]
    have : w * (thP l m t : ℝ) * expi m x = w / (cLm l m : ℝ) * (((cLm l m * thP l m t : ℝ) : ℂ) * expi m x) := by
      push_cast
      field_simp
    rw [this, hY]
    push_cast
    ring
  rw [← hval, ← intervalIntegral.integral_const_mul, ← intervalIntegral.integral_const_mul]
  congr 1
  ext θ
  rw [hB0]
  ring

end Disc
end Verif
