import Verif.Props.Disc

/-!
# What does not show in the visible disc
-/

namespace Verif
open Geometry Spec

namespace Disc
open Zdi Riemann Rotation SphereLimit Legendre Analysis Filter Topology

variable {s s' : ℝ → ℝ}

theorem kr_dθ (t θ δ : ℝ) : HasDerivAt (fun θ => kr t θ δ) (kp t θ δ) θ := by
  have := (((Real.hasDerivAt_sin θ).mul_const (Real.sin t)).mul_const (Real.cos δ)).add
    ((Real.hasDerivAt_cos θ).mul_const (Real.cos t))
  unfold kr
  refine this.congr_deriv ?_
  rw [kp]
  ring

theorem kr_dφ (t x θ φ : ℝ) : HasDerivAt (fun φ => kr t θ (φ - x)) (Real.sin θ * ka t (φ - x)) φ := by
  have hc : HasDerivAt (fun φ => Real.cos (φ - x)) (-Real.sin (φ - x)) φ := by
    simpa using ((hasDerivAt_id φ).sub_const x).cos
  have := (hc.const_mul (Real.sin θ * Real.sin t)).add_const (Real.cos θ * Real.cos t)
  unfold kr
  refine this.congr_deriv ?_
  rw [ka]
  ring

theorem kp_dφ (t x θ φ : ℝ) : HasDerivAt (fun φ => kp t θ (φ - x)) (Real.cos θ * ka t (φ - x)) φ := by
  have hc : HasDerivAt (fun φ => Real.cos (φ - x)) (-Real.sin (φ - x)) φ := by
    simpa using ((hasDerivAt_id φ).sub_const x).cos
  have := (hc.const_mul (Real.cos θ * Real.sin t)).sub_const (Real.sin θ * Real.cos t)
  unfold kp
  refine this.congr_deriv ?_
  rw [ka]
  ring

/-- A rotated gradient against a function of the angle to the observer. -/
theorem jac_zero {T Tθ Tφ : ℝ → ℝ → ℝ} (dθ : ∀ θ φ, HasDerivAt (fun θ => T θ φ) (Tθ θ φ) θ)
    (dφ : ∀ θ φ, HasDerivAt (fun φ => T θ φ) (Tφ θ φ) φ) (cT : Continuous fun p : ℝ × ℝ => T p.1 p.2)
    (cθ : Continuous fun p : ℝ × ℝ => Tθ p.1 p.2) (cφ : Continuous fun p : ℝ × ℝ => Tφ p.1 p.2)
    (per : ∀ θ φ, T θ (φ + 2 * Real.pi) = T θ φ) (hs : ∀ x, HasDerivAt s (s' x) x) (hs' : Continuous s') (t x : ℝ) :
    ∫ φ in (0 : ℝ)..2 * Real.pi, ∫ θ in (0 : ℝ)..Real.pi,
      (Tφ θ φ * kp t θ (φ - x) - Tθ θ φ * (Real.sin θ * ka t (φ - x))) * s (kr t θ (φ - x)) = 0 := by
  have hsc : Continuous s := continuous_iff_continuousAt.2 fun x => (hs x).continuousAt
  let A : ℝ → ℝ → ℝ := fun θ φ => Tφ θ φ * (s (kr t θ (φ - x)) * kp t θ (φ - x)) + T θ φ *
    (s' (kr t θ (φ - x)) * (Real.sin θ * ka t (φ - x)) * kp t θ (φ - x) + s (kr t θ (φ - x)) * (Real.cos θ * ka t (φ - x)))
  let B : ℝ → ℝ → ℝ := fun θ φ => Tθ θ φ * (s (kr t θ (φ - x)) * (Real.sin θ * ka t (φ - x))) + T θ φ *
    (s' (kr t θ (φ - x)) * kp t θ (φ - x) * (Real.sin θ * ka t (φ - x)) + s (kr t θ (φ - x)) * (Real.cos θ * ka t (φ - x)))
  have key : ∀ θ φ, (Tφ θ φ * kp t θ (φ - x) - Tθ θ φ * (Real.sin θ * ka t (φ - x))) * s (kr t θ (φ - x)) = A θ φ - B θ φ := by
    intro θ φ
    simp only [A, B]
    ring
  have h1 : Continuous fun p : ℝ × ℝ => s (kr t p.1 (p.2 - x)) := hsc.comp (kr_cont t x)
  have h2 : Continuous fun p : ℝ × ℝ => s' (kr t p.1 (p.2 - x)) := hs'.comp (kr_cont t x)
  have h3 := kp_cont t x
  have h4 := ka_cont t x
  have h5 : Continuous fun p : ℝ × ℝ => Real.sin p.1 := Real.continuous_sin.comp continuous_fst
  have h6 : Continuous fun p : ℝ × ℝ => Real.cos p.1 := Real.continuous_cos.comp continuous_fst
  have hA : Continuous fun p : ℝ × ℝ => A p.1 p.2 :=
    (cφ.mul (h1.mul h3)).add (cT.mul (((h2.mul (h5.mul h4)).mul h3).add (h1.mul (h6.mul h4))))
  have hB : Continuous fun p : ℝ × ℝ => B p.1 p.2 :=
    (cθ.mul (h1.mul (h5.mul h4))).add (cT.mul (((h2.mul h3).mul (h5.mul h4)).add (h1.mul (h6.mul h4))))
  have zA : ∀ θ, ∫ φ in (0 : ℝ)..2 * Real.pi, A θ φ = 0 := by
    intro θ
    have p0 : T θ (2 * Real.pi) = T θ 0 := by have := per θ 0; rwa [zero_add] at this
    rw [intervalIntegral.integral_eq_sub_of_hasDerivAt (f := fun φ => T θ φ * (s (kr t θ (φ - x)) * kp t θ (φ - x)))
      (fun φ _ => ?_) (slice2 hA θ _ _)]
    · have e : Real.cos (2 * Real.pi - x) = Real.cos (0 - x) := by
        rw [Real.cos_two_pi_sub, zero_sub, Real.cos_neg]
      simp only [p0, kr, kp, e, sub_self]
    · exact (dφ θ φ).mul (((hs _).comp φ (kr_dφ t x θ φ)).mul (kp_dφ t x θ φ))
  have zB : ∀ φ, ∫ θ in (0 : ℝ)..Real.pi, B θ φ = 0 := by
    intro φ
    rw [intervalIntegral.integral_eq_sub_of_hasDerivAt
      (f := fun θ => T θ φ * (s (kr t θ (φ - x)) * (Real.sin θ * ka t (φ - x)))) (fun θ _ => ?_) (slice1 hB φ _ _)]
    · simp
    · exact (dθ θ φ).mul (((hs _).comp θ (kr_dθ t θ (φ - x))).mul ((Real.hasDerivAt_sin θ).mul_const _))
  simp only [key]
  have e : ∀ φ, ∫ θ in (0 : ℝ)..Real.pi, (A θ φ - B θ φ) = ∫ θ in (0 : ℝ)..Real.pi, A θ φ := by
    intro φ
    rw [intervalIntegral.integral_sub (slice1 hA φ _ _) (slice1 hB φ _ _), zB, sub_zero]
  simp only [e]
  rw [int_swap Real.pi_pos Real.two_pi_pos hA]
  simp only [zA]
  simp

/-- Integrals against the kernel of the disc are limits of those against smooth kernels. -/
theorem soft_limit {f : ℝ → ℝ → ℝ} (hf : Continuous fun p : ℝ × ℝ => f p.1 p.2) (t x : ℝ)
    (h : ∀ δ : ℝ, 0 < δ → sphereInt (fun θ φ => f θ φ * soft δ (kr t θ (φ - x))) = 0) :
    sphereInt (fun θ φ => f θ φ * max 0 (kr t θ (φ - x))) = 0 := by
  obtain ⟨C, hC⟩ := ((isCompact_Icc (a := (0 : ℝ)) (b := Real.pi)).prod
    (isCompact_Icc (a := (0 : ℝ)) (b := 2 * Real.pi))).exists_bound_of_continuousOn hf.continuousOn
  have hC0 : 0 ≤ C := (norm_nonneg _).trans (hC (0, 0) ⟨⟨le_refl _, Real.pi_pos.le⟩, le_refl _, Real.two_pi_pos.le⟩)
  have hm : Continuous fun p : ℝ × ℝ => max 0 (kr t p.1 (p.2 - x)) := continuous_const.max (kr_cont t x)
  rw [← abs_eq_zero]
  refine le_antisymm (le_of_forall_pos_le_add fun ε hε => ?_) (abs_nonneg _)
  rw [zero_add]
  have hpi := Real.pi_pos
  set δ := ε / ((C + 1) * Real.pi * (2 * Real.pi)) with hδ
  have hδ0 : 0 < δ := by positivity
  have hsc : Continuous (soft δ) := continuous_iff_continuousAt.2 fun x => (soft_deriv hδ0 x).continuousAt
  have hk : Continuous fun p : ℝ × ℝ => soft δ (kr t p.1 (p.2 - x)) := hsc.comp (kr_cont t x)
  have n := sphereInt_near_on (F := fun θ φ => f θ φ * max 0 (kr t θ (φ - x)))
    (G := fun θ φ => f θ φ * soft δ (kr t θ (φ - x))) (hf.mul hm) (hf.mul hk) (ε := (C + 1) * δ) fun θ φ a b c d => by
      rw [← mul_sub, abs_mul, abs_sub_comm]
      have h1 := hC (θ, φ) ⟨⟨a, b⟩, c, d⟩
      rw [Real.norm_eq_abs] at h1
      exact mul_le_mul (by linarith) (soft_near hδ0 _) (abs_nonneg _) (by positivity)
  rw [h δ hδ0, sub_zero] at n
  refine n.trans_eq ?_
  rw [hδ]
  field_simp

theorem sin_qP (u : ZRow → ℂ) {z : Zdi} (h : ∀ r ∈ z, 0 ≤ r.m) (θ φ : ℝ) :
    (harm (fun r => Complex.I * r.m * u r) qP z θ φ).re * Real.sin θ = (harm (fun r => Complex.I * r.m * u r) thP z θ φ).re := by
  rw [← Complex.re_mul_ofReal, harm, harm, ← List.sum_map_mul_right]
  congr 2
  refine List.map_congr_left fun r hr => ?_
  by_cases hm : r.m = 0
  · simp [hm]
  · obtain ⟨m, e⟩ := Nat.exists_eq_succ_of_ne_zero (show r.m.toNat ≠ 0 by have := h r hr; omega)
    rw [e, thP, qP, Nat.succ_sub_one, pow_succ]
    push_cast
    ring

theorem harm_period (w : ZRow → ℂ) (p : ℕ → ℕ → ℝ → ℝ) (z : Zdi) (θ φ : ℝ) :
    harm w p z θ (φ + 2 * Real.pi) = harm w p z θ φ := by
  rw [harm, harm]
  congr 1
  refine List.map_congr_left fun r _ => ?_
  rw [expi, expi, ← Complex.exp_periodic.int_mul r.m (Complex.I * r.m * φ)]
  congr 2
  push_cast
  ring

/-- The toroidal field does not show. -/
theorem toroidal_zero {z : Zdi} (h : ∀ r ∈ z, 0 ≤ r.m) (t x : ℝ) :
    sphereInt (fun θ φ => (cPT z θ φ * kp t θ (φ - x) + cAT z θ φ * ka t (φ - x)) * max 0 (kr t θ (φ - x))) = 0 := by
  refine soft_limit (f := fun θ φ => cPT z θ φ * kp t θ (φ - x) + cAT z θ φ * ka t (φ - x))
    (((cPT_cont z).mul (kp_cont t x)).add ((cAT_cont z).mul (ka_cont t x))) t x fun δ hδ => ?_
  have hd : Continuous fun x : ℝ => (1 + x / Real.sqrt (x ^ 2 + δ ^ 2)) / 2 := by
    refine (continuous_const.add (continuous_id.div (by fun_prop) fun x => ?_)).div_const 2
    have : 0 < x ^ 2 + δ ^ 2 := by positivity
    exact (Real.sqrt_pos.2 this).ne'
  have := jac_zero (T := fun θ φ => (harm wv thP z θ φ).re) (Tθ := fun θ φ => (harm wv thD z θ φ).re)
    (Tφ := fun θ φ => (harm (fun r => Complex.I * r.m * wv r) thP z θ φ).re)
    (fun θ φ => hasDerivAt_re (harm_deriv_polar wv thP thD z θ φ fun r _ => hasDerivAt_thP _ _ θ))
    (fun θ φ => hasDerivAt_re (harm_deriv_azimuth wv thP z θ φ)) (continuous_harm _ continuous_thP z)
    (continuous_harm _ continuous_thD z) (continuous_harm _ continuous_thP z) (fun θ φ => by rw [harm_period])
    (soft_deriv hδ) hd t x
  rw [← this, sphereInt]
  congr 1
  ext φ
  congr 1
  ext θ
  rw [← sin_qP wv h, cPT, cAT]
  ring

/-- The component towards the observer of the poloidal field. -/
noncomputable def cLP (z : Zdi) (t x θ φ : ℝ) : ℝ :=
  cR z θ φ * kr t θ (φ - x) + cPP z θ φ * kp t θ (φ - x) + cAP z θ φ * ka t (φ - x)

theorem cLP_cont (z : Zdi) (t x : ℝ) : Continuous fun p : ℝ × ℝ => cLP z t x p.1 p.2 :=
  (((cR_cont z).mul (kr_cont t x)).add ((cPP_cont z).mul (kp_cont t x))).add ((cAP_cont z).mul (ka_cont t x))

theorem sphereInt_add {f g : ℝ → ℝ → ℝ} (hf : Continuous fun p : ℝ × ℝ => f p.1 p.2) (hg : Continuous fun p : ℝ × ℝ => g p.1 p.2) :
    sphereInt (fun θ φ => f θ φ + g θ φ) = sphereInt f + sphereInt g := by
  have s : ∀ {H : ℝ → ℝ → ℝ}, (Continuous fun p : ℝ × ℝ => H p.1 p.2) → Continuous fun p : ℝ × ℝ => H p.1 p.2 * Real.sin p.1 :=
    fun hH => hH.mul (Real.continuous_sin.comp continuous_fst)
  rw [sphereInt, sphereInt, sphereInt, ← intervalIntegral.integral_add
    ((inner_cont (h := fun θ φ => f θ φ * Real.sin θ) (s hf) _).intervalIntegrable _ _)
    ((inner_cont (h := fun θ φ => g θ φ * Real.sin θ) (s hg) _).intervalIntegrable _ _)]
  congr 1
  ext φ
  rw [← intervalIntegral.integral_add (slice1 (h := fun θ φ => f θ φ * Real.sin θ) (s hf) φ _ _)
    (slice1 (h := fun θ φ => g θ φ * Real.sin θ) (s hg) φ _ _)]
  congr 1
  ext θ
  ring

theorem sphereInt_mul (c : ℝ) (f : ℝ → ℝ → ℝ) : sphereInt (fun θ φ => c * f θ φ) = c * sphereInt f := by
  simp only [sphereInt, mul_assoc, intervalIntegral.integral_const_mul]

/-- Only the poloidal field counts. -/
theorem sphereInt_poloidal {z : Zdi} (h : ∀ r ∈ z, 0 ≤ r.m) (t x : ℝ) :
    sphereInt (fun θ φ => cL z t x θ φ * max 0 (kr t θ (φ - x)))
      = sphereInt (fun θ φ => cLP z t x θ φ * max 0 (kr t θ (φ - x))) := by
  have hm : Continuous fun p : ℝ × ℝ => max 0 (kr t p.1 (p.2 - x)) := continuous_const.max (kr_cont t x)
  have e := sphereInt_add (f := fun θ φ => cLP z t x θ φ * max 0 (kr t θ (φ - x)))
    (g := fun θ φ => (cPT z θ φ * kp t θ (φ - x) + cAT z θ φ * ka t (φ - x)) * max 0 (kr t θ (φ - x)))
    ((cLP_cont z t x).mul hm) ((((cPT_cont z).mul (kp_cont t x)).add ((cAT_cont z).mul (ka_cont t x))).mul hm)
  rw [toroidal_zero h t x, add_zero] at e
  rw [← e]
  congr 1
  funext θ φ
  rw [cL, cLP]
  ring

end Disc
end Verif
