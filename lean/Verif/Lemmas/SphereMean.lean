import Verif.Lemmas.Equidist
import Verif.Lemmas.FunkHecke

/-!
# Continuous functions on the unit sphere: approximation by polynomials, means, averages over a spiral
-/

namespace Verif
namespace Equidist
open Filter Topology SphereLimit Disc

/-- The unit sphere. -/
def S2 : Set (ℝ × ℝ × ℝ) := {p | p.1 ^ 2 + p.2.1 ^ 2 + p.2.2 ^ 2 = 1}

theorem S2_compact : IsCompact S2 := by
  refine Metric.isCompact_of_isClosed_isBounded ?_ ?_
  · exact isClosed_eq (by fun_prop) continuous_const
  · refine (Metric.isBounded_closedBall (x := (0 : ℝ × ℝ × ℝ)) (r := 1)).subset fun p hp => ?_
    have h : p.1 ^ 2 + p.2.1 ^ 2 + p.2.2 ^ 2 = 1 := hp
    rw [mem_closedBall_zero_iff, Prod.norm_def, Prod.norm_def]
    refine max_le ?_ (max_le ?_ ?_) <;> rw [Real.norm_eq_abs] <;> refine abs_le_of_sq_le_sq ?_ zero_le_one <;>
      nlinarith [sq_nonneg p.1, sq_nonneg p.2.1, sq_nonneg p.2.2]

/-- Polynomials in the coordinates. -/
inductive Poly : (ℝ × ℝ × ℝ → ℝ) → Prop
  | const (c : ℝ) : Poly fun _ => c
  | x : Poly fun p => p.1
  | y : Poly fun p => p.2.1
  | z : Poly fun p => p.2.2
  | add {f g} : Poly f → Poly g → Poly fun p => f p + g p
  | mul {f g} : Poly f → Poly g → Poly fun p => f p * g p

theorem Poly.smooth {f : ℝ × ℝ × ℝ → ℝ} (h : Poly f) : ContDiff ℝ 1 f := by
  induction h with
  | const c => exact contDiff_const
  | x => fun_prop
  | y => fun_prop
  | z => fun_prop
  | add _ _ h1 h2 => exact h1.add h2
  | mul _ _ h1 h2 => exact h1.mul h2

/-- Stone and Weierstrass on the sphere. -/
theorem approx {f : ℝ × ℝ × ℝ → ℝ} (hf : ContinuousOn f S2) {ε : ℝ} (hε : 0 < ε) :
    ∃ g, Poly g ∧ ∀ p ∈ S2, |g p - f p| < ε := by
  haveI : CompactSpace S2 := isCompact_iff_compactSpace.1 S2_compact
  let cx : C(S2, ℝ) := ⟨fun p => p.1.1, by fun_prop⟩
  let cy : C(S2, ℝ) := ⟨fun p => p.1.2.1, by fun_prop⟩
  let cz : C(S2, ℝ) := ⟨fun p => p.1.2.2, by fun_prop⟩
  let A := Algebra.adjoin ℝ ({cx, cy, cz} : Set C(S2, ℝ))
  have hsep : A.SeparatesPoints := by
    intro p q hpq
    by_contra hc
    push Not at hc
    have mem : ∀ c ∈ ({cx, cy, cz} : Set C(S2, ℝ)), c p = c q := fun c h => hc _ ⟨c, Algebra.subset_adjoin h, rfl⟩
    have h1 : p.1.1 = q.1.1 := mem cx (by simp)
    have h2 : p.1.2.1 = q.1.2.1 := mem cy (by simp)
    have h3 : p.1.2.2 = q.1.2.2 := mem cz (by simp)
    exact hpq (Subtype.ext (Prod.ext h1 (Prod.ext h2 h3)))
  obtain ⟨⟨g, hg⟩, hgf⟩ := ContinuousMap.exists_mem_subalgebra_near_continuousMap_of_separatesPoints A hsep
    ⟨fun p : S2 => f p, continuousOn_iff_continuous_domRestrict.1 hf⟩ ε hε
  have hP : ∃ G, Poly G ∧ ∀ p : S2, g p = G p := by
    clear hgf
    induction hg using Algebra.adjoin_induction with
    | mem c h =>
      rcases h with rfl | rfl | rfl
      · exact ⟨_, .x, fun _ => rfl⟩
      · exact ⟨_, .y, fun _ => rfl⟩
      · exact ⟨_, .z, fun _ => rfl⟩
    | algebraMap r => exact ⟨_, .const r, fun _ => rfl⟩
    | add a b _ _ h1 h2 =>
      obtain ⟨G, hG, e1⟩ := h1
      obtain ⟨H, hH, e2⟩ := h2
      exact ⟨_, hG.add hH, fun p => by rw [ContinuousMap.add_apply, e1, e2]⟩
    | mul a b _ _ h1 h2 =>
      obtain ⟨G, hG, e1⟩ := h1
      obtain ⟨H, hH, e2⟩ := h2
      exact ⟨_, hG.mul hH, fun p => by rw [ContinuousMap.mul_apply, e1, e2]⟩
  obtain ⟨G, hG, e⟩ := hP
  refine ⟨G, hG, fun p hp => ?_⟩
  rw [ContinuousMap.norm_lt_iff _ hε] at hgf
  have := hgf ⟨p, hp⟩
  simp only [ContinuousMap.sub_apply, ContinuousMap.coe_mk, Real.norm_eq_abs] at this
  rwa [e] at this

/-! ### Means -/

theorem int_close {F G : ℝ → ℝ → ℝ} (hF : Continuous fun p : ℝ × ℝ => F p.1 p.2) (hG : Continuous fun p : ℝ × ℝ => G p.1 p.2) {ε : ℝ}
    (h : ∀ θ φ, |F θ φ - G θ φ| ≤ ε) : |sphereInt F - sphereInt G| ≤ ε * (2 * Real.pi ^ 2) := by
  have hε : 0 ≤ ε := (abs_nonneg _).trans (h 0 0)
  have cF : Continuous fun p : ℝ × ℝ => F p.1 p.2 * Real.sin p.1 := hF.mul (Real.continuous_sin.comp continuous_fst)
  have cG : Continuous fun p : ℝ × ℝ => G p.1 p.2 * Real.sin p.1 := hG.mul (Real.continuous_sin.comp continuous_fst)
  have iF : Continuous fun φ => ∫ θ in (0 : ℝ)..Real.pi, F θ φ * Real.sin θ :=
    intervalIntegral.continuous_parametric_intervalIntegral_of_continuous' (f := fun φ θ => F θ φ * Real.sin θ) (cF.comp continuous_swap) 0 _
  have iG : Continuous fun φ => ∫ θ in (0 : ℝ)..Real.pi, G θ φ * Real.sin θ :=
    intervalIntegral.continuous_parametric_intervalIntegral_of_continuous' (f := fun φ θ => G θ φ * Real.sin θ) (cG.comp continuous_swap) 0 _
  have sF : ∀ φ, Continuous fun θ => F θ φ * Real.sin θ := fun φ => cF.comp (continuous_id.prodMk continuous_const)
  have sG : ∀ φ, Continuous fun θ => G θ φ * Real.sin θ := fun φ => cG.comp (continuous_id.prodMk continuous_const)
  unfold sphereInt
  rw [← intervalIntegral.integral_sub (iF.intervalIntegrable _ _) (iG.intervalIntegrable _ _)]
  have inner : ∀ φ, ‖(∫ θ in (0 : ℝ)..Real.pi, F θ φ * Real.sin θ) - ∫ θ in (0 : ℝ)..Real.pi, G θ φ * Real.sin θ‖ ≤ ε * Real.pi := by
    intro φ
    rw [← intervalIntegral.integral_sub ((sF φ).intervalIntegrable _ _) ((sG φ).intervalIntegrable _ _)]
    have := intervalIntegral.norm_integral_le_of_norm_le_const (a := 0) (b := Real.pi) (C := ε)
      (f := fun θ => F θ φ * Real.sin θ - G θ φ * Real.sin θ) (fun θ _ => by
        rw [← sub_mul, norm_mul, Real.norm_eq_abs, Real.norm_eq_abs]
        calc _ ≤ ε * 1 := mul_le_mul (h θ φ) (Real.abs_sin_le_one θ) (abs_nonneg _) hε
          _ = ε := mul_one ε)
    rwa [sub_zero, abs_of_pos Real.pi_pos] at this
  have := intervalIntegral.norm_integral_le_of_norm_le_const (a := 0) (b := 2 * Real.pi) (C := ε * Real.pi)
    (f := fun φ => (∫ θ in (0 : ℝ)..Real.pi, F θ φ * Real.sin θ) - ∫ θ in (0 : ℝ)..Real.pi, G θ φ * Real.sin θ) (fun φ _ => inner φ)
  rw [sub_zero, abs_of_pos Real.two_pi_pos, Real.norm_eq_abs] at this
  linarith

/-- Two ways to go around the sphere that agree on polynomials give the same integrals of continuous functions. -/
theorem int_unique {P Q : ℝ → ℝ → ℝ × ℝ × ℝ} (hP : Continuous fun p : ℝ × ℝ => P p.1 p.2) (hQ : Continuous fun p : ℝ × ℝ => Q p.1 p.2)
    (mP : ∀ θ φ, P θ φ ∈ S2) (mQ : ∀ θ φ, Q θ φ ∈ S2)
    (h : ∀ g, Poly g → sphereInt (fun θ φ => g (P θ φ)) = sphereInt (fun θ φ => g (Q θ φ)))
    {f : ℝ × ℝ × ℝ → ℝ} (hf : ContinuousOn f S2) : sphereInt (fun θ φ => f (P θ φ)) = sphereInt (fun θ φ => f (Q θ φ)) := by
  have cP : Continuous fun p : ℝ × ℝ => f (P p.1 p.2) := hf.comp_continuous hP fun p => mP _ _
  have cQ : Continuous fun p : ℝ × ℝ => f (Q p.1 p.2) := hf.comp_continuous hQ fun p => mQ _ _
  refine eq_of_abs_sub_le_all fun ε hε => ?_
  have hpi : (0 : ℝ) < 2 * Real.pi ^ 2 := by positivity
  obtain ⟨g, hg, hgf⟩ := approx hf (ε := ε / 2 / (2 * Real.pi ^ 2)) (by positivity)
  have h1 := int_close (F := fun θ φ => g (P θ φ)) (hg.smooth.continuous.comp hP) cP (ε := ε / 2 / (2 * Real.pi ^ 2))
    fun θ φ => (hgf _ (mP θ φ)).le
  have h2 := int_close (F := fun θ φ => g (Q θ φ)) (hg.smooth.continuous.comp hQ) cQ (ε := ε / 2 / (2 * Real.pi ^ 2))
    fun θ φ => (hgf _ (mQ θ φ)).le
  rw [div_mul_cancel₀ _ hpi.ne'] at h1 h2
  rw [h g hg] at h1
  rw [abs_le] at *
  constructor <;> linarith [h1.1, h1.2, h2.1, h2.2]

/-- The sphere with the y axis as the polar axis, as the spiral has it. -/
noncomputable def yp (θ φ : ℝ) : ℝ × ℝ × ℝ := (Real.sin θ * Real.cos φ, Real.cos θ, Real.sin θ * Real.sin φ)

theorem yp_cont : Continuous fun p : ℝ × ℝ => yp p.1 p.2 := by unfold yp; fun_prop

theorem yp_mem (θ φ : ℝ) : yp θ φ ∈ S2 := by
  have h1 := Real.sin_sq_add_cos_sq θ
  have h2 := Real.sin_sq_add_cos_sq φ
  show (Real.sin θ * Real.cos φ) ^ 2 + Real.cos θ ^ 2 + (Real.sin θ * Real.sin φ) ^ 2 = 1
  linear_combination Real.sin θ ^ 2 * h2 + h1

theorem pt_mem (t θ φ : ℝ) : pt t θ φ ∈ S2 := by
  have h1 := Real.sin_sq_add_cos_sq θ
  have h2 := Real.sin_sq_add_cos_sq φ
  have h3 := Real.sin_sq_add_cos_sq t
  show (Real.cos t * (Real.sin θ * Real.cos φ) + Real.sin t * Real.cos θ) ^ 2 + (Real.sin θ * Real.sin φ) ^ 2
    + (Real.cos t * Real.cos θ - Real.sin t * (Real.sin θ * Real.cos φ)) ^ 2 = 1
  linear_combination Real.sin θ ^ 2 * h2 + h1 + (Real.sin θ ^ 2 * Real.cos φ ^ 2 + Real.cos θ ^ 2) * h3

theorem sphereInt_mirror {F : ℝ → ℝ → ℝ} (hp : ∀ θ φ, F θ (φ + 2 * Real.pi) = F θ φ) :
    sphereInt (fun θ φ => F θ (-φ)) = sphereInt F := by
  have h1 : Function.Periodic (fun φ => ∫ θ in (0 : ℝ)..Real.pi, F θ φ * Real.sin θ) (2 * Real.pi) := by
    intro φ
    simp only [hp]
  rw [sphereInt, sphereInt, intervalIntegral.integral_comp_neg (fun φ => ∫ θ in (0 : ℝ)..Real.pi, F θ φ * Real.sin θ)]
  have := h1.intervalIntegral_add_eq (-(2 * Real.pi)) 0
  simpa using this

/-- It does not matter which axis is the polar one. -/
theorem y_axis {f : ℝ × ℝ × ℝ → ℝ} (hf : ContinuousOn f S2) :
    sphereInt (fun θ φ => f (yp θ φ)) = sphereInt (fun θ φ => f (pt 0 θ φ)) := by
  refine int_unique yp_cont (pt_cont2 0) yp_mem (pt_mem 0) (fun g hg => ?_) hf
  rw [← turn_all hg.smooth (Real.pi / 2) (Real.pi / 2)]
  have per : ∀ θ φ, g (yp θ (φ + 2 * Real.pi)) = g (yp θ φ) := fun θ φ => by
    simp only [yp, Real.cos_add_two_pi, Real.sin_add_two_pi]
  rw [← sphereInt_turn per (Real.pi / 2), ← sphereInt_mirror (fun θ φ => by
    rw [show φ + 2 * Real.pi - Real.pi / 2 = φ - Real.pi / 2 + 2 * Real.pi by ring, per])]
  congr 1
  funext θ φ
  congr 1
  simp only [yp, rz, pt, Real.cos_pi_div_two, Real.sin_pi_div_two, Real.cos_sub_pi_div_two, Real.sin_sub_pi_div_two, Real.sin_neg,
    Real.cos_neg, Prod.mk.injEq]
  refine ⟨by ring, by ring, by ring⟩

/-- Means over the sphere do not change under rotations, for all continuous functions. -/
theorem turn_cont {f : ℝ × ℝ × ℝ → ℝ} (hf : ContinuousOn f S2) (t x : ℝ) :
    sphereInt (fun θ φ => f (rz x (pt t θ φ))) = sphereInt (fun θ φ => f (pt 0 θ φ)) := by
  refine int_unique (P := fun θ φ => rz x (pt t θ φ)) ?_ (pt_cont2 0) (fun θ φ => ?_) (pt_mem 0) (fun g hg => turn_all hg.smooth t x) hf
  · have := pt_cont2 t
    unfold rz
    fun_prop
  · have h1 : (pt t θ φ).1 ^ 2 + (pt t θ φ).2.1 ^ 2 + (pt t θ φ).2.2 ^ 2 = 1 := pt_mem t θ φ
    have h2 := Real.sin_sq_add_cos_sq x
    show (Real.cos x * (pt t θ φ).1 - Real.sin x * (pt t θ φ).2.1) ^ 2
      + (Real.sin x * (pt t θ φ).1 + Real.cos x * (pt t θ φ).2.1) ^ 2 + (pt t θ φ).2.2 ^ 2 = 1
    linear_combination ((pt t θ φ).1 ^ 2 + (pt t θ φ).2.1 ^ 2) * h2 + h1

/-! ### Averages over the spiral -/

/-- Sums of products of a continuous function of the height and a harmonic of the azimuth. -/
inductive Trig : (ℝ → ℝ → ℂ) → Prop
  | term {h : ℝ → ℂ} (hc : Continuous h) (m : ℤ) : Trig fun y φ => h y * ex m φ
  | add {F G} : Trig F → Trig G → Trig fun y φ => F y φ + G y φ

theorem Trig.mul {F G : ℝ → ℝ → ℂ} (hF : Trig F) (hG : Trig G) : Trig fun y φ => F y φ * G y φ := by
  induction hF with
  | @term h hc m =>
    induction hG with
    | @term k kc l =>
      have := Trig.term (hc.mul kc) (m + l)
      convert this using 3 with y φ
      rw [← ex_mul, Pi.mul_apply]; ring
    | add _ _ h1 h2 =>
      have := h1.add h2
      convert this using 3 with y φ
      ring
  | add _ _ h1 h2 =>
    have := h1.add h2
    convert this using 3 with y φ
    ring

theorem ex_cont (m : ℤ) : Continuous (ex m) := by unfold ex; fun_prop

theorem Trig.cont {F : ℝ → ℝ → ℂ} (hF : Trig F) : Continuous fun p : ℝ × ℝ => F p.1 p.2 := by
  induction hF with
  | term hc m => exact (hc.comp continuous_fst).mul ((ex_cont m).comp continuous_snd)
  | add _ _ h1 h2 => exact h1.add h2

/-- A point of the sphere by its height and azimuth. -/
noncomputable def hp (y φ : ℝ) : ℝ × ℝ × ℝ := (Real.cos φ * Real.sqrt (1 - y ^ 2), y, Real.sin φ * Real.sqrt (1 - y ^ 2))

theorem cos_trig : Trig fun y φ => ((Real.cos φ * Real.sqrt (1 - y ^ 2) : ℝ) : ℂ) := by
  have hc : Continuous fun y : ℝ => ((Real.sqrt (1 - y ^ 2) : ℝ) : ℂ) / 2 := by fun_prop
  have := (Trig.term hc 1).add (Trig.term hc (-1))
  convert this using 3 with y φ
  simp only [ex]
  push_cast
  rw [Complex.cos]
  ring_nf

theorem sin_trig : Trig fun y φ => ((Real.sin φ * Real.sqrt (1 - y ^ 2) : ℝ) : ℂ) := by
  have hc : Continuous fun y : ℝ => ((Real.sqrt (1 - y ^ 2) : ℝ) : ℂ) * (Complex.I / 2) := by fun_prop
  have hc' : Continuous fun y : ℝ => ((Real.sqrt (1 - y ^ 2) : ℝ) : ℂ) * (-Complex.I / 2) := by fun_prop
  have := (Trig.term hc (-1)).add (Trig.term hc' 1)
  convert this using 3 with y φ
  simp only [ex]
  push_cast
  rw [Complex.sin]
  ring_nf

/-- Polynomials on the sphere have finitely many harmonics in the azimuth. -/
theorem Poly.trig {g : ℝ × ℝ × ℝ → ℝ} (hg : Poly g) : Trig fun y φ => ((g (hp y φ) : ℝ) : ℂ) := by
  induction hg with
  | const c =>
    have := Trig.term (h := fun _ => (c : ℂ)) continuous_const 0
    simpa only [ex_zero, mul_one] using this
  | x => exact cos_trig
  | y =>
    have := Trig.term Complex.continuous_ofReal 0
    simp only [ex_zero, mul_one] at this
    exact this
  | z => exact sin_trig
  | add _ _ h1 h2 => have := h1.add h2; simpa only [Complex.ofReal_add] using this
  | mul _ _ h1 h2 => have := h1.mul h2; simpa only [Complex.ofReal_mul] using this

/-- The mean of a function of height and azimuth. -/
noncomputable def cmean (F : ℝ → ℝ → ℂ) : ℂ :=
  (∫ φ in (0 : ℝ)..2 * Real.pi, ∫ θ in (0 : ℝ)..Real.pi, F (Real.cos θ) φ * (Real.sin θ : ℂ)) / (4 * Real.pi)

theorem Trig.slice {F : ℝ → ℝ → ℂ} (hF : Trig F) (φ : ℝ) : Continuous fun θ : ℝ => F (Real.cos θ) φ * (Real.sin θ : ℂ) := by
  have h1 : Continuous fun θ : ℝ => (Real.cos θ, φ) := by fun_prop
  have h2 : Continuous fun θ : ℝ => (Real.sin θ : ℂ) := by fun_prop
  have h3 : Continuous fun θ : ℝ => F (Real.cos θ) φ := hF.cont.comp h1
  exact h3.mul h2

theorem Trig.inner {F : ℝ → ℝ → ℂ} (hF : Trig F) :
    Continuous fun φ : ℝ => ∫ θ in (0 : ℝ)..Real.pi, F (Real.cos θ) φ * (Real.sin θ : ℂ) := by
  have h1 : Continuous fun p : ℝ × ℝ => (Real.cos p.2, p.1) := by fun_prop
  have h2 : Continuous fun p : ℝ × ℝ => (Real.sin p.2 : ℂ) := by fun_prop
  have h3 : Continuous fun p : ℝ × ℝ => F (Real.cos p.2) p.1 := hF.cont.comp h1
  have h4 : Continuous fun p : ℝ × ℝ => F (Real.cos p.2) p.1 * (Real.sin p.2 : ℂ) := h3.mul h2
  exact intervalIntegral.continuous_parametric_intervalIntegral_of_continuous' h4 0 Real.pi

theorem cmean_add {F G : ℝ → ℝ → ℂ} (hF : Trig F) (hG : Trig G) : cmean (fun y φ => F y φ + G y φ) = cmean F + cmean G := by
  unfold cmean
  rw [← add_div, ← intervalIntegral.integral_add (hF.inner.intervalIntegrable _ _) (hG.inner.intervalIntegrable _ _)]
  congr 1
  refine intervalIntegral.integral_congr fun φ _ => ?_
  dsimp only
  rw [← intervalIntegral.integral_add ((hF.slice φ).intervalIntegrable _ _) ((hG.slice φ).intervalIntegrable _ _)]
  simp only [add_mul]

theorem zone {h : ℝ → ℂ} (hc : Continuous h) : ∫ θ in (0 : ℝ)..Real.pi, h (Real.cos θ) * (Real.sin θ : ℂ) = ∫ y in (-1 : ℝ)..1, h y := by
  have := intervalIntegral.integral_deriv_smul_comp (a := 0) (b := Real.pi) (f := Real.cos) (f' := fun x => -Real.sin x) (g := h)
    (fun x _ => Real.hasDerivAt_cos x) (Real.continuous_sin.neg.continuousOn) hc
  rw [Real.cos_zero, Real.cos_pi, intervalIntegral.integral_symm (-1 : ℝ) 1] at this
  rw [← neg_inj, ← this, ← intervalIntegral.integral_neg]
  refine intervalIntegral.integral_congr fun θ _ => ?_
  simp only [Function.comp_apply, Complex.real_smul]
  push_cast; ring

theorem circle (m : ℤ) : ∫ φ in (0 : ℝ)..2 * Real.pi, ex m φ = if m = 0 then (2 * Real.pi : ℂ) else 0 := by
  split_ifs with h
  · subst h
    simp only [ex_zero, intervalIntegral.integral_const, sub_zero, Complex.real_smul, mul_one]
    push_cast; rfl
  · unfold ex
    have hc : Complex.I * (m : ℂ) ≠ 0 := mul_ne_zero Complex.I_ne_zero (by exact_mod_cast h)
    rw [integral_exp_mul_complex hc]
    have e : Complex.exp (Complex.I * m * ((2 * Real.pi : ℝ) : ℂ)) = 1 := by
      rw [Complex.exp_eq_one_iff]; exact ⟨m, by push_cast; ring⟩
    rw [e]; simp

theorem cmean_term {h : ℝ → ℂ} (hc : Continuous h) (m : ℤ) :
    cmean (fun y φ => h y * ex m φ) = if m = 0 then (∫ y in (-1 : ℝ)..1, h y) / 2 else 0 := by
  unfold cmean
  have e : ∀ φ, ∫ θ in (0 : ℝ)..Real.pi, h (Real.cos θ) * ex m φ * (Real.sin θ : ℂ) = (∫ y in (-1 : ℝ)..1, h y) * ex m φ := by
    intro φ
    rw [← zone hc, ← intervalIntegral.integral_mul_const]
    refine intervalIntegral.integral_congr fun θ _ => ?_
    ring
  simp only [e]
  rw [intervalIntegral.integral_const_mul, circle]
  have := Real.pi_pos.ne'
  have hpi : (Real.pi : ℂ) ≠ 0 := by exact_mod_cast this
  split_ifs with h0
  · field_simp; norm_num
  · simp

theorem mid_real {h : ℝ → ℝ} (hc : Continuous h) :
    Tendsto (fun n : ℕ => (∑ i ∈ Finset.range n, h (height n i)) / n) atTop (𝓝 ((∫ y in (-1 : ℝ)..1, h y) / 2)) := by
  have := (Riemann.midSum_tendsto (b := 2) two_pos (h := fun x => h (x - 1)) (by fun_prop)).div_const 2
  rw [intervalIntegral.integral_comp_sub_right (fun x => h x) 1] at this
  norm_num at this
  refine this.congr fun n => ?_
  rw [Riemann.midSum]
  have e : ∀ i, Riemann.node 2 n i - 1 = height n i := fun i => by unfold Riemann.node height; ring
  simp only [e]
  ring

theorem mid {h : ℝ → ℂ} (hc : Continuous h) :
    Tendsto (fun n : ℕ => (∑ i ∈ Finset.range n, h (height n i)) / n) atTop (𝓝 ((∫ y in (-1 : ℝ)..1, h y) / 2)) := by
  have hr := Complex.continuous_re.comp hc
  have hi := Complex.continuous_im.comp hc
  have t1 := (Complex.continuous_ofReal.tendsto _).comp (mid_real hr)
  have t2 := ((Complex.continuous_ofReal.tendsto _).comp (mid_real hi)).mul_const Complex.I
  have e : (∫ y in (-1 : ℝ)..1, h y) / 2 = (((∫ y in (-1 : ℝ)..1, (Complex.re ∘ h) y) / 2 : ℝ) : ℂ)
      + (((∫ y in (-1 : ℝ)..1, (Complex.im ∘ h) y) / 2 : ℝ) : ℂ) * Complex.I := by
    push_cast
    rw [← intervalIntegral.integral_ofReal, ← intervalIntegral.integral_ofReal, div_mul_eq_mul_div, ← add_div,
      ← intervalIntegral.integral_mul_const, ← intervalIntegral.integral_add]
    · congr 1
      refine intervalIntegral.integral_congr fun y _ => ?_
      exact (Complex.re_add_im (h y)).symm
    · exact (Complex.continuous_ofReal.comp hr).intervalIntegrable _ _
    · exact ((Complex.continuous_ofReal.comp hi).mul continuous_const).intervalIntegrable _ _
  rw [e]
  refine (t1.add t2).congr fun n => ?_
  simp only [Function.comp_apply]
  push_cast
  rw [div_mul_eq_mul_div, ← add_div, Finset.sum_mul, ← Finset.sum_add_distrib]
  congr 1
  exact Finset.sum_congr rfl fun i _ => Complex.re_add_im _

/-- Averages of finitely many harmonics converge to the mean. -/
theorem trig_tendsto {F : ℝ → ℝ → ℂ} (hF : Trig F) {rnd : ℕ → ℝ} (h0 : ∀ n, 0 ≤ rnd n) (h1 : ∀ n, 0 < n → rnd n ≤ n) :
    Tendsto (fun n : ℕ => (∑ i ∈ Finset.range n, F (height n i) (azim n (rnd n) i)) / n) atTop (𝓝 (cmean F)) := by
  induction hF with
  | @term h hc m =>
    rw [cmean_term hc]
    split_ifs with hm
    · subst hm
      simp only [ex_zero, mul_one]
      exact mid hc
    · exact osc_azim hc h0 h1 hm
  | @add F G hF hG t1 t2 =>
    rw [cmean_add hF hG]
    refine (t1.add t2).congr fun n => ?_
    rw [← add_div, Finset.sum_add_distrib]

theorem hp_cos {θ : ℝ} (h0 : 0 ≤ θ) (h1 : θ ≤ Real.pi) (φ : ℝ) : hp (Real.cos θ) φ = yp θ φ := by
  have : Real.sqrt (1 - Real.cos θ ^ 2) = Real.sin θ := by
    rw [← Real.sin_sq, Real.sqrt_sq (Real.sin_nonneg_of_nonneg_of_le_pi h0 h1)]
  simp only [hp, yp, this, mul_comm]

theorem cmean_real (f : ℝ × ℝ × ℝ → ℝ) :
    cmean (fun y φ => ((f (hp y φ) : ℝ) : ℂ)) = ((sphereInt (fun θ φ => f (yp θ φ)) / (4 * Real.pi) : ℝ) : ℂ) := by
  unfold cmean sphereInt
  push_cast
  rw [← intervalIntegral.integral_ofReal]
  congr 1
  refine intervalIntegral.integral_congr fun φ _ => ?_
  rw [← intervalIntegral.integral_ofReal]
  refine intervalIntegral.integral_congr fun θ hθ => ?_
  rw [Set.uIcc_of_le Real.pi_pos.le] at hθ
  rw [hp_cos hθ.1 hθ.2]
  push_cast; rfl

theorem fib_mem {n i : ℕ} (hi : i < n) (rnd : ℝ) : fibPoint n rnd i ∈ S2 := by
  have hm := height_mem hi
  have hs : 0 ≤ 1 - height n i ^ 2 := by nlinarith [hm.1, hm.2]
  rw [fibPoint_eq]
  have h2 := Real.sin_sq_add_cos_sq (azim n rnd i)
  show (Real.cos (azim n rnd i) * Real.sqrt (1 - height n i ^ 2)) ^ 2 + height n i ^ 2
    + (Real.sin (azim n rnd i) * Real.sqrt (1 - height n i ^ 2)) ^ 2 = 1
  linear_combination Real.sqrt (1 - height n i ^ 2) ^ 2 * h2 + Real.sq_sqrt hs

/-- Averages of a continuous function over the points converge to its mean. -/
theorem fib_tendsto {f : ℝ × ℝ × ℝ → ℝ} (hf : ContinuousOn f S2) {rnd : ℕ → ℝ} (h0 : ∀ n, 0 ≤ rnd n) (h1 : ∀ n, 0 < n → rnd n ≤ n) :
    Tendsto (fun n : ℕ => (∑ i ∈ Finset.range n, f (fibPoint n (rnd n) i)) / n) atTop
      (𝓝 (sphereInt (fun θ φ => f (pt 0 θ φ)) / (4 * Real.pi))) := by
  have poly : ∀ g, Poly g → Tendsto (fun n : ℕ => (∑ i ∈ Finset.range n, g (fibPoint n (rnd n) i)) / n) atTop
      (𝓝 (sphereInt (fun θ φ => g (pt 0 θ φ)) / (4 * Real.pi))) := by
    intro g hg
    have := trig_tendsto hg.trig h0 h1
    rw [cmean_real, y_axis hg.smooth.continuous.continuousOn] at this
    have hre := (Complex.continuous_re.tendsto _).comp this
    rw [Complex.ofReal_re] at hre
    refine hre.congr fun n => ?_
    simp only [Function.comp_apply, fibPoint_eq]
    rw [← Complex.ofReal_sum, ← Complex.ofReal_natCast, ← Complex.ofReal_div, Complex.ofReal_re]
    rfl
  rw [Metric.tendsto_nhds]
  intro ε hε
  obtain ⟨g, hg, hgf⟩ := approx hf (ε := ε / 8) (by positivity)
  have hgc := hg.smooth.continuous
  have cf : Continuous fun p : ℝ × ℝ => f (pt 0 p.1 p.2) := hf.comp_continuous (pt_cont2 0) fun p => pt_mem _ _ _
  have hM := int_close (F := fun θ φ => g (pt 0 θ φ)) (hgc.comp (pt_cont2 0)) cf (ε := ε / 8) fun θ φ => (hgf _ (pt_mem 0 θ φ)).le
  have hM' : |sphereInt (fun θ φ => g (pt 0 θ φ)) / (4 * Real.pi) - sphereInt (fun θ φ => f (pt 0 θ φ)) / (4 * Real.pi)| ≤ ε / 4 := by
    have hpi := Real.pi_pos
    rw [← sub_div, abs_div, abs_of_pos (show 0 < 4 * Real.pi by positivity), div_le_iff₀ (by positivity)]
    refine hM.trans ?_
    have := Real.pi_le_four
    nlinarith [mul_pos hε hpi]
  have hev := (poly g hg)
  rw [Metric.tendsto_nhds] at hev
  filter_upwards [hev (ε / 4) (by positivity), eventually_gt_atTop 0] with n hn hpos
  have hn' : (0 : ℝ) < n := by exact_mod_cast hpos
  have hA : |(∑ i ∈ Finset.range n, f (fibPoint n (rnd n) i)) / n - (∑ i ∈ Finset.range n, g (fibPoint n (rnd n) i)) / n| ≤ ε / 8 := by
    rw [← sub_div, ← Finset.sum_sub_distrib, abs_div, abs_of_pos hn', div_le_iff₀ hn']
    refine (Finset.abs_sum_le_sum_abs _ _).trans ?_
    refine (Finset.sum_le_card_nsmul _ _ (ε / 8) fun i hi => ?_).trans ?_
    · rw [abs_sub_comm]
      exact (hgf _ (fib_mem (Finset.mem_range.1 hi) _)).le
    · rw [Finset.card_range, nsmul_eq_mul, mul_comm]
  rw [Real.dist_eq] at hn ⊢
  rw [abs_lt] at hn ⊢
  rw [abs_le] at hA hM'
  constructor <;> linarith [hA.1, hA.2, hM'.1, hM'.2, hn.1, hn.2]

end Equidist
end Verif
