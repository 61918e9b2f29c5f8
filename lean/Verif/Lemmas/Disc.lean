import Verif.Lemmas.SphereLimit
import Mathlib.MeasureTheory.Integral.IntervalIntegral.Periodic

/-!
# The visible disc: integrals over the sphere do not depend on the direction of the observer
-/

namespace Verif
open Geometry Spec

namespace Disc
open Riemann Rotation SphereLimit Filter Topology

/-- `int_swap` for any upper limit of one of the integrals. -/
theorem int_swap_any {a : ℝ} (ha : 0 < a) (T : ℝ) {h : ℝ → ℝ → ℝ} (hc : Continuous fun p : ℝ × ℝ => h p.1 p.2) :
    ∫ y in (0 : ℝ)..T, ∫ x in (0 : ℝ)..a, h x y = ∫ x in (0 : ℝ)..a, ∫ y in (0 : ℝ)..T, h x y := by
  rcases lt_trichotomy T 0 with hT | rfl | hT
  · have e : ∀ g : ℝ → ℝ, ∫ y in (0 : ℝ)..T, g y = -∫ y in (0 : ℝ)..-T, g (-y) := by
      intro g
      rw [intervalIntegral.integral_comp_neg, neg_neg, neg_zero, intervalIntegral.integral_symm]
    rw [e]
    simp only [e]
    rw [intervalIntegral.integral_neg, int_swap ha (neg_pos.2 hT) (h := fun x y => h x (-y))]
    exact hc.comp (continuous_fst.prodMk continuous_snd.neg)
  · simp
  · exact int_swap ha hT hc

theorem slice1 {h : ℝ → ℝ → ℝ} (hc : Continuous fun p : ℝ × ℝ => h p.1 p.2) (y a b : ℝ) :
    IntervalIntegrable (fun x => h x y) MeasureTheory.volume a b :=
  Continuous.intervalIntegrable (hc.comp (continuous_id.prodMk continuous_const)) _ _

theorem slice2 {h : ℝ → ℝ → ℝ} (hc : Continuous fun p : ℝ × ℝ => h p.1 p.2) (x a b : ℝ) :
    IntervalIntegrable (fun y => h x y) MeasureTheory.volume a b :=
  Continuous.intervalIntegrable (hc.comp (continuous_const.prodMk continuous_id)) _ _

theorem inner_cont {h : ℝ → ℝ → ℝ} (hc : Continuous fun p : ℝ × ℝ => h p.1 p.2) (a : ℝ) :
    Continuous fun y => ∫ x in (0 : ℝ)..a, h x y :=
  intervalIntegral.continuous_parametric_intervalIntegral_of_continuous' (f := fun y x => h x y) (hc.comp continuous_swap) 0 a

/-- A double integral whose rate of change is zero. -/
theorem int_const {F H : ℝ → ℝ → ℝ → ℝ} (hF : ∀ τ θ φ, HasDerivAt (fun τ => F τ θ φ) (H τ θ φ) τ)
    (cF : ∀ τ, Continuous fun p : ℝ × ℝ => F τ p.1 p.2) (cH : Continuous fun p : ℝ × ℝ × ℝ => H p.1 p.2.1 p.2.2) {a b : ℝ}
    (ha : 0 < a) (hb : 0 < b) (h0 : ∀ τ, ∫ φ in (0 : ℝ)..b, ∫ θ in (0 : ℝ)..a, H τ θ φ = 0) (T : ℝ) :
    ∫ φ in (0 : ℝ)..b, ∫ θ in (0 : ℝ)..a, F T θ φ = ∫ φ in (0 : ℝ)..b, ∫ θ in (0 : ℝ)..a, F 0 θ φ := by
  have ftc : ∀ θ φ, ∫ τ in (0 : ℝ)..T, H τ θ φ = F T θ φ - F 0 θ φ := by
    intro θ φ
    have hc : Continuous fun τ => H τ θ φ := cH.comp (continuous_id.prodMk (continuous_const (y := (θ, φ))))
    exact intervalIntegral.integral_eq_sub_of_hasDerivAt (fun τ _ => hF τ θ φ) (hc.intervalIntegrable _ _)
  have step : ∀ φ, ∫ τ in (0 : ℝ)..T, ∫ θ in (0 : ℝ)..a, H τ θ φ
      = (∫ θ in (0 : ℝ)..a, F T θ φ) - ∫ θ in (0 : ℝ)..a, F 0 θ φ := by
    intro φ
    have hc : Continuous fun p : ℝ × ℝ => H p.2 p.1 φ :=
      cH.comp (continuous_snd.prodMk (continuous_fst.prodMk continuous_const))
    rw [int_swap_any ha T (h := fun θ τ => H τ θ φ) hc]
    simp only [ftc]
    exact intervalIntegral.integral_sub (slice1 (cF T) φ _ _) (slice1 (cF 0) φ _ _)
  have hJ : Continuous fun p : ℝ × ℝ => ∫ θ in (0 : ℝ)..a, H p.2 θ p.1 :=
    intervalIntegral.continuous_parametric_intervalIntegral_of_continuous' (f := fun (p : ℝ × ℝ) θ => H p.2 θ p.1)
      (cH.comp ((continuous_snd.comp continuous_fst).prodMk (continuous_snd.prodMk (continuous_fst.comp continuous_fst)))) 0 _
  have e := int_swap_any hb T (h := fun φ τ => ∫ θ in (0 : ℝ)..a, H τ θ φ) hJ
  simp only [h0, step] at e
  rw [intervalIntegral.integral_sub ((inner_cont (cF T) a).intervalIntegrable _ _)
    ((inner_cont (cF 0) a).intervalIntegrable _ _), intervalIntegral.integral_zero] at e
  exact sub_eq_zero.1 e.symm

variable {f f' : ℝ → ℝ}

/-- Turning the observer moves the values along the sphere, which changes no integral. -/
theorem flow_zero (hf : ∀ x, HasDerivAt f (f' x) x) (hf' : Continuous f') (T : ℝ) :
    ∫ φ in (0 : ℝ)..2 * Real.pi, ∫ θ in (0 : ℝ)..Real.pi,
      f' (kr T θ φ) * (Real.sin θ * Real.cos T * Real.cos φ - Real.cos θ * Real.sin T) * Real.sin θ = 0 := by
  have hfc : Continuous f := continuous_iff_continuousAt.2 fun x => (hf x).continuousAt
  let A : ℝ → ℝ → ℝ := fun θ φ => Real.cos φ * (Real.cos θ * f (kr T θ φ)
    + Real.sin θ * (f' (kr T θ φ) * (Real.cos θ * Real.sin T * Real.cos φ - Real.sin θ * Real.cos T)))
  let B : ℝ → ℝ → ℝ := fun θ φ => Real.cos θ * (Real.cos φ * f (kr T θ φ)
    + Real.sin φ * (f' (kr T θ φ) * (-(Real.sin θ * Real.sin T * Real.sin φ))))
  have hk : Continuous fun p : ℝ × ℝ => kr T p.1 p.2 := by unfold kr; fun_prop
  have hA : Continuous fun p : ℝ × ℝ => A p.1 p.2 := by
    have h1 := hfc.comp hk
    have h2 := hf'.comp hk
    simp only [Function.comp_def] at h1 h2
    fun_prop
  have hB : Continuous fun p : ℝ × ℝ => B p.1 p.2 := by
    have h1 := hfc.comp hk
    have h2 := hf'.comp hk
    simp only [Function.comp_def] at h1 h2
    fun_prop
  have key : ∀ θ φ, f' (kr T θ φ) * (Real.sin θ * Real.cos T * Real.cos φ - Real.cos θ * Real.sin T) * Real.sin θ
      = B θ φ - A θ φ := by
    intro θ φ
    simp only [A, B]
    have e1 := Real.sin_sq_add_cos_sq φ
    linear_combination (-(f' (kr T θ φ)) * Real.cos θ * Real.sin θ * Real.sin T) * (- e1)
  have sA : ∀ φ, Continuous fun θ => A θ φ := fun φ => hA.comp (continuous_id.prodMk continuous_const)
  have sB : ∀ φ, Continuous fun θ => B θ φ := fun φ => hB.comp (continuous_id.prodMk continuous_const)
  have zA : ∀ φ, ∫ θ in (0 : ℝ)..Real.pi, A θ φ = 0 := by
    intro φ
    rw [intervalIntegral.integral_eq_sub_of_hasDerivAt (f := fun θ => Real.cos φ * (Real.sin θ * f (kr T θ φ)))
      (fun θ _ => ?_) ((sA φ).intervalIntegrable _ _)]
    · simp
    · have hkr : HasDerivAt (fun θ => kr T θ φ) (Real.cos θ * Real.sin T * Real.cos φ - Real.sin θ * Real.cos T) θ := by
        have := (((Real.hasDerivAt_sin θ).mul_const (Real.sin T)).mul_const (Real.cos φ)).add
          ((Real.hasDerivAt_cos θ).mul_const (Real.cos T))
        unfold kr
        refine this.congr_deriv ?_
        ring
      have := ((Real.hasDerivAt_sin θ).mul ((hf _).comp θ hkr)).const_mul (Real.cos φ)
      exact this
  have zB : ∀ θ, ∫ φ in (0 : ℝ)..2 * Real.pi, B θ φ = 0 := by
    intro θ
    rw [intervalIntegral.integral_eq_sub_of_hasDerivAt (f := fun φ => Real.cos θ * (Real.sin φ * f (kr T θ φ)))
      (fun φ _ => ?_) (slice2 hB θ _ _)]
    · simp
    · have hkr : HasDerivAt (fun φ => kr T θ φ) (-(Real.sin θ * Real.sin T * Real.sin φ)) φ := by
        have := ((Real.hasDerivAt_cos φ).const_mul (Real.sin θ * Real.sin T)).add_const (Real.cos θ * Real.cos T)
        unfold kr
        refine this.congr_deriv ?_
        ring
      have := ((Real.hasDerivAt_sin φ).mul ((hf _).comp φ hkr)).const_mul (Real.cos θ)
      exact this
  simp only [key]
  have e : ∀ φ, ∫ θ in (0 : ℝ)..Real.pi, (B θ φ - A θ φ) = ∫ θ in (0 : ℝ)..Real.pi, B θ φ := by
    intro φ
    rw [intervalIntegral.integral_sub ((sB φ).intervalIntegrable _ _) ((sA φ).intervalIntegrable _ _), zA, sub_zero]
  simp only [e]
  rw [int_swap Real.pi_pos Real.two_pi_pos hB]
  simp only [zB]
  simp

/-- The integral of a smooth function of the angle to the observer is the same for all inclinations. -/
theorem smooth_const (hf : ∀ x, HasDerivAt f (f' x) x) (hf' : Continuous f') (T : ℝ) :
    sphereInt (fun θ φ => f (kr T θ φ)) = sphereInt (fun θ φ => f (kr 0 θ φ)) := by
  have hfc : Continuous f := continuous_iff_continuousAt.2 fun x => (hf x).continuousAt
  have hk : Continuous fun p : ℝ × ℝ × ℝ => kr p.1 p.2.1 p.2.2 := by unfold kr; fun_prop
  have hH : Continuous fun p : ℝ × ℝ × ℝ => f' (kr p.1 p.2.1 p.2.2)
      * (Real.sin p.2.1 * Real.cos p.1 * Real.cos p.2.2 - Real.cos p.2.1 * Real.sin p.1) * Real.sin p.2.1 := by
    have h2 := hf'.comp hk
    simp only [Function.comp_def] at h2
    fun_prop
  have hs : ∀ T, Continuous fun p : ℝ × ℝ => f (kr T p.1 p.2) * Real.sin p.1 := by
    intro T
    have h2 := hfc.comp (hk.comp (continuous_const (y := T) |>.prodMk continuous_id))
    simp only [Function.comp_def] at h2
    exact h2.mul (Real.continuous_sin.comp continuous_fst)
  refine int_const (F := fun τ θ φ => f (kr τ θ φ) * Real.sin θ) (H := fun τ θ φ => f' (kr τ θ φ)
    * (Real.sin θ * Real.cos τ * Real.cos φ - Real.cos θ * Real.sin τ) * Real.sin θ) (fun τ θ φ => ?_) hs hH Real.pi_pos
    Real.two_pi_pos (flow_zero hf hf') T
  have hkr : HasDerivAt (fun τ => kr τ θ φ) (Real.sin θ * Real.cos τ * Real.cos φ - Real.cos θ * Real.sin τ) τ := by
    have := (((Real.hasDerivAt_sin τ).const_mul (Real.sin θ)).mul_const (Real.cos φ)).add
      ((Real.hasDerivAt_cos τ).const_mul (Real.cos θ))
    unfold kr
    refine this.congr_deriv ?_
    ring
  exact ((hf _).comp τ hkr).mul_const _

/-- A smooth function near the positive part. -/
noncomputable def soft (ε x : ℝ) : ℝ := (x + Real.sqrt (x ^ 2 + ε ^ 2)) / 2

theorem soft_deriv {ε : ℝ} (hε : 0 < ε) (x : ℝ) :
    HasDerivAt (soft ε) ((1 + x / Real.sqrt (x ^ 2 + ε ^ 2)) / 2) x := by
  have hp : x ^ 2 + ε ^ 2 ≠ 0 := by positivity
  have h1 : HasDerivAt (fun x : ℝ => x ^ 2 + ε ^ 2) (2 * x) x := by
    have := (hasDerivAt_pow 2 x).add_const (ε ^ 2)
    refine this.congr_deriv ?_
    simp
  have h2 := ((hasDerivAt_id x).add (h1.sqrt hp)).div_const 2
  refine h2.congr_deriv ?_
  congr 2
  rw [mul_div_mul_left _ _ two_ne_zero]

theorem soft_near {ε : ℝ} (hε : 0 < ε) (x : ℝ) : |soft ε x - max 0 x| ≤ ε := by
  have h1 : |x| ≤ Real.sqrt (x ^ 2 + ε ^ 2) := Real.abs_le_sqrt (by nlinarith)
  have h2 : Real.sqrt (x ^ 2 + ε ^ 2) ≤ |x| + ε := by
    rw [Real.sqrt_le_iff]
    refine ⟨by positivity, ?_⟩
    nlinarith [sq_abs x, abs_nonneg x]
  rw [soft, abs_le]
  rcases le_total 0 x with h | h
  · rw [max_eq_right h]
    rw [abs_of_nonneg h] at h1 h2
    constructor <;> linarith
  · rw [max_eq_left h]
    rw [abs_of_nonpos h] at h1 h2
    constructor <;> linarith

theorem sphereInt_near_on {F G : ℝ → ℝ → ℝ} (hF : Continuous fun p : ℝ × ℝ => F p.1 p.2) (hG : Continuous fun p : ℝ × ℝ => G p.1 p.2)
    {ε : ℝ} (h : ∀ θ φ, 0 ≤ θ → θ ≤ Real.pi → 0 ≤ φ → φ ≤ 2 * Real.pi → |F θ φ - G θ φ| ≤ ε) :
    |sphereInt F - sphereInt G| ≤ ε * Real.pi * (2 * Real.pi) := by
  have s : ∀ {H : ℝ → ℝ → ℝ}, (Continuous fun p : ℝ × ℝ => H p.1 p.2) → Continuous fun p : ℝ × ℝ => H p.1 p.2 * Real.sin p.1 :=
    fun hH => hH.mul (Real.continuous_sin.comp continuous_fst)
  rw [sphereInt, sphereInt, ← intervalIntegral.integral_sub
    ((inner_cont (h := fun θ φ => F θ φ * Real.sin θ) (s hF) _).intervalIntegrable _ _)
    ((inner_cont (h := fun θ φ => G θ φ * Real.sin θ) (s hG) _).intervalIntegrable _ _)]
  rw [← Real.norm_eq_abs]
  refine (intervalIntegral.norm_integral_le_of_norm_le_const (C := ε * Real.pi) fun φ hφ => ?_).trans_eq ?_
  · rw [Set.uIoc_of_le Real.two_pi_pos.le] at hφ
    rw [← intervalIntegral.integral_sub (slice1 (h := fun θ φ => F θ φ * Real.sin θ) (s hF) φ _ _)
      (slice1 (h := fun θ φ => G θ φ * Real.sin θ) (s hG) φ _ _)]
    refine (intervalIntegral.norm_integral_le_of_norm_le_const (C := ε) fun θ hθ => ?_).trans_eq ?_
    · rw [Set.uIoc_of_le Real.pi_pos.le] at hθ
      have h := h θ φ hθ.1.le hθ.2 hφ.1.le hφ.2
      rw [← sub_mul, Real.norm_eq_abs, abs_mul]
      calc |F θ φ - G θ φ| * |Real.sin θ| ≤ ε * 1 :=
            mul_le_mul h (Real.abs_sin_le_one θ) (abs_nonneg _) ((abs_nonneg _).trans h)
        _ = ε := mul_one ε
    · rw [sub_zero, abs_of_pos Real.pi_pos]
  · rw [sub_zero, abs_of_pos Real.two_pi_pos]

theorem sphereInt_near {F G : ℝ → ℝ → ℝ} (hF : Continuous fun p : ℝ × ℝ => F p.1 p.2) (hG : Continuous fun p : ℝ × ℝ => G p.1 p.2)
    {ε : ℝ} (h : ∀ θ φ, |F θ φ - G θ φ| ≤ ε) : |sphereInt F - sphereInt G| ≤ ε * Real.pi * (2 * Real.pi) :=
  sphereInt_near_on hF hG fun θ φ _ _ _ _ => h θ φ

/-- A rotation about the axis does not matter either. -/
theorem sphereInt_turn {F : ℝ → ℝ → ℝ} (hp : ∀ θ φ, F θ (φ + 2 * Real.pi) = F θ φ) (ψ : ℝ) :
    sphereInt (fun θ φ => F θ (φ - ψ)) = sphereInt F := by
  rw [sphereInt, sphereInt]
  have h1 : Function.Periodic (fun φ => ∫ θ in (0 : ℝ)..Real.pi, F θ φ * Real.sin θ) (2 * Real.pi) := by
    intro φ
    simp only [hp]
  rw [intervalIntegral.integral_comp_sub_right (fun φ => ∫ θ in (0 : ℝ)..Real.pi, F θ φ * Real.sin θ) ψ]
  have := h1.intervalIntegral_add_eq (0 - ψ) 0
  rw [zero_add] at this
  rw [← this]
  congr 1
  ring

/-- The area of the visible disc. -/
theorem disc_area (T ψ : ℝ) : sphereInt (fun θ φ => max 0 (kr T θ (φ - ψ))) = Real.pi := by
  rw [sphereInt_turn (F := fun θ φ => max 0 (kr T θ φ)) (fun θ φ => by simp only [kr, Real.cos_add_two_pi])]
  have hk : ∀ T, Continuous fun p : ℝ × ℝ => kr T p.1 p.2 := fun T => by unfold kr; fun_prop
  have hm : ∀ T, Continuous fun p : ℝ × ℝ => max 0 (kr T p.1 p.2) := fun T => continuous_const.max (hk T)
  have hsame : sphereInt (fun θ φ => max 0 (kr T θ φ)) = sphereInt (fun θ φ => max 0 (kr 0 θ φ)) := by
    rw [← sub_eq_zero, ← abs_eq_zero]
    refine le_antisymm (le_of_forall_pos_le_add fun ε hε => ?_) (abs_nonneg _)
    rw [zero_add]
    have hpi := Real.pi_pos
    set δ := ε / (4 * Real.pi ^ 2) with hδ
    have hδ0 : 0 < δ := by positivity
    have hsc : Continuous (soft δ) := continuous_iff_continuousAt.2 fun x => (soft_deriv hδ0 x).continuousAt
    have hd : Continuous fun x : ℝ => (1 + x / Real.sqrt (x ^ 2 + δ ^ 2)) / 2 := by
      refine (continuous_const.add (continuous_id.div (by fun_prop) fun x => ?_)).div_const 2
      have : 0 < x ^ 2 + δ ^ 2 := by positivity
      exact (Real.sqrt_pos.2 this).ne'
    have e := smooth_const (soft_deriv hδ0) hd T
    have n1 := sphereInt_near (hsc.comp (hk T)) (hm T) fun θ φ => soft_near hδ0 (kr T θ φ)
    have n2 := sphereInt_near (hsc.comp (hk 0)) (hm 0) fun θ φ => soft_near hδ0 (kr 0 θ φ)
    have ev : δ * Real.pi * (2 * Real.pi) = ε / 2 := by rw [hδ]; field_simp; ring
    rw [ev] at n1 n2
    rw [e] at n1
    rw [abs_le] at n1 n2 ⊢
    constructor <;> linarith [n1.1, n1.2, n2.1, n2.2]
  rw [hsame, sphereInt]
  have hin : ∀ φ : ℝ, ∫ θ in (0 : ℝ)..Real.pi, max 0 (kr 0 θ φ) * Real.sin θ = 1 / 2 := by
    intro φ
    have hc : Continuous fun θ : ℝ => max 0 (Real.cos θ) * Real.sin θ := by fun_prop
    have e : ∀ θ, max 0 (kr 0 θ φ) * Real.sin θ = max 0 (Real.cos θ) * Real.sin θ := by intro θ; simp [kr]
    simp only [e]
    rw [← intervalIntegral.integral_add_adjacent_intervals (b := Real.pi / 2) (hc.intervalIntegrable _ _)
      (hc.intervalIntegrable _ _)]
    have hpi := Real.pi_pos
    have e1 : ∫ θ in (0 : ℝ)..Real.pi / 2, max 0 (Real.cos θ) * Real.sin θ
        = ∫ θ in (0 : ℝ)..Real.pi / 2, Real.sin θ * Real.cos θ := by
      refine intervalIntegral.integral_congr fun θ hθ => ?_
      rw [Set.uIcc_of_le (by linarith)] at hθ
      show max 0 (Real.cos θ) * Real.sin θ = _
      rw [max_eq_right (Real.cos_nonneg_of_mem_Icc ⟨by linarith [hθ.1], hθ.2⟩), mul_comm]
    have e2 : ∫ θ in (Real.pi / 2)..Real.pi, max 0 (Real.cos θ) * Real.sin θ = ∫ θ in (Real.pi / 2)..Real.pi, (0 : ℝ) := by
      refine intervalIntegral.integral_congr fun θ hθ => ?_
      rw [Set.uIcc_of_le (by linarith)] at hθ
      show max 0 (Real.cos θ) * Real.sin θ = _
      rw [max_eq_left (Real.cos_nonpos_of_pi_div_two_le_of_le hθ.1 (by linarith [hθ.2])), zero_mul]
    rw [e1, e2, integral_sin_mul_cos₁]
    simp
  simp only [hin]
  rw [intervalIntegral.integral_const, smul_eq_mul]
  ring

end Disc
end Verif
