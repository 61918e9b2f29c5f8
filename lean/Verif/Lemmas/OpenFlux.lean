import Verif.Props.PfssFlux
import Verif.Lemmas.Disc
import Mathlib.Analysis.Calculus.ParametricIntervalIntegral

/-!
# The integral of the magnitude of a harmonic function over spheres

`h(t, θ, φ)` is a finite sum of products with `h_tt + h_t = -Δ_S h` (a harmonic function, `r = e^t`) and `h_t + h = 0` at the
outer boundary. The magnitude is approximated by `√(h² + ε²)`.
-/

namespace Verif
namespace OpenFlux
open Spec MeasureTheory intervalIntegral PfssFlux

/-! ### Integrals over the sphere -/

theorem inner_cont2 {F : ℝ → ℝ → ℝ} (cF : Continuous fun q : ℝ × ℝ => F q.1 q.2) :
    Continuous fun θ => (∫ φ in (0 : ℝ)..2 * Real.pi, F θ φ) * Real.sin θ :=
  (continuous_parametric_intervalIntegral_of_continuous' (f := F) cF 0 _).mul Real.continuous_sin

theorem slice {F : ℝ → ℝ → ℝ} (cF : Continuous fun q : ℝ × ℝ => F q.1 q.2) (θ : ℝ) : Continuous (F θ) :=
  cF.comp (continuous_const.prodMk continuous_id)

theorem overSphere_mono {F G : ℝ → ℝ → ℝ} (cF : Continuous fun q : ℝ × ℝ => F q.1 q.2)
    (cG : Continuous fun q : ℝ × ℝ => G q.1 q.2) (h : ∀ θ φ, F θ φ ≤ G θ φ) : overSphere F ≤ overSphere G := by
  refine integral_mono_on Real.pi_pos.le ((inner_cont2 cF).intervalIntegrable _ _) ((inner_cont2 cG).intervalIntegrable _ _)
    fun θ hθ => ?_
  refine mul_le_mul_of_nonneg_right ?_ (Real.sin_nonneg_of_nonneg_of_le_pi hθ.1 hθ.2)
  exact integral_mono_on Real.two_pi_pos.le ((slice cF θ).intervalIntegrable _ _) ((slice cG θ).intervalIntegrable _ _)
    fun φ _ => h θ φ

theorem overSphere_add {F G : ℝ → ℝ → ℝ} (cF : Continuous fun q : ℝ × ℝ => F q.1 q.2)
    (cG : Continuous fun q : ℝ × ℝ => G q.1 q.2) :
    overSphere (fun θ φ => F θ φ + G θ φ) = overSphere F + overSphere G := by
  rw [overSphere, overSphere, overSphere,
    ← integral_add ((inner_cont2 cF).intervalIntegrable _ _) ((inner_cont2 cG).intervalIntegrable _ _)]
  refine integral_congr fun θ _ => ?_
  rw [integral_add ((slice cF θ).intervalIntegrable _ _) ((slice cG θ).intervalIntegrable _ _), add_mul]

theorem overSphere_const (c : ℝ) : overSphere (fun _ _ => c) = 4 * Real.pi * c := by
  rw [overSphere]
  simp
  ring

theorem deriv_int {F F' : ℝ → ℝ → ℝ} (hF : ∀ t y, HasDerivAt (fun t => F t y) (F' t y) t) (cF : ∀ t, Continuous (F t))
    (cF' : Continuous fun q : ℝ × ℝ => F' q.1 q.2) (a b t : ℝ) :
    HasDerivAt (fun t => ∫ y in a..b, F t y) (∫ y in a..b, F' t y) t := by
  obtain ⟨C, hC⟩ := ((isCompact_Icc (a := t - 1) (b := t + 1)).prod
    (isCompact_uIcc (a := a) (b := b))).exists_bound_of_continuousOn cF'.continuousOn
  exact (hasDerivAt_integral_of_dominated_loc_of_deriv_le (bound := fun _ => C) (s := Set.Icc (t - 1) (t + 1))
    (Icc_mem_nhds (by linarith) (by linarith)) (Filter.Eventually.of_forall fun x => (cF x).aestronglyMeasurable)
    ((cF t).intervalIntegrable _ _) (slice cF' t).aestronglyMeasurable
    (ae_of_all _ fun y hy x hx => hC (x, y) ⟨hx, Set.uIoc_subset_uIcc hy⟩) intervalIntegrable_const
    (ae_of_all _ fun y _ x _ => hF x y)).2

theorem deriv_sphere {F F' : ℝ → ℝ → ℝ → ℝ} (hF : ∀ t θ φ, HasDerivAt (fun t => F t θ φ) (F' t θ φ) t)
    (cF : Continuous fun q : ℝ × ℝ × ℝ => F q.1 q.2.1 q.2.2) (cF' : Continuous fun q : ℝ × ℝ × ℝ => F' q.1 q.2.1 q.2.2)
    (t : ℝ) : HasDerivAt (fun t => overSphere (F t)) (overSphere (F' t)) t := by
  refine deriv_int (F := fun t θ => (∫ φ in (0 : ℝ)..2 * Real.pi, F t θ φ) * Real.sin θ)
    (F' := fun t θ => (∫ φ in (0 : ℝ)..2 * Real.pi, F' t θ φ) * Real.sin θ) (fun t θ => ?_) (fun t => ?_) ?_ 0 Real.pi t
  · refine (deriv_int (F := fun t φ => F t θ φ) (F' := fun t φ => F' t θ φ) (fun t φ => hF t θ φ) (fun t => ?_) ?_ 0
      (2 * Real.pi) t).mul_const _
    · exact cF.comp (continuous_const.prodMk (continuous_const.prodMk continuous_id))
    · exact cF'.comp (continuous_fst.prodMk (continuous_const.prodMk continuous_snd))
  · exact inner_cont2 (cF.comp (continuous_const.prodMk continuous_id))
  · refine Continuous.mul ?_ (Real.continuous_sin.comp continuous_snd)
    exact continuous_parametric_intervalIntegral_of_continuous' (f := fun (q : ℝ × ℝ) φ => F' q.1 q.2 φ)
      (cF'.comp ((continuous_fst.comp continuous_fst).prodMk ((continuous_snd.comp continuous_fst).prodMk continuous_snd))) 0 _

/-! ### A smooth magnitude -/

noncomputable def ph (ε x : ℝ) : ℝ := Real.sqrt (x ^ 2 + ε ^ 2)
noncomputable def pd (ε x : ℝ) : ℝ := x / ph ε x
noncomputable def pdd (ε x : ℝ) : ℝ := ε ^ 2 / ph ε x ^ 3

section
variable {ε : ℝ} (hε : 0 < ε)
include hε

theorem ph_pos (x : ℝ) : 0 < ph ε x := Real.sqrt_pos.2 (by positivity)
theorem ph_sq (x : ℝ) : ph ε x ^ 2 = x ^ 2 + ε ^ 2 := Real.sq_sqrt (by positivity)

theorem le_ph (x : ℝ) : ε ≤ ph ε x := by
  refine Real.le_sqrt_of_sq_le ?_
  nlinarith [sq_nonneg x]

theorem ph_lower (x : ℝ) : |x| ≤ ph ε x := by
  refine Real.le_sqrt_of_sq_le ?_
  rw [sq_abs]; nlinarith [sq_nonneg ε]

theorem ph_upper (x : ℝ) : ph ε x ≤ |x| + ε := by
  rw [ph, Real.sqrt_le_left (by positivity)]
  nlinarith [sq_abs x, abs_nonneg x]

theorem ph_deriv (x : ℝ) : HasDerivAt (ph ε) (pd ε x) x := by
  have h1 : HasDerivAt (fun x : ℝ => x ^ 2 + ε ^ 2) (2 * x) x := by
    simpa using (hasDerivAt_pow 2 x).add_const (ε ^ 2)
  refine (h1.sqrt (by positivity)).congr_deriv ?_
  have := ph_pos hε x
  rw [pd]
  rw [ph] at this ⊢
  field_simp

theorem pd_deriv (x : ℝ) : HasDerivAt (pd ε) (pdd ε x) x := by
  have p := ph_pos hε x
  refine ((hasDerivAt_id x).div (ph_deriv hε x) p.ne').congr_deriv ?_
  have := ph_sq hε x
  simp only [id, pd, pdd]
  field_simp
  linarith

theorem pdd_nonneg (x : ℝ) : 0 ≤ pdd ε x := by
  have := ph_pos hε x
  unfold pdd; positivity

theorem ph_cont : Continuous (ph ε) := by unfold ph; fun_prop
theorem pd_cont : Continuous (pd ε) := continuous_id.div (ph_cont hε) fun x => (ph_pos hε x).ne'
theorem pdd_cont : Continuous (pdd ε) :=
  continuous_const.div ((ph_cont hε).pow 3) fun x => (pow_pos (ph_pos hε x) 3).ne'

end

/-! ### Sums of products -/

/-- A finite sum of products. -/
noncomputable def U (S : Finset (ℤ × ℤ)) (w : ℤ × ℤ → ℝ) (p e : ℤ × ℤ → ℝ → ℝ) (θ φ : ℝ) : ℝ := ∑ k ∈ S, w k * p k θ * e k φ

section
variable {S : Finset (ℤ × ℤ)} {c p p' e e' : ℤ × ℤ → ℝ → ℝ}

theorem U_cont (hc : ∀ k, Continuous (c k)) (hp : ∀ k, Continuous (p k)) (he : ∀ k, Continuous (e k)) :
    Continuous fun q : ℝ × ℝ × ℝ => U S (fun k => c k q.1) p e q.2.1 q.2.2 := by
  unfold U
  refine continuous_finsetSum _ fun k _ => ?_
  exact (((hc k).comp continuous_fst).mul ((hp k).comp (continuous_fst.comp continuous_snd))).mul
    ((he k).comp (continuous_snd.comp continuous_snd))

theorem U_cont2 (w : ℤ × ℤ → ℝ) (hp : ∀ k, Continuous (p k)) (he : ∀ k, Continuous (e k)) :
    Continuous fun q : ℝ × ℝ => U S w p e q.1 q.2 :=
  (U_cont (c := fun k _ => w k) (fun _ => continuous_const) hp he).comp
    ((continuous_const (y := (0 : ℝ))).prodMk continuous_id)

theorem U_deriv_t {c' : ℤ × ℤ → ℝ → ℝ} {t : ℝ} (hc : ∀ k ∈ S, HasDerivAt (c k) (c' k t) t) (θ φ : ℝ) :
    HasDerivAt (fun t => U S (fun k => c k t) p e θ φ) (U S (fun k => c' k t) p e θ φ) t := by
  unfold U
  exact HasDerivAt.fun_sum fun k hk => ((hc k hk).mul_const _).mul_const _

theorem U_deriv_θ {w : ℤ × ℤ → ℝ} {θ : ℝ} (hp : ∀ k ∈ S, HasDerivAt (p k) (p' k θ) θ) (φ : ℝ) :
    HasDerivAt (fun θ => U S w p e θ φ) (U S w p' e θ φ) θ := by
  unfold U
  exact HasDerivAt.fun_sum fun k hk => ((hp k hk).const_mul _).mul_const _

theorem U_deriv_φ {w : ℤ × ℤ → ℝ} (θ : ℝ) {φ : ℝ} (he : ∀ k ∈ S, HasDerivAt (e k) (e' k φ) φ) :
    HasDerivAt (fun φ => U S w p e θ φ) (U S w p e' θ φ) φ := by
  unfold U
  exact HasDerivAt.fun_sum fun k hk => (he k hk).const_mul _

end

/-- What the polar and azimuthal factors have to satisfy. -/
structure Factors (S : Finset (ℤ × ℤ)) (p p1 Ψ e e1 : ℤ × ℤ → ℝ → ℝ) : Prop where
  cp : ∀ k, Continuous (p k)
  cp1 : ∀ k, Continuous (p1 k)
  cΨ : ∀ k, Continuous (Ψ k)
  ce : ∀ k, Continuous (e k)
  ce1 : ∀ k, Continuous (e1 k)
  dp : ∀ k θ, HasDerivAt (p k) (p1 k θ) θ
  dΨ : ∀ k θ, HasDerivAt (fun θ => Real.sin θ * p1 k θ) (Ψ k θ) θ
  de : ∀ k φ, HasDerivAt (e k) (e1 k φ) φ
  de1 : ∀ k φ, HasDerivAt (e1 k) (-(k.2 : ℝ) ^ 2 * e k φ) φ
  pe : ∀ k, e k (2 * Real.pi) = e k 0
  pe1 : ∀ k, e1 k (2 * Real.pi) = e1 k 0
  ode : ∀ k ∈ S, ∀ θ, 0 < Real.sin θ →
    Ψ k θ = ((k.2 : ℝ) ^ 2 / Real.sin θ ^ 2 - k.1 * (k.1 + 1)) * Real.sin θ * p k θ

section
variable {S : Finset (ℤ × ℤ)} {p p1 Ψ e e1 : ℤ × ℤ → ℝ → ℝ} (H : Factors S p p1 Ψ e e1) {ε : ℝ} (hε : 0 < ε)
include H hε

/-- By parts in the azimuth. -/
theorem parts_φ (w : ℤ × ℤ → ℝ) (θ : ℝ) :
    0 ≤ ∫ φ in (0 : ℝ)..2 * Real.pi, pd ε (U S w p e θ φ) * U S (fun k => (k.2 : ℝ) ^ 2 * w k) p e θ φ := by
  have ch : Continuous fun φ => U S w p e θ φ := slice (U_cont2 w H.cp H.ce) θ
  have ch1 : Continuous fun φ => U S w p e1 θ φ := slice (U_cont2 w H.cp H.ce1) θ
  have ch2 : Continuous fun φ => U S (fun k => (k.2 : ℝ) ^ 2 * w k) p e θ φ := slice (U_cont2 _ H.cp H.ce) θ
  have d : ∀ φ, HasDerivAt (fun φ => pd ε (U S w p e θ φ) * U S w p e1 θ φ)
      (pdd ε (U S w p e θ φ) * U S w p e1 θ φ ^ 2
        - pd ε (U S w p e θ φ) * U S (fun k => (k.2 : ℝ) ^ 2 * w k) p e θ φ) φ := by
    intro φ
    have d0 := U_deriv_φ (S := S) (p := p) (w := w) θ (fun k _ => H.de k φ)
    have d1 := U_deriv_φ (S := S) (p := p) (w := w) (e' := fun k φ => -(k.2 : ℝ) ^ 2 * e k φ) θ (fun k _ => H.de1 k φ)
    refine (((pd_deriv hε _).comp φ d0).mul d1).congr_deriv ?_
    have e2 : U S w p (fun k φ => -(k.2 : ℝ) ^ 2 * e k φ) θ φ = -U S (fun k => (k.2 : ℝ) ^ 2 * w k) p e θ φ := by
      simp only [U, ← Finset.sum_neg_distrib]
      exact Finset.sum_congr rfl fun k _ => by ring
    rw [e2]
    simp only [Function.comp]
    ring
  have cA : Continuous fun φ => pdd ε (U S w p e θ φ) * U S w p e1 θ φ ^ 2 := ((pdd_cont hε).comp ch).mul (ch1.pow 2)
  have cB : Continuous fun φ => pd ε (U S w p e θ φ) * U S (fun k => (k.2 : ℝ) ^ 2 * w k) p e θ φ :=
    ((pd_cont hε).comp ch).mul ch2
  have f := integral_eq_sub_of_hasDerivAt (a := 0) (b := 2 * Real.pi) (fun φ _ => d φ) ((cA.sub cB).intervalIntegrable _ _)
  have per : ∀ e' : ℤ × ℤ → ℝ → ℝ, (∀ k, e' k (2 * Real.pi) = e' k 0) → U S w p e' θ (2 * Real.pi) = U S w p e' θ 0 :=
    fun e' he => Finset.sum_congr rfl fun k _ => by rw [he]
  rw [per e H.pe, per e1 H.pe1, sub_self, integral_sub (cA.intervalIntegrable _ _) (cB.intervalIntegrable _ _), sub_eq_zero] at f
  rw [← f]
  exact integral_nonneg Real.two_pi_pos.le fun φ _ => mul_nonneg (pdd_nonneg hε _) (sq_nonneg _)

/-- By parts in the polar angle. -/
theorem parts_θ (w : ℤ × ℤ → ℝ) (φ : ℝ) : ∫ θ in (0 : ℝ)..Real.pi, pd ε (U S w p e θ φ) * U S w Ψ e θ φ ≤ 0 := by
  have sl : ∀ {F : ℝ → ℝ → ℝ}, (Continuous fun q : ℝ × ℝ => F q.1 q.2) → Continuous fun θ => F θ φ :=
    fun cF => cF.comp (continuous_id.prodMk continuous_const)
  have ch : Continuous fun θ => U S w p e θ φ := sl (U_cont2 w H.cp H.ce)
  have ch1 : Continuous fun θ => U S w p1 e θ φ := sl (U_cont2 w H.cp1 H.ce)
  have ch2 : Continuous fun θ => U S w Ψ e θ φ := sl (U_cont2 w H.cΨ H.ce)
  have es : ∀ θ, U S w (fun k θ => Real.sin θ * p1 k θ) e θ φ = Real.sin θ * U S w p1 e θ φ := by
    intro θ
    simp only [U, Finset.mul_sum]
    exact Finset.sum_congr rfl fun k _ => by ring
  have d : ∀ θ, HasDerivAt (fun θ => pd ε (U S w p e θ φ) * U S w (fun k θ => Real.sin θ * p1 k θ) e θ φ)
      (pdd ε (U S w p e θ φ) * U S w p1 e θ φ ^ 2 * Real.sin θ + pd ε (U S w p e θ φ) * U S w Ψ e θ φ) θ := by
    intro θ
    have d0 := U_deriv_θ (S := S) (e := e) (w := w) (fun k _ => H.dp k θ) φ
    have d1 := U_deriv_θ (S := S) (e := e) (w := w) (p := fun k θ => Real.sin θ * p1 k θ) (fun k _ => H.dΨ k θ) φ
    refine (((pd_deriv hε _).comp θ d0).mul d1).congr_deriv ?_
    rw [es]
    simp only [Function.comp]
    ring
  have cA : Continuous fun θ => pdd ε (U S w p e θ φ) * U S w p1 e θ φ ^ 2 * Real.sin θ :=
    (((pdd_cont hε).comp ch).mul (ch1.pow 2)).mul Real.continuous_sin
  have cB : Continuous fun θ => pd ε (U S w p e θ φ) * U S w Ψ e θ φ := ((pd_cont hε).comp ch).mul ch2
  have f := integral_eq_sub_of_hasDerivAt (a := 0) (b := Real.pi) (fun φ _ => d φ) ((cA.add cB).intervalIntegrable _ _)
  rw [es, es, Real.sin_pi, Real.sin_zero, zero_mul, zero_mul, mul_zero, mul_zero, sub_self,
    integral_add (cA.intervalIntegrable _ _) (cB.intervalIntegrable _ _)] at f
  have : 0 ≤ ∫ θ in (0 : ℝ)..Real.pi, pdd ε (U S w p e θ φ) * U S w p1 e θ φ ^ 2 * Real.sin θ :=
    integral_nonneg Real.pi_pos.le fun θ hθ =>
      mul_nonneg (mul_nonneg (pdd_nonneg hε _) (sq_nonneg _)) (Real.sin_nonneg_of_nonneg_of_le_pi hθ.1 hθ.2)
  linarith

/-- The Laplace operator of the sphere only smooths. -/
theorem smooths (w : ℤ × ℤ → ℝ) :
    0 ≤ overSphere fun θ φ => pd ε (U S w p e θ φ) * U S (fun k => k.1 * (k.1 + 1) * w k) p e θ φ := by
  have ch := U_cont2 (S := S) w H.cp H.ce
  have cL := U_cont2 (S := S) (fun k => k.1 * (k.1 + 1) * w k) H.cp H.ce
  have cΨ := U_cont2 (S := S) w H.cΨ H.ce
  have cQ : Continuous fun q : ℝ × ℝ => pd ε (U S w p e q.1 q.2) * U S w Ψ e q.1 q.2 := ((pd_cont hε).comp ch).mul cΨ
  have cP : Continuous fun q : ℝ × ℝ => pd ε (U S w p e q.1 q.2) * U S (fun k => k.1 * (k.1 + 1) * w k) p e q.1 q.2 :=
    ((pd_cont hε).comp ch).mul cL
  have sw := SphereLimit.int_swap Real.pi_pos Real.two_pi_pos (h := fun θ φ => pd ε (U S w p e θ φ) * U S w Ψ e θ φ) cQ
  have neg : ∫ φ in (0 : ℝ)..2 * Real.pi, ∫ θ in (0 : ℝ)..Real.pi, pd ε (U S w p e θ φ) * U S w Ψ e θ φ ≤ 0 := by
    have cI : Continuous fun φ => ∫ θ in (0 : ℝ)..Real.pi, pd ε (U S w p e θ φ) * U S w Ψ e θ φ :=
      continuous_parametric_intervalIntegral_of_continuous' (f := fun φ θ => pd ε (U S w p e θ φ) * U S w Ψ e θ φ)
        (cQ.comp continuous_swap) 0 _
    have := integral_mono_on (μ := volume) (g := fun _ => (0 : ℝ)) Real.two_pi_pos.le (cI.intervalIntegrable _ _)
      intervalIntegrable_const fun φ _ => parts_θ H hε w φ
    simpa using this
  rw [sw] at neg
  have cJ : Continuous fun θ => ∫ φ in (0 : ℝ)..2 * Real.pi, pd ε (U S w p e θ φ) * U S w Ψ e θ φ :=
    continuous_parametric_intervalIntegral_of_continuous' (f := fun θ φ => pd ε (U S w p e θ φ) * U S w Ψ e θ φ) cQ 0 _
  have key : -∫ θ in (0 : ℝ)..Real.pi, ∫ φ in (0 : ℝ)..2 * Real.pi, pd ε (U S w p e θ φ) * U S w Ψ e θ φ
      ≤ overSphere fun θ φ => pd ε (U S w p e θ φ) * U S (fun k => k.1 * (k.1 + 1) * w k) p e θ φ := by
    rw [← intervalIntegral.integral_neg]
    refine integral_mono_on_of_le_Ioo Real.pi_pos.le (cJ.neg.intervalIntegrable _ _) ((inner_cont2 cP).intervalIntegrable _ _)
      fun θ hθ => ?_
    have hs := Real.sin_pos_of_pos_of_lt_pi hθ.1 hθ.2
    have pt : ∀ φ, pd ε (U S w p e θ φ) * U S (fun k => k.1 * (k.1 + 1) * w k) p e θ φ * Real.sin θ
        = -(pd ε (U S w p e θ φ) * U S w Ψ e θ φ)
          + pd ε (U S w p e θ φ) * U S (fun k => (k.2 : ℝ) ^ 2 * w k) p e θ φ * (1 / Real.sin θ) := by
      intro φ
      have : U S (fun k => k.1 * (k.1 + 1) * w k) p e θ φ * Real.sin θ
          = -U S w Ψ e θ φ + U S (fun k => (k.2 : ℝ) ^ 2 * w k) p e θ φ * (1 / Real.sin θ) := by
        simp only [U, Finset.sum_mul, ← Finset.sum_neg_distrib, ← Finset.sum_add_distrib]
        refine Finset.sum_congr rfl fun k hk => ?_
        rw [H.ode k hk θ hs]
        field_simp
        ring
      linear_combination (pd ε (U S w p e θ φ)) * this
    have sQ : Continuous fun φ => pd ε (U S w p e θ φ) * U S w Ψ e θ φ :=
      slice (F := fun θ φ => pd ε (U S w p e θ φ) * U S w Ψ e θ φ) cQ θ
    have sM : Continuous fun φ => pd ε (U S w p e θ φ) * U S (fun k => (k.2 : ℝ) ^ 2 * w k) p e θ φ :=
      slice (F := fun θ φ => pd ε (U S w p e θ φ) * U S (fun k => (k.2 : ℝ) ^ 2 * w k) p e θ φ)
        (((pd_cont hε).comp ch).mul (U_cont2 _ H.cp H.ce)) θ
    rw [← intervalIntegral.integral_mul_const]
    simp only [pt]
    have sN : Continuous fun φ => -(pd ε (U S w p e θ φ) * U S w Ψ e θ φ) := sQ.neg
    have sK : Continuous fun φ => pd ε (U S w p e θ φ) * U S (fun k => (k.2 : ℝ) ^ 2 * w k) p e θ φ * (1 / Real.sin θ) :=
      sM.mul continuous_const
    rw [intervalIntegral.integral_add (sN.intervalIntegrable _ _) (sK.intervalIntegrable _ _), intervalIntegral.integral_neg,
      intervalIntegral.integral_mul_const]
    have := mul_nonneg (parts_φ H hε w θ) (by positivity : 0 ≤ 1 / Real.sin θ)
    linarith
  linarith

variable {c c1 c2 : ℤ × ℤ → ℝ → ℝ} (hc : ∀ k t, HasDerivAt (c k) (c1 k t) t) (hc1 : ∀ k t, HasDerivAt (c1 k) (c2 k t) t)
  (cc2 : ∀ k, Continuous (c2 k)) (hode : ∀ k ∈ S, ∀ t, c2 k t + c1 k t = k.1 * (k.1 + 1) * c k t)
include hc hc1 cc2 hode

theorem smooth_flux {t1 : ℝ} (hb : ∀ k ∈ S, c1 k t1 = -c k t1) {t t' : ℝ} (htt : t ≤ t') (ht : t' ≤ t1) :
    Real.exp t' * overSphere (fun θ φ => ph ε (U S (fun k => c k t') p e θ φ))
      ≤ Real.exp t * overSphere (fun θ φ => ph ε (U S (fun k => c k t) p e θ φ))
        + 4 * Real.pi * ε * (Real.exp t' - Real.exp t) := by
  have cc : ∀ k, Continuous (c k) := fun k => continuous_iff_continuousAt.2 fun t => (hc k t).continuousAt
  have cc1 : ∀ k, Continuous (c1 k) := fun k => continuous_iff_continuousAt.2 fun t => (hc1 k t).continuousAt
  have kh := U_cont (S := S) cc H.cp H.ce
  have kh1 := U_cont (S := S) cc1 H.cp H.ce
  have kh2 := U_cont (S := S) cc2 H.cp H.ce
  have k0 : Continuous fun q : ℝ × ℝ × ℝ => ph ε (U S (fun k => c k q.1) p e q.2.1 q.2.2) := (ph_cont hε).comp kh
  have kd : Continuous fun q : ℝ × ℝ × ℝ => pd ε (U S (fun k => c k q.1) p e q.2.1 q.2.2) := (pd_cont hε).comp kh
  have kdd : Continuous fun q : ℝ × ℝ × ℝ => pdd ε (U S (fun k => c k q.1) p e q.2.1 q.2.2) := (pdd_cont hε).comp kh
  have k1 := kd.mul kh1
  have k2 := (kdd.mul (kh1.pow 2)).add (kd.mul kh2)
  have at_t : ∀ {F : ℝ × ℝ × ℝ → ℝ}, Continuous F → ∀ t, Continuous fun q : ℝ × ℝ => F (t, q) :=
    fun cF t => cF.comp (continuous_const.prodMk continuous_id)
  have m1 := deriv_sphere (F := fun t θ φ => ph ε (U S (fun k => c k t) p e θ φ))
    (F' := fun t θ φ => pd ε (U S (fun k => c k t) p e θ φ) * U S (fun k => c1 k t) p e θ φ)
    (fun t θ φ => (ph_deriv hε _).comp t (U_deriv_t (fun k _ => hc k t) θ φ)) k0 k1
  have m2 := deriv_sphere (F := fun t θ φ => pd ε (U S (fun k => c k t) p e θ φ) * U S (fun k => c1 k t) p e θ φ)
    (F' := fun t θ φ => pdd ε (U S (fun k => c k t) p e θ φ) * U S (fun k => c1 k t) p e θ φ ^ 2
      + pd ε (U S (fun k => c k t) p e θ φ) * U S (fun k => c2 k t) p e θ φ)
    (fun t θ φ => (((pd_deriv hε _).comp t (U_deriv_t (fun k _ => hc k t) θ φ)).mul
      (U_deriv_t (fun k _ => hc1 k t) θ φ)).congr_deriv (by simp only [Function.comp]; ring)) k1 k2
  set G : ℝ → ℝ := fun t => overSphere (fun θ φ => ph ε (U S (fun k => c k t) p e θ φ))
    + overSphere (fun θ φ => pd ε (U S (fun k => c k t) p e θ φ) * U S (fun k => c1 k t) p e θ φ) with hG
  have mono : Monotone G := by
    refine monotone_of_hasDerivAt_nonneg (fun t => (m1 t).add (m2 t)) fun t => ?_
    have a1 : Continuous fun q : ℝ × ℝ => pd ε (U S (fun k => c k t) p e q.1 q.2) * U S (fun k => c1 k t) p e q.1 q.2 :=
      at_t k1 t
    have a2 : Continuous fun q : ℝ × ℝ => pdd ε (U S (fun k => c k t) p e q.1 q.2) * U S (fun k => c1 k t) p e q.1 q.2 ^ 2
      + pd ε (U S (fun k => c k t) p e q.1 q.2) * U S (fun k => c2 k t) p e q.1 q.2 := at_t k2 t
    have a3 : Continuous fun q : ℝ × ℝ => pdd ε (U S (fun k => c k t) p e q.1 q.2) * U S (fun k => c1 k t) p e q.1 q.2 ^ 2 :=
      at_t (kdd.mul (kh1.pow 2)) t
    have aL : Continuous fun q : ℝ × ℝ => pd ε (U S (fun k => c k t) p e q.1 q.2)
        * U S (fun k => k.1 * (k.1 + 1) * c k t) p e q.1 q.2 := (at_t kd t).mul (U_cont2 _ H.cp H.ce)
    rw [Pi.zero_apply, ← overSphere_add (F := fun θ φ => pd ε (U S (fun k => c k t) p e θ φ) * U S (fun k => c1 k t) p e θ φ)
      (G := fun θ φ => pdd ε (U S (fun k => c k t) p e θ φ) * U S (fun k => c1 k t) p e θ φ ^ 2
        + pd ε (U S (fun k => c k t) p e θ φ) * U S (fun k => c2 k t) p e θ φ) a1 a2]
    have e0 : (fun θ φ => pd ε (U S (fun k => c k t) p e θ φ) * U S (fun k => c1 k t) p e θ φ
        + (pdd ε (U S (fun k => c k t) p e θ φ) * U S (fun k => c1 k t) p e θ φ ^ 2
          + pd ε (U S (fun k => c k t) p e θ φ) * U S (fun k => c2 k t) p e θ φ))
        = fun θ φ => pdd ε (U S (fun k => c k t) p e θ φ) * U S (fun k => c1 k t) p e θ φ ^ 2
          + pd ε (U S (fun k => c k t) p e θ φ) * U S (fun k => k.1 * (k.1 + 1) * c k t) p e θ φ := by
      funext θ φ
      have : U S (fun k => k.1 * (k.1 + 1) * c k t) p e θ φ
          = U S (fun k => c1 k t) p e θ φ + U S (fun k => c2 k t) p e θ φ := by
        simp only [U, ← Finset.sum_add_distrib]
        refine Finset.sum_congr rfl fun k hk => ?_
        rw [← hode k hk t]
        ring
      rw [this]
      ring
    rw [e0, overSphere_add (F := fun θ φ => pdd ε (U S (fun k => c k t) p e θ φ) * U S (fun k => c1 k t) p e θ φ ^ 2)
      (G := fun θ φ => pd ε (U S (fun k => c k t) p e θ φ) * U S (fun k => k.1 * (k.1 + 1) * c k t) p e θ φ) a3 aL]
    refine add_nonneg ?_ (smooths H hε fun k => c k t)
    have := overSphere_mono (F := fun _ _ => 0)
      (G := fun θ φ => pdd ε (U S (fun k => c k t) p e θ φ) * U S (fun k => c1 k t) p e θ φ ^ 2) continuous_const a3
      fun θ φ => mul_nonneg (pdd_nonneg hε _) (sq_nonneg _)
    rwa [overSphere_const, mul_zero] at this
  have top : G t1 ≤ 4 * Real.pi * ε := by
    have a0 : Continuous fun q : ℝ × ℝ => ph ε (U S (fun k => c k t1) p e q.1 q.2) := at_t k0 t1
    have a1 : Continuous fun q : ℝ × ℝ => pd ε (U S (fun k => c k t1) p e q.1 q.2) * U S (fun k => c1 k t1) p e q.1 q.2 :=
      at_t k1 t1
    have eG : G t1 = overSphere (fun θ φ => ph ε (U S (fun k => c k t1) p e θ φ)
        + pd ε (U S (fun k => c k t1) p e θ φ) * U S (fun k => c1 k t1) p e θ φ) :=
      (overSphere_add (F := fun θ φ => ph ε (U S (fun k => c k t1) p e θ φ))
        (G := fun θ φ => pd ε (U S (fun k => c k t1) p e θ φ) * U S (fun k => c1 k t1) p e θ φ) a0 a1).symm
    rw [← overSphere_const, eG]
    refine overSphere_mono (a0.add a1) continuous_const fun θ φ => ?_
    have e1 : U S (fun k => c1 k t1) p e θ φ = -U S (fun k => c k t1) p e θ φ := by
      simp only [U, ← Finset.sum_neg_distrib]
      refine Finset.sum_congr rfl fun k hk => ?_
      rw [hb k hk]; ring
    rw [e1]
    generalize U S (fun k => c k t1) p e θ φ = y
    have q1 := ph_pos hε y
    have q2 := ph_sq hε y
    have q3 := le_ph hε y
    have : ph ε y + pd ε y * -y = ε * (ε / ph ε y) := by
      rw [pd]; field_simp; linarith
    rw [this]
    have : ε / ph ε y ≤ 1 := (div_le_one q1).2 q3
    nlinarith
  have anti : AntitoneOn (fun t => Real.exp t * overSphere (fun θ φ => ph ε (U S (fun k => c k t) p e θ φ))
      - 4 * Real.pi * ε * Real.exp t) (Set.Iic t1) := by
    have d : ∀ t, HasDerivAt (fun t => Real.exp t * overSphere (fun θ φ => ph ε (U S (fun k => c k t) p e θ φ))
        - 4 * Real.pi * ε * Real.exp t) (Real.exp t * (G t - 4 * Real.pi * ε)) t := fun t =>
      (((Real.hasDerivAt_exp t).mul (m1 t)).sub ((Real.hasDerivAt_exp t).const_mul _)).congr_deriv (by rw [hG]; ring)
    refine antitoneOn_of_deriv_nonpos (convex_Iic t1) (fun t _ => (d t).continuousAt.continuousWithinAt)
      (fun t _ => (d t).differentiableAt.differentiableWithinAt) fun t h => ?_
    rw [interior_Iic] at h
    rw [(d t).deriv]
    have := mono h.le
    exact mul_nonpos_of_nonneg_of_nonpos (Real.exp_pos t).le (by linarith)
  have := anti (Set.mem_Iic.2 (htt.trans ht)) (Set.mem_Iic.2 ht) htt
  dsimp only at this
  linarith

end

/-- The integral of the magnitude. -/
theorem unsigned {S : Finset (ℤ × ℤ)} {p p1 Ψ e e1 : ℤ × ℤ → ℝ → ℝ} (H : Factors S p p1 Ψ e e1)
    {c c1 c2 : ℤ × ℤ → ℝ → ℝ} (hc : ∀ k t, HasDerivAt (c k) (c1 k t) t) (hc1 : ∀ k t, HasDerivAt (c1 k) (c2 k t) t)
    (cc2 : ∀ k, Continuous (c2 k)) (hode : ∀ k ∈ S, ∀ t, c2 k t + c1 k t = k.1 * (k.1 + 1) * c k t)
    {t1 : ℝ} (hb : ∀ k ∈ S, c1 k t1 = -c k t1) {t t' : ℝ} (htt : t ≤ t') (ht : t' ≤ t1) :
    Real.exp t' * overSphere (fun θ φ => |U S (fun k => c k t') p e θ φ|)
      ≤ Real.exp t * overSphere (fun θ φ => |U S (fun k => c k t) p e θ φ|) := by
  refine le_of_forall_pos_le_add fun δ hδ => ?_
  set ε : ℝ := δ / (4 * Real.pi * Real.exp t') with hεd
  have hpi := Real.pi_pos
  have he' := Real.exp_pos t'
  have he := Real.exp_pos t
  have hε : 0 < ε := by positivity
  have ch : ∀ t, Continuous fun q : ℝ × ℝ => U S (fun k => c k t) p e q.1 q.2 := fun t => U_cont2 _ H.cp H.ce
  have main := smooth_flux H hε hc hc1 cc2 hode hb htt ht
  have lo := overSphere_mono (F := fun θ φ => |U S (fun k => c k t') p e θ φ|)
    (G := fun θ φ => ph ε (U S (fun k => c k t') p e θ φ)) (ch t').abs ((ph_cont hε).comp (ch t')) fun θ φ => ph_lower hε _
  have hi := overSphere_mono (F := fun θ φ => ph ε (U S (fun k => c k t) p e θ φ))
    (G := fun θ φ => |U S (fun k => c k t) p e θ φ| + ε) ((ph_cont hε).comp (ch t)) ((ch t).abs.add continuous_const)
    fun θ φ => ph_upper hε _
  rw [overSphere_add (F := fun θ φ => |U S (fun k => c k t) p e θ φ|) (G := fun _ _ => ε) (ch t).abs continuous_const,
    overSphere_const] at hi
  have q1 := mul_le_mul_of_nonneg_left lo he'.le
  have q2 := mul_le_mul_of_nonneg_left hi he.le
  have q3 : 4 * Real.pi * ε * Real.exp t' = δ := by rw [hεd]; field_simp
  nlinarith

end OpenFlux
end Verif
