import Mathlib.Analysis.InnerProductSpace.Harmonic.Basic
import Mathlib.Analysis.InnerProductSpace.Calculus
import Mathlib.Analysis.InnerProductSpace.PiL2
import Mathlib.Analysis.Calculus.DerivativeTest
import Mathlib.Analysis.Calculus.ContDiff.Basic
import Mathlib.Tactic.Linarith
import Mathlib.Tactic.LinearCombination

/-!
# Harmonic functions on a spherical shell: the Laplacian from lines, and the maximum principle with mixed boundary values
-/

namespace Verif
namespace Shell

open InnerProductSpace Laplacian Filter Topology Set

/-- Three-dimensional space. -/
abbrev E3 := EuclideanSpace ℝ (Fin 3)

variable {F : Type*} [NormedAddCommGroup F] [NormedSpace ℝ F]

theorem line_deriv (x v : E3) (t : ℝ) : HasDerivAt (fun s : ℝ => x + s • v) v t := by
  simpa using ((hasDerivAt_id t).smul_const v).const_add x

/-- The second derivative along a line through a point. -/
theorem second_along {f : E3 → F} {x v : E3} (hf : ContDiffAt ℝ 2 f x) {g : ℝ → F} {d : F}
    (h1 : ∀ᶠ t in 𝓝 (0 : ℝ), HasDerivAt (fun s : ℝ => f (x + s • v)) (g t) t) (h2 : HasDerivAt g d 0) :
    fderiv ℝ (fderiv ℝ f) x v v = d := by
  have hc : Tendsto (fun t : ℝ => x + t • v) (𝓝 0) (𝓝 x) := by
    have : Continuous fun t : ℝ => x + t • v := by fun_prop
    simpa using this.tendsto 0
  have hd : ∀ᶠ y in 𝓝 x, DifferentiableAt ℝ f y := by
    filter_upwards [hf.eventually (by simp)] with y hy using hy.differentiableAt (by norm_num)
  have e : g =ᶠ[𝓝 0] fun t => fderiv ℝ f (x + t • v) v := by
    filter_upwards [h1, hc.eventually hd] with t ht hdt
    exact ht.unique (hdt.hasFDerivAt.comp_hasDerivAt t (line_deriv x v t))
  have hff : HasFDerivAt (fderiv ℝ f) (fderiv ℝ (fderiv ℝ f) x) (x + (0 : ℝ) • v) := by
    rw [zero_smul, add_zero]
    exact ((hf.fderiv_right (m := 1) (by norm_num)).differentiableAt (by norm_num)).hasFDerivAt
  have h3 : HasDerivAt (fun t : ℝ => fderiv ℝ f (x + t • v) v) (fderiv ℝ (fderiv ℝ f) x v v) 0 :=
    (ContinuousLinearMap.apply ℝ F v).hasFDerivAt.comp_hasDerivAt 0 (hff.comp_hasDerivAt 0 (line_deriv x v 0))
  exact h3.unique (h2.congr_of_eventuallyEq e.symm)

/-- The Laplacian is the sum of the second derivatives along the three axes. -/
theorem laplacian_sum (f : E3 → F) (x : E3) :
    Δ f x = ∑ i : Fin 3, fderiv ℝ (fderiv ℝ f) x (EuclideanSpace.single i 1) (EuclideanSpace.single i 1) := by
  rw [laplacian_eq_iteratedFDeriv_orthonormalBasis f (EuclideanSpace.basisFun (Fin 3) ℝ)]
  simp only [iteratedFDeriv_two_apply, EuclideanSpace.basisFun_apply, Matrix.cons_val_zero, Matrix.cons_val_one]

/-- At a local maximum the second derivative along a line is not positive. -/
theorem second_nonpos {f : ℝ → ℝ} {g : ℝ → ℝ} {d : ℝ} (hm : IsLocalMax f 0)
    (h1 : ∀ᶠ t in 𝓝 (0 : ℝ), HasDerivAt f (g t) t) (h2 : HasDerivAt g d 0) : d ≤ 0 := by
  by_contra hd
  push Not at hd
  have e : deriv f =ᶠ[𝓝 0] g := by filter_upwards [h1] with t ht using ht.deriv
  have h3 : HasDerivAt (deriv f) d 0 := h2.congr_of_eventuallyEq e
  have hmin : IsLocalMin f 0 := isLocalMin_of_deriv_deriv_pos (by rw [h3.deriv]; exact hd) hm.deriv_eq_zero
    h1.self_of_nhds.continuousAt
  have hc : f =ᶠ[𝓝 0] fun _ => f 0 := by
    filter_upwards [hm, hmin] with t ha hb using le_antisymm ha hb
  have hz : deriv f =ᶠ[𝓝 0] fun _ => 0 := by
    have := hc.deriv
    filter_upwards [this] with t ht
    rw [ht, deriv_const]
  have := h3.unique ((hasDerivAt_const (0 : ℝ) (0 : ℝ)).congr_of_eventuallyEq hz)
  linarith

/-- The closed shell between two spheres about the origin. -/
def shell (a b : ℝ) : Set E3 := {x | a ≤ ‖x‖ ∧ ‖x‖ ≤ b}

theorem isCompact_shell (a b : ℝ) : IsCompact (shell a b) := by
  have h : shell a b = Metric.closedBall 0 b ∩ {x | a ≤ ‖x‖} := by
    ext x; simp [shell, and_comm]
  rw [h]
  exact (isCompact_closedBall _ _).inter_right (isClosed_le continuous_const continuous_norm)

theorem normSq_line (x v : E3) (t : ℝ) :
    ‖x + t • v‖ ^ 2 = ‖x‖ ^ 2 + 2 * t * inner ℝ x v + t ^ 2 * ‖v‖ ^ 2 := by
  rw [norm_add_sq_real, inner_smul_right, norm_smul, mul_pow, Real.norm_eq_abs, sq_abs]
  ring

theorem normSq_deriv (x v : E3) (t : ℝ) :
    HasDerivAt (fun s : ℝ => ‖x + s • v‖ ^ 2) (2 * inner ℝ x v + 2 * t * ‖v‖ ^ 2) t := by
  have e : (fun s : ℝ => ‖x + s • v‖ ^ 2) = fun s => ‖x‖ ^ 2 + 2 * s * inner ℝ x v + s ^ 2 * ‖v‖ ^ 2 := by
    funext s; exact normSq_line x v s
  rw [e]
  have h := (((hasDerivAt_id t).const_mul 2).mul_const (inner ℝ x v)).const_add (‖x‖ ^ 2)
  have h' := ((hasDerivAt_id t).pow 2).mul_const (‖v‖ ^ 2)
  refine (h.add h').congr_deriv ?_
  simp

/-- A harmonic function plus a multiple of the squared distance has no local maximum. -/
theorem not_localMax {u : E3 → ℝ} {y : E3} {ε : ℝ} (hu : HarmonicAt u y) (hε : 0 < ε) :
    ¬ IsLocalMax (fun x => u x + ε * ‖x‖ ^ 2) y := by
  intro hloc
  have hlap : Δ u y = 0 := hu.2.self_of_nhds
  have hud : ∀ᶠ z in 𝓝 y, DifferentiableAt ℝ u z := by
    filter_upwards [hu.1.eventually (by simp)] with z hz using hz.differentiableAt (by norm_num)
  rw [laplacian_sum] at hlap
  have key : ∀ i : Fin 3,
      fderiv ℝ (fderiv ℝ u) y (EuclideanSpace.single i 1) (EuclideanSpace.single i 1) + 2 * ε ≤ 0 := by
    intro i
    set e : E3 := EuclideanSpace.single i 1 with he
    have hne : ‖e‖ = 1 := by simp [he]
    have hc : Tendsto (fun t : ℝ => y + t • e) (𝓝 0) (𝓝 y) := by
      have : Continuous fun t : ℝ => y + t • e := by fun_prop
      simpa using this.tendsto 0
    have hm : IsLocalMax (fun t : ℝ => u (y + t • e) + ε * ‖y + t • e‖ ^ 2) 0 := by
      have := hc.eventually hloc
      simpa [IsLocalMax, IsMaxFilter] using this
    refine second_nonpos (g := fun t => fderiv ℝ u (y + t • e) e + ε * (2 * inner ℝ y e + 2 * t * ‖e‖ ^ 2)) hm ?_ ?_
    · filter_upwards [hc.eventually hud] with t ht
      exact (ht.hasFDerivAt.comp_hasDerivAt t (line_deriv y e t)).add ((normSq_deriv y e t).const_mul ε)
    · have hff : HasFDerivAt (fderiv ℝ u) (fderiv ℝ (fderiv ℝ u) y) (y + (0 : ℝ) • e) := by
        rw [zero_smul, add_zero]
        exact ((hu.1.fderiv_right (m := 1) (by norm_num)).differentiableAt (by norm_num)).hasFDerivAt
      have h3 : HasDerivAt (fun t : ℝ => fderiv ℝ u (y + t • e) e) (fderiv ℝ (fderiv ℝ u) y e e) 0 :=
        (ContinuousLinearMap.apply ℝ ℝ e).hasFDerivAt.comp_hasDerivAt 0
          (hff.comp_hasDerivAt 0 (line_deriv y e 0))
      have h4 : HasDerivAt (fun t : ℝ => ε * (2 * inner ℝ y e + 2 * t * ‖e‖ ^ 2)) (2 * ε) 0 := by
        have := ((((hasDerivAt_id (0 : ℝ)).const_mul 2).mul_const (‖e‖ ^ 2)).const_add (2 * inner ℝ y e)).const_mul ε
        refine this.congr_deriv ?_
        rw [hne]; ring
      exact h3.add h4
  have h0 := key 0
  have h1 := key 1
  have h2 := key 2
  rw [Fin.sum_univ_three] at hlap
  linarith

/-- A harmonic function on a closed shell whose normal derivative vanishes on the inner sphere is bounded by its
values on the outer one. -/
theorem le_outer {u : E3 → ℝ} {a b c : ℝ} (ha : 0 < a) (hab : a < b) (hu : HarmonicOnNhd u (shell a b))
    (ho : ∀ x, ‖x‖ = b → u x ≤ c) (hi : ∀ x, ‖x‖ = a → 0 ≤ fderiv ℝ u x x) {x : E3} (hx : x ∈ shell a b) :
    u x ≤ c := by
  suffices h : ∀ ε : ℝ, 0 < ε → u x ≤ c + ε * b ^ 2 by
    have ht : Tendsto (fun ε : ℝ => c + ε * b ^ 2) (𝓝[>] 0) (𝓝 c) := by
      have : Continuous fun ε : ℝ => c + ε * b ^ 2 := by fun_prop
      have h0 := this.tendsto 0
      simp only [zero_mul, add_zero] at h0
      exact h0.mono_left nhdsWithin_le_nhds
    exact ge_of_tendsto ht (eventually_nhdsWithin_of_forall fun ε hε => h ε hε)
  intro ε hε
  set v : E3 → ℝ := fun y => u y + ε * ‖y‖ ^ 2 with hv
  have hvc : ContinuousOn v (shell a b) := by
    refine hu.continuousOn.add ?_
    fun_prop
  obtain ⟨y, hy, hmax⟩ := (isCompact_shell a b).exists_isMaxOn ⟨x, hx⟩ hvc
  have hle : v x ≤ v y := hmax hx
  have hxe : u x ≤ v x := by simp only [hv]; have := sq_nonneg ‖x‖; nlinarith
  rcases hy.2.eq_or_lt with hb | hb
  · have := ho y hb
    have h2 : v y = u y + ε * b ^ 2 := by simp only [hv, hb]
    linarith
  exfalso
  have hud : ∀ z ∈ shell a b, DifferentiableAt ℝ u z := fun z hz => (hu z hz).1.differentiableAt (by norm_num)
  rcases hy.1.eq_or_lt with hA | hA
  · -- the inner sphere
    have h1 : HasDerivAt (fun t : ℝ => v (y + t • y)) (fderiv ℝ u y y + ε * (2 * ‖y‖ ^ 2)) 0 := by
      have h2 : HasFDerivAt u (fderiv ℝ u y) (y + (0 : ℝ) • y) := by
        rw [zero_smul, add_zero]; exact (hud y hy).hasFDerivAt
      have h3 := h2.comp_hasDerivAt 0 (line_deriv y y 0)
      refine (h3.add ((normSq_deriv y y 0).const_mul ε)).congr_deriv ?_
      rw [real_inner_self_eq_norm_sq]; ring
    have hpos : 0 < fderiv ℝ u y y + ε * (2 * ‖y‖ ^ 2) := by
      have := hi y hA.symm
      have : 0 < ‖y‖ ^ 2 := by rw [← hA]; positivity
      nlinarith [hi y hA.symm, mul_pos hε this]
    have hlt : ∀ᶠ t in 𝓝[>] (0 : ℝ), v (y + (0 : ℝ) • y) < v (y + t • y) := by
      have hs := hasDerivAt_iff_tendsto_slope.1 h1
      have hs' := hs.mono_left (nhdsWithin_mono (0 : ℝ) (show Ioi (0 : ℝ) ⊆ {0}ᶜ from fun t ht => ne_of_gt ht))
      filter_upwards [hs'.eventually (lt_mem_nhds hpos), self_mem_nhdsWithin] with t ht h0
      rw [slope_def_field, sub_zero] at ht
      have h0' : (0 : ℝ) < t := h0
      have := (div_pos_iff_of_pos_right h0').1 ht
      linarith
    have hin : ∀ᶠ t in 𝓝[>] (0 : ℝ), y + t • y ∈ shell a b := by
      have hcont : Continuous fun t : ℝ => ‖y + t • y‖ := by fun_prop
      have h4 : ∀ᶠ t in 𝓝 (0 : ℝ), ‖y + t • y‖ < b :=
        hcont.continuousAt.eventually (gt_mem_nhds (by simpa using hb))
      filter_upwards [nhdsWithin_le_nhds h4, self_mem_nhdsWithin] with t ht h0
      refine ⟨?_, ht.le⟩
      have h0' : (0 : ℝ) < t := h0
      have e : y + t • y = (1 + t) • y := by rw [add_smul, one_smul]
      rw [e, norm_smul, Real.norm_eq_abs, abs_of_pos (by linarith), ← hA]
      nlinarith
    obtain ⟨t, h5, h6⟩ := (hlt.and hin).exists
    have h7 : v (y + t • y) ≤ v y := hmax h6
    rw [zero_smul, add_zero] at h5
    linarith
  · -- the interior
    have hnb : shell a b ∈ 𝓝 y := by
      have h1 : ∀ᶠ z : E3 in 𝓝 y, a < ‖z‖ := continuous_norm.continuousAt.eventually (lt_mem_nhds hA)
      have h2 : ∀ᶠ z : E3 in 𝓝 y, ‖z‖ < b := continuous_norm.continuousAt.eventually (gt_mem_nhds hb)
      filter_upwards [h1, h2] with z ha hb using ⟨ha.le, hb.le⟩
    have hloc : IsLocalMax v y := hmax.isLocalMax hnb
    exact not_localMax (hu y hy) hε hloc

/-- A harmonic function on a closed shell that is constant on the outer sphere and whose normal derivative vanishes on
the inner one is constant. -/
theorem eq_outer {u : E3 → ℝ} {a b c : ℝ} (ha : 0 < a) (hab : a < b) (hu : HarmonicOnNhd u (shell a b))
    (ho : ∀ x, ‖x‖ = b → u x = c) (hi : ∀ x, ‖x‖ = a → fderiv ℝ u x x = 0) {x : E3} (hx : x ∈ shell a b) :
    u x = c := by
  refine le_antisymm (le_outer ha hab hu (fun y hy => (ho y hy).le) (fun y hy => (hi y hy).ge) hx) ?_
  have h := le_outer (c := -c) ha hab hu.neg (fun y hy => (by simp [ho y hy])) (fun y hy => ?_) hx
  · simpa using h
  · rw [fderiv_neg, ContinuousLinearMap.neg_apply, hi y hy, neg_zero]

end Shell
end Verif
