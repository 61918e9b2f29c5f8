import Verif.Lemmas.MaxPrinciple
import Mathlib.Analysis.Complex.RealDeriv
import Mathlib.Analysis.Calculus.Deriv.Inv
import Mathlib.Analysis.Calculus.Deriv.Pow
import Mathlib.Analysis.SpecialFunctions.Sqrt
import Mathlib.Tactic.FieldSimp

/-!
# Solid harmonics in cartesian coordinates
-/

namespace Verif
namespace Shell

open InnerProductSpace Laplacian Filter Topology Set

/-- A product of a power of `x + i y`, a function of the radius and a function of the cosine of the colatitude. -/
noncomputable def solid (m : ℕ) (g q : ℝ → ℝ) (x : E3) : ℂ :=
  ((x 0 : ℂ) + (x 1 : ℂ) * Complex.I) ^ m * ((g ‖x‖ * q (x 2 / ‖x‖) : ℝ) : ℂ)

/-- First derivative of the real factor along a line. -/
noncomputable def gLine1 (g g1 q q1 : ℝ → ℝ) (r s z w : ℝ) : ℝ :=
  g1 r * (s / r) * q (z / r) + g r * (q1 (z / r) * (w / r - z * s / r ^ 3))

/-- Second derivative of the real factor along a line. -/
noncomputable def gLine2 (g g1 g2 q q1 q2 : ℝ → ℝ) (r s z w : ℝ) : ℝ :=
  g2 r * (s / r) ^ 2 * q (z / r) + g1 r * (1 / r - s ^ 2 / r ^ 3) * q (z / r)
    + 2 * (g1 r * (s / r) * (q1 (z / r) * (w / r - z * s / r ^ 3)))
    + g r * (q2 (z / r) * (w / r - z * s / r ^ 3) ^ 2)
    + g r * (q1 (z / r) * (3 * z * s ^ 2 / r ^ 5 - 2 * w * s / r ^ 3 - z / r ^ 3))

section line
variable {g g1 g2 q q1 q2 : ℝ → ℝ} (hg : ∀ r, 0 < r → HasDerivAt g (g1 r) r) (hg1 : ∀ r, 0 < r → HasDerivAt g1 (g2 r) r)
  (hq : ∀ u, HasDerivAt q (q1 u) u) (hq1 : ∀ u, HasDerivAt q1 (q2 u) u)
  {r s z : ℝ → ℝ} {w t : ℝ} (hr : HasDerivAt r (s t / r t) t) (hs : HasDerivAt s 1 t) (hz : HasDerivAt z w t)
  (hp : 0 < r t)
include hg hq hr hz hp

private theorem hasDerivAt_u : HasDerivAt (fun t => z t / r t) (w / r t - z t * s t / r t ^ 3) t := by
  refine (hz.div hr hp.ne').congr_deriv ?_
  have := hp.ne'
  field_simp

private theorem hasDerivAt_gLine :
    HasDerivAt (fun t => g (r t) * q (z t / r t)) (gLine1 g g1 q q1 (r t) (s t) (z t) w) t := by
  have hu := hasDerivAt_u hg hq hr hz hp
  exact ((hg _ hp).comp t hr).mul ((hq _).comp t hu)

include hg1 hq1 hs
private theorem hasDerivAt_gLine1 :
    HasDerivAt (fun t => gLine1 g g1 q q1 (r t) (s t) (z t) w) (gLine2 g g1 g2 q q1 q2 (r t) (s t) (z t) w) t := by
  have hu := hasDerivAt_u hg hq hr hz hp
  have a := (((hg1 _ hp).comp t hr).mul (hs.div hr hp.ne')).mul ((hq _).comp t hu)
  have b1 := ((hasDerivAt_const t w).div hr hp.ne').sub ((hz.mul hs).div (hr.pow 3) (pow_ne_zero 3 hp.ne'))
  have b := ((hg _ hp).comp t hr).mul (((hq1 _).comp t hu).mul b1)
  refine (a.add b).congr_deriv ?_
  have := hp.ne'
  simp only [Function.comp, Pi.mul_apply, Pi.sub_apply, Pi.div_apply, Pi.pow_apply, gLine2]
  field_simp
  ring

end line

/-- The first derivative of a solid harmonic along a line. -/
noncomputable def fLine1 (m : ℕ) (c ζ : ℂ) (G G1 : ℝ) : ℂ := m * ζ ^ (m - 1) * c * (G : ℂ) + ζ ^ m * (G1 : ℂ)

/-- The second derivative of a solid harmonic along a line. -/
noncomputable def fLine2 (m : ℕ) (c ζ : ℂ) (G G1 G2 : ℝ) : ℂ :=
  m * (((m - 1 : ℕ) : ℂ) * ζ ^ (m - 1 - 1) * c) * c * (G : ℂ) + 2 * (m * ζ ^ (m - 1) * c * (G1 : ℂ)) + ζ ^ m * (G2 : ℂ)

private theorem hasDerivAt_fLine (m : ℕ) {c : ℂ} {ζ : ℝ → ℂ} {G G1 : ℝ → ℝ} {t : ℝ} (hζ : HasDerivAt ζ c t)
    (hG : HasDerivAt G (G1 t) t) :
    HasDerivAt (fun t => ζ t ^ m * ((G t : ℝ) : ℂ)) (fLine1 m c (ζ t) (G t) (G1 t)) t :=
  (hζ.pow m).mul hG.ofReal_comp

private theorem hasDerivAt_fLine1 (m : ℕ) {c : ℂ} {ζ : ℝ → ℂ} {G G1 G2 : ℝ → ℝ} {t : ℝ} (hζ : HasDerivAt ζ c t)
    (hG : HasDerivAt G (G1 t) t) (hG1 : HasDerivAt G1 (G2 t) t) :
    HasDerivAt (fun t => fLine1 m c (ζ t) (G t) (G1 t)) (fLine2 m c (ζ t) (G t) (G1 t) (G2 t)) t := by
  have h := ((((hζ.pow (m - 1)).const_mul (m : ℂ)).mul_const c).mul hG.ofReal_comp).add
    ((hζ.pow m).mul hG1.ofReal_comp)
  refine h.congr_deriv ?_
  simp only [fLine2, Pi.pow_apply]
  ring

theorem norm_line_deriv (x v : E3) (hv : ‖v‖ = 1) {t : ℝ} (h : 0 < ‖x + t • v‖) :
    HasDerivAt (fun s : ℝ => ‖x + s • v‖) ((inner ℝ x v + t) / ‖x + t • v‖) t := by
  have h1 := (normSq_deriv x v t).sqrt (by positivity)
  simp only [Real.sqrt_sq (norm_nonneg _)] at h1
  refine h1.congr_deriv ?_
  rw [hv]
  field_simp

section harmonic
variable {m : ℕ} {lam : ℝ} {g g1 g2 q q1 q2 : ℝ → ℝ} (hg : ∀ r, 0 < r → HasDerivAt g (g1 r) r)
  (hg1 : ∀ r, 0 < r → HasDerivAt g1 (g2 r) r) (hgc : ∀ r, 0 < r → ContDiffAt ℝ 2 g r)
  (hq : ∀ u, HasDerivAt q (q1 u) u) (hq1 : ∀ u, HasDerivAt q1 (q2 u) u) (hqc : ContDiff ℝ 2 q)

omit hgc hqc in
theorem contDiffAt_solid {n : WithTop ℕ∞} (hgc : ∀ r, 0 < r → ContDiffAt ℝ n g r) (hqc : ContDiff ℝ n q) {x : E3}
    (hx : x ≠ 0) : ContDiffAt ℝ n (solid m g q) x := by
  have hn : ContDiffAt ℝ n (fun y : E3 => ‖y‖) x := contDiffAt_norm ℝ hx
  have hp : 0 < ‖x‖ := norm_pos_iff.2 hx
  have hi : ∀ i : Fin 3, ContDiffAt ℝ n (fun y : E3 => y i) x := fun i => by fun_prop
  have hu : ContDiffAt ℝ n (fun y : E3 => y 2 / ‖y‖) x := (hi 2).div hn hp.ne'
  have h1 : ContDiffAt ℝ n (fun y : E3 => g ‖y‖ * q (y 2 / ‖y‖)) x :=
    ((hgc _ hp).comp x hn).mul (hqc.contDiffAt.comp x hu)
  have hc : ∀ f : E3 → ℝ, ContDiffAt ℝ n f x → ContDiffAt ℝ n (fun y => (f y : ℂ)) x := fun f hf =>
    Complex.ofRealCLM.contDiff.contDiffAt.comp x hf
  exact (((hc _ (hi 0)).add ((hc _ (hi 1)).mul contDiffAt_const)).pow m).mul (hc _ h1)

include hg hg1 hgc hq hq1 hqc in
private theorem second_solid {x v : E3} (hx : x ≠ 0) (hv : ‖v‖ = 1) :
    fderiv ℝ (fderiv ℝ (solid m g q)) x v v
      = fLine2 m ((v 0 : ℂ) + (v 1 : ℂ) * Complex.I) ((x 0 : ℂ) + (x 1 : ℂ) * Complex.I) (g ‖x‖ * q (x 2 / ‖x‖))
        (gLine1 g g1 q q1 ‖x‖ (inner ℝ x v) (x 2) (v 2)) (gLine2 g g1 g2 q q1 q2 ‖x‖ (inner ℝ x v) (x 2) (v 2)) := by
  set r : ℝ → ℝ := fun t => ‖x + t • v‖ with hr
  set s : ℝ → ℝ := fun t => inner ℝ x v + t with hs
  set z : ℝ → ℝ := fun t => x 2 + t * v 2 with hz
  set c : ℂ := (v 0 : ℂ) + (v 1 : ℂ) * Complex.I with hc
  set ζ : ℝ → ℂ := fun t => ((x 0 : ℂ) + (x 1 : ℂ) * Complex.I) + t * c with hζ
  have hsd : ∀ t, HasDerivAt s 1 t := fun t => (hasDerivAt_id t).const_add _
  have hzd : ∀ t, HasDerivAt z (v 2) t := fun t => by
    exact (((hasDerivAt_id t).mul_const (v 2)).const_add (x 2)).congr_deriv (by simp)
  have hζd : ∀ t, HasDerivAt ζ c t := fun t => by
    exact ((hasDerivAt_id t).ofReal_comp.mul_const c).const_add ((x 0 : ℂ) + (x 1 : ℂ) * Complex.I)
      |>.congr_deriv (by simp)
  have hrd : ∀ t, 0 < r t → HasDerivAt r (s t / r t) t := fun t ht => norm_line_deriv x v hv ht
  have e : (fun t : ℝ => solid m g q (x + t • v)) = fun t => ζ t ^ m * ((g (r t) * q (z t / r t) : ℝ) : ℂ) := by
    funext t
    simp only [solid, hr, hz, hζ, hc, PiLp.add_apply, PiLp.smul_apply, smul_eq_mul]
    congr 2
    push_cast
    ring
  have h0 : 0 < r 0 := by simpa [hr] using hx
  have hev : ∀ᶠ t in 𝓝 (0 : ℝ), 0 < r t := by
    have : Continuous r := by simp only [hr]; fun_prop
    exact this.continuousAt.eventually (lt_mem_nhds h0)
  have hG : ∀ t, 0 < r t → HasDerivAt (fun t => g (r t) * q (z t / r t)) (gLine1 g g1 q q1 (r t) (s t) (z t) (v 2)) t :=
    fun t ht => hasDerivAt_gLine hg hq (hrd t ht) (hzd t) ht
  have hG1 := hasDerivAt_gLine1 hg hg1 hq hq1 (hrd 0 h0) (hsd 0) (hzd 0) h0
  have hF1 := hasDerivAt_fLine1 m (G := fun t => g (r t) * q (z t / r t))
    (G1 := fun t => gLine1 g g1 q q1 (r t) (s t) (z t) (v 2))
    (G2 := fun t => gLine2 g g1 g2 q q1 q2 (r t) (s t) (z t) (v 2)) (hζd 0) (hG 0 h0) hG1
  have h := second_along (contDiffAt_solid (m := m) hgc hqc hx)
    (g := fun t => fLine1 m c (ζ t) (g (r t) * q (z t / r t)) (gLine1 g g1 q q1 (r t) (s t) (z t) (v 2)))
    (by
      filter_upwards [hev] with t ht
      rw [e]
      exact hasDerivAt_fLine m (G := fun t => g (r t) * q (z t / r t))
        (G1 := fun t => gLine1 g g1 q q1 (r t) (s t) (z t) (v 2)) (hζd t) (hG t ht)) hF1
  rw [h]
  simp [hr, hs, hz, hζ]

include hg hg1 hgc hq hq1 hqc in
/-- Solutions of the radial and the colatitude equations make a harmonic function. -/
theorem harmonicAt_solid (ho : ∀ r, 0 < r → r ^ 2 * g2 r + 2 * (m + 1) * r * g1 r = lam * g r)
    (hl : ∀ u, (1 - u ^ 2) * q2 u = 2 * (m + 1) * u * q1 u - lam * q u) {x : E3} (hx : x ≠ 0) :
    HarmonicAt (solid m g q) x := by
  refine ⟨contDiffAt_solid hgc hqc hx, ?_⟩
  have hne : ∀ᶠ y in 𝓝 x, y ≠ 0 := isOpen_ne.mem_nhds hx
  filter_upwards [hne] with y hy
  rw [laplacian_sum, Fin.sum_univ_three]
  have hs : ∀ i : Fin 3, ‖(EuclideanSpace.single i 1 : E3)‖ = 1 := fun i => by simp
  rw [second_solid hg hg1 hgc hq hq1 hqc hy (hs 0), second_solid hg hg1 hgc hq hq1 hqc hy (hs 1),
    second_solid hg hg1 hgc hq hq1 hqc hy (hs 2)]
  have hin : ∀ i : Fin 3, inner ℝ y (EuclideanSpace.single i 1 : E3) = y i := fun i => by
    simp [EuclideanSpace.inner_single_right]
  simp only [hin]
  have hp : 0 < ‖y‖ := norm_pos_iff.2 hy
  have hn : ‖y‖ ^ 2 = y 0 ^ 2 + y 1 ^ 2 + y 2 ^ 2 := by
    rw [EuclideanSpace.norm_sq_eq, Fin.sum_univ_three]; simp
  set r := ‖y‖ with hr
  have ho' := ho r hp
  have hl' := hl (y 2 / r)
  have c0 : (((EuclideanSpace.single 0 1 : E3) 0 : ℝ) : ℂ) + (((EuclideanSpace.single 0 1 : E3) 1 : ℝ) : ℂ) * Complex.I = 1 := by
    simp
  have c1 : (((EuclideanSpace.single 1 1 : E3) 0 : ℝ) : ℂ) + (((EuclideanSpace.single 1 1 : E3) 1 : ℝ) : ℂ) * Complex.I
      = Complex.I := by simp
  have c2 : (((EuclideanSpace.single 2 1 : E3) 0 : ℝ) : ℂ) + (((EuclideanSpace.single 2 1 : E3) 1 : ℝ) : ℂ) * Complex.I = 0 := by
    simp
  have w0 : (EuclideanSpace.single 0 1 : E3) 2 = (0 : ℝ) := by simp
  have w1 : (EuclideanSpace.single 1 1 : E3) 2 = (0 : ℝ) := by simp
  have w2 : (EuclideanSpace.single 2 1 : E3) 2 = (1 : ℝ) := by simp
  rw [c0, c1, c2, w0, w1, w2]
  generalize y 0 = a at *
  generalize y 1 = b at *
  generalize y 2 = z at *
  set B : ℝ := g1 r * q (z / r) / r - g r * q1 (z / r) * z / r ^ 3 with hB
  have hne := hp.ne'
  have hb0 : gLine1 g g1 q q1 r a z 0 = a * B := by
    simp only [gLine1, hB]; field_simp; ring
  have hb1 : gLine1 g g1 q q1 r b z 0 = b * B := by
    simp only [gLine1, hB]; field_simp; ring
  have hA : gLine2 g g1 g2 q q1 q2 r a z 0 + gLine2 g g1 g2 q q1 q2 r b z 0 + gLine2 g g1 g2 q q1 q2 r z z 1
      + 2 * m * B = 0 := by
    have e1 : gLine2 g g1 g2 q q1 q2 r a z 0 + gLine2 g g1 g2 q q1 q2 r b z 0 + gLine2 g g1 g2 q q1 q2 r z z 1
        = g2 r * q (z / r) * ((a ^ 2 + b ^ 2 + z ^ 2) / r ^ 2)
          + g1 r * q (z / r) * (3 / r - (a ^ 2 + b ^ 2 + z ^ 2) / r ^ 3)
          + 2 * g1 r * q1 (z / r) * (z / r ^ 2 - z * (a ^ 2 + b ^ 2 + z ^ 2) / r ^ 4)
          + g r * q2 (z / r) * (1 / r ^ 2 - 2 * z ^ 2 / r ^ 4 + z ^ 2 * (a ^ 2 + b ^ 2 + z ^ 2) / r ^ 6)
          + g r * q1 (z / r) * (3 * z * (a ^ 2 + b ^ 2 + z ^ 2) / r ^ 5 - 5 * z / r ^ 3) := by
      simp only [gLine2]; field_simp; ring
    have e2 : r ^ 2 * (g2 r * q (z / r) * (r ^ 2 / r ^ 2)
          + g1 r * q (z / r) * (3 / r - r ^ 2 / r ^ 3)
          + 2 * g1 r * q1 (z / r) * (z / r ^ 2 - z * r ^ 2 / r ^ 4)
          + g r * q2 (z / r) * (1 / r ^ 2 - 2 * z ^ 2 / r ^ 4 + z ^ 2 * r ^ 2 / r ^ 6)
          + g r * q1 (z / r) * (3 * z * r ^ 2 / r ^ 5 - 5 * z / r ^ 3) + 2 * m * B)
        = q (z / r) * (r ^ 2 * g2 r + 2 * (m + 1) * r * g1 r)
          + g r * ((1 - (z / r) ^ 2) * q2 (z / r) - 2 * (m + 1) * (z / r) * q1 (z / r)) := by
      simp only [hB]; field_simp; ring
    rw [e1, ← hn]
    have e3 : r ^ 2 ≠ 0 := pow_ne_zero 2 hne
    refine (mul_eq_zero.1 ?_).resolve_left e3
    rw [e2, ho', hl']
    ring
  have hm : (m : ℂ) * ((a : ℂ) + b * Complex.I) ^ (m - 1) * ((a : ℂ) + b * Complex.I)
      = m * ((a : ℂ) + b * Complex.I) ^ m := by
    cases m with
    | zero => simp
    | succ n => rw [Nat.add_sub_cancel, mul_assoc, ← pow_succ]
  have hA' := congrArg (fun t : ℝ => (t : ℂ)) hA
  simp only [Complex.ofReal_add, Complex.ofReal_mul, Complex.ofReal_ofNat, Complex.ofReal_natCast,
    Complex.ofReal_zero] at hA'
  rw [hb0, hb1]
  simp only [fLine2, Pi.zero_apply, Complex.ofReal_mul]
  linear_combination ((a : ℂ) + b * Complex.I) ^ m * hA' + 2 * (B : ℂ) * hm
    + (m : ℂ) * ((m - 1 : ℕ) : ℂ) * ((a : ℂ) + b * Complex.I) ^ (m - 1 - 1) * (g r : ℂ) * (q (z / r) : ℂ) * Complex.I_sq

end harmonic

end Shell
end Verif
