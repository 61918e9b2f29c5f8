import Verif.Props.Wigner
import Verif.Spec.Fields
import Mathlib.Analysis.SpecialFunctions.Complex.LogDeriv
import Mathlib.Analysis.SpecialFunctions.Trigonometric.InverseDeriv

/-!
# Gradients on the sphere under rotations
-/

namespace Verif
open Spec Wigner Quaternion

namespace Spec

/-- The unit vectors in the directions of growing colatitude and azimuth, as quaternions. -/
noncomputable def thQ (θ φ : ℝ) : ℍ[ℝ] := vecQ (Real.cos θ * Real.cos φ) (Real.cos θ * Real.sin φ) (-Real.sin θ)
noncomputable def phQ (φ : ℝ) : ℍ[ℝ] := vecQ (-Real.sin φ) (Real.cos φ) 0

/-- The vector with these spherical components at a point of the sphere. -/
noncomputable def sphQ (θ φ br bp ba : ℝ) : ℍ[ℝ] := br • dirQ θ φ + bp • thQ θ φ + ba • phQ φ

end Spec

namespace Transport

@[simp] theorem vecQ_re (x y z : ℝ) : (vecQ x y z).re = 0 := rfl
@[simp] theorem vecQ_imI (x y z : ℝ) : (vecQ x y z).imI = x := rfl
@[simp] theorem vecQ_imJ (x y z : ℝ) : (vecQ x y z).imJ = y := rfl
@[simp] theorem vecQ_imK (x y z : ℝ) : (vecQ x y z).imK = z := rfl

theorem zsmul0 (x : ℍ[ℝ]) : (0 : ℝ) • x = 0 := by ext <;> simp

/-- The scalar product. -/
noncomputable def dot (a b : ℍ[ℝ]) : ℝ := (a * star b).re

theorem dot_eq (a b : ℍ[ℝ]) : dot a b = a.re * b.re + a.imI * b.imI + a.imJ * b.imJ + a.imK * b.imK := by
  simp [dot]

theorem dot_conj {R : ℍ[ℝ]} (h : star R * R = 1) (a b : ℍ[ℝ]) : dot (R * a * star R) (R * b * star R) = dot a b := by
  have e : R * a * star R * star (R * b * star R) = R * (a * star b) * star R := by
    rw [star_mul, star_mul, star_star]
    calc _ = R * a * (star R * R) * star b * star R := by simp only [mul_assoc]
      _ = _ := by rw [h, mul_one]; simp only [mul_assoc]
  rw [dot, dot, e]
  have c : ∀ x y : ℍ[ℝ], (x * y).re = (y * x).re := fun x y => by simp; ring
  rw [c, ← mul_assoc, h, one_mul]

/-- The function has the partial derivatives `a`, `b` and the chain rule holds along curves. -/
def Diff2 (f : ℝ → ℝ → ℝ) (θ φ a b : ℝ) : Prop :=
  ∀ (Θ Φ : ℝ → ℝ) (t Θ' Φ' : ℝ), Θ t = θ → Φ t = φ → HasDerivAt Θ Θ' t → HasDerivAt Φ Φ' t →
    HasDerivAt (fun x => f (Θ x) (Φ x)) (a * Θ' + b * Φ') t

theorem Diff2.polar {f : ℝ → ℝ → ℝ} {θ φ a b : ℝ} (h : Diff2 f θ φ a b) : HasDerivAt (fun t => f t φ) a θ := by
  have := h (fun t => t) (fun _ => φ) θ 1 0 rfl rfl (hasDerivAt_id θ) (hasDerivAt_const θ φ)
  simpa using this

theorem Diff2.azimuth {f : ℝ → ℝ → ℝ} {θ φ a b : ℝ} (h : Diff2 f θ φ a b) : HasDerivAt (fun t => f θ t) b φ := by
  have := h (fun _ => θ) (fun t => t) φ 0 1 rfl rfl (hasDerivAt_const φ θ) (hasDerivAt_id φ)
  simpa using this

/-- Products of a function of the colatitude and a function of the azimuth. -/
theorem diff2_prod {p q : ℝ → ℝ} {θ φ p' q' : ℝ} (hp : HasDerivAt p p' θ) (hq : HasDerivAt q q' φ) :
    Diff2 (fun x y => p x * q y) θ φ (p' * q φ) (p θ * q') := by
  intro Θ Φ t Θ' Φ' h1 h2 h3 h4
  subst h1; subst h2
  refine ((hp.comp t h3).mul (hq.comp t h4)).congr_deriv ?_
  simp only [Function.comp]; ring

theorem diff2_sum {ι : Type} (s : Finset ι) {f : ι → ℝ → ℝ → ℝ} {θ φ : ℝ} {a b : ι → ℝ}
    (h : ∀ i ∈ s, Diff2 (f i) θ φ (a i) (b i)) :
    Diff2 (fun x y => ∑ i ∈ s, f i x y) θ φ (∑ i ∈ s, a i) (∑ i ∈ s, b i) := by
  intro Θ Φ t Θ' Φ' h1 h2 h3 h4
  refine (HasDerivAt.fun_sum fun i hi => h i hi Θ Φ t Θ' Φ' h1 h2 h3 h4).congr_deriv ?_
  rw [Finset.sum_add_distrib, Finset.sum_mul, Finset.sum_mul]

/-- A curve on the sphere has differentiable coordinates where it is off the axis. -/
theorem coordinates {vx vy vz : ℝ → ℝ} {t dx dy dz θ φ : ℝ} (hx : HasDerivAt vx dx t) (hy : HasDerivAt vy dy t)
    (hz : HasDerivAt vz dz t) (h1 : ∀ s, vx s ^ 2 + vy s ^ 2 + vz s ^ 2 = 1) (hθ : OffAxis θ)
    (ex : vx t = Real.sin θ * Real.cos φ) (ey : vy t = Real.sin θ * Real.sin φ) (ez : vz t = Real.cos θ) :
    ∃ Θ Φ : ℝ → ℝ, (∀ s, vx s = Real.sin (Θ s) * Real.cos (Φ s) ∧ vy s = Real.sin (Θ s) * Real.sin (Φ s) ∧
        vz s = Real.cos (Θ s) ∧ 0 ≤ Real.sin (Θ s)) ∧ Θ t = θ ∧ Φ t = φ ∧
      HasDerivAt Θ (-dz / Real.sin θ) t ∧ HasDerivAt Φ ((-Real.sin φ * dx + Real.cos φ * dy) / Real.sin θ) t := by
  have hs : 0 < Real.sin θ := Real.sin_pos_of_pos_of_lt_pi hθ.1 hθ.2
  set w : ℝ → ℂ := fun s => ((vx s : ℂ) + vy s * Complex.I) * Complex.exp (-(φ * Complex.I)) with hw
  have hz1 : ∀ s, -1 ≤ vz s ∧ vz s ≤ 1 := fun s =>
    abs_le.1 (abs_le_one_iff_mul_self_le_one.2 (by nlinarith [h1 s, sq_nonneg (vx s), sq_nonneg (vy s)]))
  have hn : ∀ s, ‖w s‖ = Real.sin (Real.arccos (vz s)) := by
    intro s
    rw [Real.sin_arccos, hw, norm_mul, show -((φ : ℂ) * Complex.I) = ((-φ : ℝ) : ℂ) * Complex.I by push_cast; ring,
      Complex.norm_exp_ofReal_mul_I, mul_one, Complex.norm_add_mul_I]
    congr 1
    linarith [h1 s]
  have hwt : w t = (Real.sin θ : ℂ) := by
    rw [hw]
    simp only [ex, ey]
    have e : (((Real.sin θ * Real.cos φ : ℝ) : ℂ) + ((Real.sin θ * Real.sin φ : ℝ) : ℂ) * Complex.I)
        = (Real.sin θ : ℂ) * Complex.exp (φ * Complex.I) := by
      rw [Complex.exp_mul_I]; push_cast; ring
    rw [e, mul_assoc, ← Complex.exp_add, add_neg_cancel, Complex.exp_zero, mul_one]
  have hpol : ∀ s, (vx s : ℂ) + vy s * Complex.I
      = (Real.sin (Real.arccos (vz s)) : ℂ) * Complex.exp (((w s).arg + φ : ℝ) * Complex.I) := by
    intro s
    have e := Complex.norm_mul_exp_arg_mul_I (w s)
    rw [hn s] at e
    have e2 : (vx s : ℂ) + vy s * Complex.I = w s * Complex.exp (φ * Complex.I) := by
      rw [hw]; simp only
      rw [mul_assoc, ← Complex.exp_add, neg_add_cancel, Complex.exp_zero, mul_one]
    calc _ = (Real.sin (Real.arccos (vz s)) : ℂ) * Complex.exp ((w s).arg * Complex.I) * Complex.exp (φ * Complex.I) := by
          rw [e2, e]
      _ = _ := by
          rw [mul_assoc, ← Complex.exp_add]; congr 2; push_cast; ring
  refine ⟨fun s => Real.arccos (vz s), fun s => (w s).arg + φ, fun s => ⟨?_, ?_, ?_, ?_⟩, ?_, ?_, ?_, ?_⟩
  · have e := congrArg Complex.re (hpol s)
    rw [Complex.exp_mul_I] at e
    simpa [Complex.cos_ofReal_re, Complex.sin_ofReal_re, -Complex.ofReal_add, Complex.cos_ofReal_im,
      Complex.sin_ofReal_im] using e
  · have e := congrArg Complex.im (hpol s)
    rw [Complex.exp_mul_I] at e
    simpa [Complex.cos_ofReal_re, Complex.sin_ofReal_re, -Complex.ofReal_add, Complex.cos_ofReal_im,
      Complex.sin_ofReal_im] using e
  · rw [Real.cos_arccos (hz1 s).1 (hz1 s).2]
  · rw [← hn s]; exact norm_nonneg _
  · simp only [ez]; exact Real.arccos_cos hθ.1.le hθ.2.le
  · simp only [hwt]
    rw [Complex.arg_ofReal_of_nonneg hs.le, zero_add]
  · have hne1 : vz t ≠ -1 := by
      intro h; have := Real.sin_sq_add_cos_sq θ; rw [← ez, h] at this; nlinarith
    have hne2 : vz t ≠ 1 := by
      intro h; have := Real.sin_sq_add_cos_sq θ; rw [← ez, h] at this; nlinarith
    refine ((Real.hasDerivAt_arccos hne1 hne2).comp t hz).congr_deriv ?_
    have hq : Real.sqrt (1 - Real.cos θ ^ 2) = Real.sin θ := by
      rw [← Real.sin_sq_add_cos_sq θ, add_sub_cancel_right, Real.sqrt_sq hs.le]
    rw [ez, hq]
    ring
  · have hwd : HasDerivAt w (((dx : ℂ) + dy * Complex.I) * Complex.exp (-(φ * Complex.I))) t :=
      (hx.ofReal_comp.add (hy.ofReal_comp.mul_const _)).mul_const _
    have hl := hwd.clog_real (by rw [hwt]; exact Complex.ofReal_mem_slitPlane.2 hs)
    have him := (Complex.imCLM.hasFDerivAt.comp_hasDerivAt t hl).add_const φ
    have e : (fun s => (w s).arg + φ) = fun s => (Complex.imCLM ∘ fun s => Complex.log (w s)) s + φ := by
      funext s; simp [Complex.log_im]
    rw [e]
    refine him.congr_deriv ?_
    rw [hwt, Complex.imCLM_apply, Complex.div_ofReal_im,
      show -((φ : ℂ) * Complex.I) = ((-φ : ℝ) : ℂ) * Complex.I by push_cast; ring, Complex.exp_mul_I]
    congr 1
    simp [Complex.cos_ofReal_re, Complex.sin_ofReal_re, Complex.cos_ofReal_im, Complex.sin_ofReal_im, -Complex.ofReal_neg]
    ring

/-- Any vector orthogonal to the radial direction is given by its two other components. -/
theorem expand {v : ℍ[ℝ]} {θ φ : ℝ} (h0 : v.re = 0) :
    v = sphQ θ φ (dot v (dirQ θ φ)) (dot v (thQ θ φ)) (dot v (phQ φ)) := by
  have u := Real.sin_sq_add_cos_sq θ
  have w := Real.sin_sq_add_cos_sq φ
  have hs : Real.sin θ ^ 2 = 1 - Real.cos θ ^ 2 := by linarith
  have hp : Real.sin φ ^ 2 = 1 - Real.cos φ ^ 2 := by linarith
  simp only [dot_eq, sphQ]
  ext
  · simp [thQ, phQ, h0]
  · simp [thQ, phQ, h0]
    ring_nf
    simp only [hs, hp]
    ring
  · simp [thQ, phQ, h0]
    ring_nf
    simp only [hs, hp]
    ring
  · simp [thQ, phQ, h0]
    ring_nf
    simp only [hs, hp]
    ring

/-- The derivative along a curve of points, pushed to the moved points. -/
theorem push {R : ℍ[ℝ]} (hR : R * star R = 1) (hR' : star R * R = 1) {f g : ℝ → ℝ → ℝ}
    (hfg : ∀ θ φ θ' φ', 0 ≤ Real.sin θ → 0 ≤ Real.sin θ' → Moves R θ φ θ' φ' → g θ φ = f θ' φ')
    {θ φ θ' φ' a b : ℝ} (hθ : OffAxis θ) (hθ' : OffAxis θ') (hM : Moves R θ φ θ' φ') (hf : Diff2 f θ' φ' a b)
    {x y : ℝ → ℝ} {x0 dx dy d : ℝ} (hA : x x0 = θ) (hB : y x0 = φ) (hx : HasDerivAt x dx x0)
    (hy : HasDerivAt y dy x0) (hg : HasDerivAt (fun u => g (x u) (y u)) d x0) :
    d = dot (sphQ θ' φ' 0 a (b / Real.sin θ')) (R * (dx • thQ θ φ + (Real.sin θ * dy) • phQ φ) * star R) := by
  subst hA; subst hB
  have hs : 0 < Real.sin (x x0) := Real.sin_pos_of_pos_of_lt_pi hθ.1 hθ.2
  have hs' : 0 < Real.sin θ' := Real.sin_pos_of_pos_of_lt_pi hθ'.1 hθ'.2
  set v : ℝ → ℍ[ℝ] := fun u => R * dirQ (x u) (y u) * star R with hv
  set v' : ℍ[ℝ] := R * (dx • thQ (x x0) (y x0) + (Real.sin (x x0) * dy) • phQ (y x0)) * star R with hv'
  have hd1 : HasDerivAt (fun u => Real.sin (x u) * Real.cos (y u))
      (dx * (Real.cos (x x0) * Real.cos (y x0)) + Real.sin (x x0) * dy * -Real.sin (y x0)) x0 :=
    ((hx.sin).mul (hy.cos)).congr_deriv (by ring)
  have hd2 : HasDerivAt (fun u => Real.sin (x u) * Real.sin (y u))
      (dx * (Real.cos (x x0) * Real.sin (y x0)) + Real.sin (x x0) * dy * Real.cos (y x0)) x0 :=
    ((hx.sin).mul (hy.sin)).congr_deriv (by ring)
  have hd3 : HasDerivAt (fun u => Real.cos (x u)) (dx * -Real.sin (x x0)) x0 := (hx.cos).congr_deriv (by ring)
  have lin : ∀ (p q r : ℝ), R * vecQ p q r * star R
      = p • (R * vecQ 1 0 0 * star R) + q • (R * vecQ 0 1 0 * star R) + r • (R * vecQ 0 0 1 * star R) := by
    intro p q r
    ext <;> simp <;> ring
  have hvl : ∀ u, v u = R * vecQ (Real.sin (x u) * Real.cos (y u)) (Real.sin (x u) * Real.sin (y u)) (Real.cos (x u)) * star R :=
    fun u => rfl
  have hvl' : v' = R * vecQ (dx * (Real.cos (x x0) * Real.cos (y x0)) + Real.sin (x x0) * dy * -Real.sin (y x0))
      (dx * (Real.cos (x x0) * Real.sin (y x0)) + Real.sin (x x0) * dy * Real.cos (y x0)) (dx * -Real.sin (x x0)) * star R := by
    rw [hv']; congr 2
    ext <;> simp [thQ, phQ]
  have hcomp : ∀ c : ℍ[ℝ] → ℝ, (∀ (p q r : ℝ) (X Y Z : ℍ[ℝ]), c (p • X + q • Y + r • Z) = p * c X + q * c Y + r * c Z) →
      HasDerivAt (fun u => c (v u)) (c v') x0 := by
    intro c hc
    have e1 : (fun u => c (v u)) = fun u => Real.sin (x u) * Real.cos (y u) * c (R * vecQ 1 0 0 * star R)
        + Real.sin (x u) * Real.sin (y u) * c (R * vecQ 0 1 0 * star R) + Real.cos (x u) * c (R * vecQ 0 0 1 * star R) := by
      funext u; rw [hvl, lin, hc]
    rw [e1]
    refine (((hd1.mul_const _).fun_add (hd2.mul_const _)).fun_add (hd3.mul_const _)).congr_deriv ?_
    rw [hvl', lin (dx * _ + _), hc]
  have hre : ∀ u, (v u).re = 0 := by
    intro u; simp [hv]; ring
  have hnorm : ∀ u, (v u).imI ^ 2 + (v u).imJ ^ 2 + (v u).imK ^ 2 = 1 := by
    intro u
    have e : dot (v u) (v u) = 1 := by
      rw [hv]; simp only
      rw [dot_conj hR', dot, dirQ_unit]; simp
    rw [dot_eq, hre u] at e
    nlinarith
  have hM' : v x0 = dirQ θ' φ' := hM
  obtain ⟨Θ, Φ, h1, h2, h3, h4, h5⟩ := coordinates (hcomp (fun q => q.imI) (by simp)) (hcomp (fun q => q.imJ) (by simp))
    (hcomp (fun q => q.imK) (by simp)) hnorm hθ' (by rw [hM']; rfl) (by rw [hM']; rfl) (by rw [hM']; rfl)
  have hch := hf Θ Φ x0 _ _ h2 h3 h4 h5
  have hev : (fun u => g (x u) (y u)) =ᶠ[nhds x0] fun u => f (Θ u) (Φ u) := by
    have hpos : ∀ᶠ u in nhds x0, 0 < Real.sin (x u) := (hx.sin).continuousAt.eventually (lt_mem_nhds hs)
    refine hpos.mono fun u hu => ?_
    refine hfg _ _ _ _ hu.le (h1 u).2.2.2 ?_
    show v u = _
    ext
    · rw [hre u]; rfl
    · exact (h1 u).1
    · exact (h1 u).2.1
    · exact (h1 u).2.2.1
  have hu := hg.unique (hch.congr_of_eventuallyEq hev)
  rw [hu]
  have hre' : v'.re = 0 := by rw [hvl']; simp; ring
  have hort : dot v' (dirQ θ' φ') = 0 := by
    rw [← hM', hv, hv']; simp only
    rw [dot_conj hR', dot_eq]
    have w := Real.sin_sq_add_cos_sq (y x0)
    simp [thQ, phQ]
    linear_combination dx * Real.cos (x x0) * Real.sin (x x0) * w
  have u := Real.sin_sq_add_cos_sq θ'
  have w := Real.sin_sq_add_cos_sq φ'
  rw [dot_eq, hre'] at *
  simp [sphQ, thQ, phQ, dirQ_imI, dirQ_imJ, dirQ_imK] at hort ⊢
  field_simp
  linear_combination (-a * Real.cos θ') * hort + a * v'.imK * u

/-- If one function is another one after a rotation, then its gradient is the rotated gradient. -/
theorem gradient {R : ℍ[ℝ]} (hR : R * star R = 1) (hR' : star R * R = 1) {f g : ℝ → ℝ → ℝ}
    (hfg : ∀ θ φ θ' φ', 0 ≤ Real.sin θ → 0 ≤ Real.sin θ' → Moves R θ φ θ' φ' → g θ φ = f θ' φ')
    {θ φ θ' φ' a b a' b' : ℝ} (hθ : OffAxis θ) (hθ' : OffAxis θ') (hM : Moves R θ φ θ' φ') (hf : Diff2 f θ' φ' a b)
    (hg1 : HasDerivAt (fun t => g t φ) a' θ) (hg2 : HasDerivAt (fun t => g θ t) b' φ) :
    R * sphQ θ φ 0 a' (b' / Real.sin θ) * star R = sphQ θ' φ' 0 a (b / Real.sin θ') := by
  have hs : 0 < Real.sin θ := Real.sin_pos_of_pos_of_lt_pi hθ.1 hθ.2
  have h1 := push hR hR' hfg hθ hθ' hM hf (x := fun t => t) (y := fun _ => φ) rfl rfl (hasDerivAt_id θ)
    (hasDerivAt_const θ φ) hg1
  have h2 := push hR hR' hfg hθ hθ' hM hf (x := fun _ => θ) (y := fun t => t) rfl rfl (hasDerivAt_const φ θ)
    (hasDerivAt_id φ) hg2
  rw [one_smul, mul_zero, zsmul0, add_zero] at h1
  rw [zsmul0, mul_one, zero_add] at h2
  set G := sphQ θ' φ' 0 a (b / Real.sin θ') with hG
  set w := star R * G * R with hw
  have hGw : R * w * star R = G := by
    rw [hw]
    calc _ = (R * star R) * G * (R * star R) := by simp only [mul_assoc]
      _ = _ := by rw [hR, one_mul, mul_one]
  have hG0 : G.re = 0 := by rw [hG]; simp [sphQ, thQ, phQ]
  have hw0 : w.re = 0 := by
    rw [hw, mul_assoc]
    have c : ∀ x y : ℍ[ℝ], (x * y).re = (y * x).re := fun x y => by simp; ring
    rw [c, mul_assoc, hR, mul_one, hG0]
  have d1 : dot w (thQ θ φ) = a' := by rw [h1, ← hGw, dot_conj hR']
  have d2 : dot w (phQ φ) = b' / Real.sin θ := by
    rw [eq_div_iff hs.ne', h2, ← hGw, dot_conj hR', dot_eq, dot_eq]
    simp
    ring
  have d0 : dot w (dirQ θ φ) = 0 := by
    rw [← dot_conj hR', hGw]
    rw [Moves] at hM
    rw [hM, dot_eq, hG]
    have v := Real.sin_sq_add_cos_sq φ'
    simp [sphQ, thQ, phQ]
    linear_combination a * Real.cos θ' * Real.sin θ' * v
  have := expand (θ := θ) (φ := φ) hw0
  rw [d0, d1, d2] at this
  rw [← this, hGw]

/-- The whole vector: a radial component that is moved, and a gradient. -/
theorem rotate_sphQ {R : ℍ[ℝ]} {θ φ θ' φ' br bp ba bp' ba' : ℝ} (hM : Moves R θ φ θ' φ')
    (h : R * sphQ θ φ 0 bp ba * star R = sphQ θ' φ' 0 bp' ba') :
    R * sphQ θ φ br bp ba * star R = sphQ θ' φ' br bp' ba' := by
  have e : ∀ θ φ br bp ba, sphQ θ φ br bp ba = br • dirQ θ φ + sphQ θ φ 0 bp ba := by
    intro θ φ br bp ba; simp only [sphQ, zsmul0, zero_add, add_assoc]
  have l : ∀ (c : ℝ) (x y : ℍ[ℝ]), R * (c • x + y) * star R = c • (R * x * star R) + R * y * star R := by
    intro c x y; ext <;> simp <;> ring
  rw [e θ φ, l, h, e θ' φ' br]
  rw [Moves] at hM
  rw [hM]

/-- Multiples. -/
theorem sphQ_smul (c θ φ br bp ba : ℝ) : sphQ θ φ (c * br) (c * bp) (c * ba) = c • sphQ θ φ br bp ba := by
  simp only [sphQ, smul_add, smul_smul]

theorem conj_smul (R x : ℍ[ℝ]) (c : ℝ) : R * (c • x) * star R = c • (R * x * star R) := by
  ext <;> simp <;> ring

end Transport
end Verif
