import Verif.Model.Coordinates
import Mathlib.Analysis.Real.Pi.Bounds
import Mathlib.Analysis.SpecialFunctions.Trigonometric.Deriv
import Mathlib.Tactic.FieldSimp
import Mathlib.Tactic.Ring
import Mathlib.Tactic.Linarith
import Mathlib.Tactic.LinearCombination
import Mathlib.Tactic.Positivity
import Mathlib.LinearAlgebra.Matrix.Notation

/-!
# Properties C35, C36 and the geometric part of C37: coordinates
-/

namespace Verif

/-! ## C35 -/

/-- The polar angle before taking `arccos`. -/
private theorem cosArg (x y z : ℝ) (h : Real.sqrt (x ^ 2 + y ^ 2 + z ^ 2) ≠ 0) :
    -1 ≤ z / Real.sqrt (x ^ 2 + y ^ 2 + z ^ 2) ∧ z / Real.sqrt (x ^ 2 + y ^ 2 + z ^ 2) ≤ 1 := by
  have hp : 0 < Real.sqrt (x ^ 2 + y ^ 2 + z ^ 2) := lt_of_le_of_ne (Real.sqrt_nonneg _) (Ne.symm h)
  have hz : |z| ≤ Real.sqrt (x ^ 2 + y ^ 2 + z ^ 2) := by
    rw [← Real.sqrt_sq_eq_abs]; apply Real.sqrt_le_sqrt; nlinarith [sq_nonneg x, sq_nonneg y]
  have := abs_le.1 hz
  constructor
  · rw [le_div_iff₀ hp]; linarith
  · rw [div_le_one hp]; linarith

private theorem rho_cos (x y : ℝ) : Real.sqrt (x ^ 2 + y ^ 2) * Real.cos (arctan2 y x) = x := by
  have := Complex.norm_mul_cos_arg ⟨x, y⟩
  rw [Complex.norm_eq_sqrt_sq_add_sq] at this
  exact this

private theorem rho_sin (x y : ℝ) : Real.sqrt (x ^ 2 + y ^ 2) * Real.sin (arctan2 y x) = y := by
  have := Complex.norm_mul_sin_arg ⟨x, y⟩
  rw [Complex.norm_eq_sqrt_sq_add_sq] at this
  exact this

/-- **C35.** Every point of space survives the trip through spherical coordinates, the origin included. -/
theorem C35_rect_of_spherical (x y z : ℝ) :
    rectFromSpherical (sphericalFromRect x y z).1 (sphericalFromRect x y z).2.1 (sphericalFromRect x y z).2.2
      = (x, y, z) := by
  by_cases h : Real.sqrt (x ^ 2 + y ^ 2 + z ^ 2) = 0
  · have h0 : x ^ 2 + y ^ 2 + z ^ 2 = 0 := by
      rwa [Real.sqrt_eq_zero (by positivity)] at h
    have hx : x = 0 := by nlinarith [sq_nonneg x, sq_nonneg y, sq_nonneg z]
    have hy : y = 0 := by nlinarith [sq_nonneg x, sq_nonneg y, sq_nonneg z]
    have hz : z = 0 := by nlinarith [sq_nonneg x, sq_nonneg y, sq_nonneg z]
    simp [rectFromSpherical, sphericalFromRect, hx, hy, hz]
  · have hc := cosArg x y z h
    have hp : 0 < Real.sqrt (x ^ 2 + y ^ 2 + z ^ 2) := lt_of_le_of_ne (Real.sqrt_nonneg _) (Ne.symm h)
    have hs : Real.sqrt (x ^ 2 + y ^ 2 + z ^ 2)
        * Real.sqrt (1 - (z / Real.sqrt (x ^ 2 + y ^ 2 + z ^ 2)) ^ 2) = Real.sqrt (x ^ 2 + y ^ 2) := by
      conv_lhs => rw [← Real.sqrt_sq hp.le]
      rw [Real.sqrt_sq hp.le, ← Real.sqrt_mul (by positivity)]
      congr 1
      rw [div_pow, Real.sq_sqrt (by positivity)]
      have : x ^ 2 + y ^ 2 + z ^ 2 ≠ 0 := fun h' => h (by rw [h', Real.sqrt_zero])
      field_simp
      ring
    simp only [rectFromSpherical, sphericalFromRect]
    rw [if_pos h, Real.sin_arccos, Real.cos_arccos hc.1 hc.2, hs, rho_cos, rho_sin]
    rw [mul_div_cancel₀ _ h]

/-- **C35.** Conversely a point given by its spherical coordinates in the usual ranges is recovered. -/
theorem C35_spherical_of_rect (r θ φ : ℝ) (hr : 0 < r) (h1 : 0 < θ) (h2 : θ < Real.pi) (h3 : -Real.pi < φ)
    (h4 : φ ≤ Real.pi) :
    sphericalFromRect (rectFromSpherical r θ φ).1 (rectFromSpherical r θ φ).2.1 (rectFromSpherical r θ φ).2.2
      = (r, θ, φ) := by
  have hs : 0 < Real.sin θ := Real.sin_pos_of_pos_of_lt_pi h1 h2
  have e1 : (r * Real.sin θ * Real.cos φ) ^ 2 + (r * Real.sin θ * Real.sin φ) ^ 2 + (r * Real.cos θ) ^ 2
      = r ^ 2 := by
    have a := Real.sin_sq_add_cos_sq θ
    have b := Real.sin_sq_add_cos_sq φ
    linear_combination r ^ 2 * Real.sin θ ^ 2 * b + r ^ 2 * a
  have e2 : Real.sqrt ((r * Real.sin θ * Real.cos φ) ^ 2 + (r * Real.sin θ * Real.sin φ) ^ 2
      + (r * Real.cos θ) ^ 2) = r := by rw [e1, Real.sqrt_sq hr.le]
  simp only [rectFromSpherical, sphericalFromRect, e2]
  rw [if_pos hr.ne', mul_div_cancel_left₀ _ hr.ne', Real.arccos_cos h1.le h2.le]
  have e3 : arctan2 (r * Real.sin θ * Real.sin φ) (r * Real.sin θ * Real.cos φ) = φ := by
    have := Complex.arg_mul_cos_add_sin_mul_I (r := r * Real.sin θ) (by positivity) ⟨h3, h4⟩
    rw [arctan2]
    convert this using 2
    apply Complex.ext <;> simp [Complex.cos_ofReal_re, Complex.sin_ofReal_re, Complex.cos_ofReal_im,
      Complex.sin_ofReal_im]
  rw [e3]

/-- **C35.** The ranges of the three outputs. -/
theorem C35_ranges (x y z : ℝ) :
    0 ≤ (sphericalFromRect x y z).1 ∧ 0 ≤ (sphericalFromRect x y z).2.1 ∧
      (sphericalFromRect x y z).2.1 ≤ Real.pi ∧ -Real.pi < (sphericalFromRect x y z).2.2 ∧
      (sphericalFromRect x y z).2.2 ≤ Real.pi :=
  ⟨Real.sqrt_nonneg _, Real.arccos_nonneg _, Real.arccos_le_pi _, Complex.neg_pi_lt_arg _, Complex.arg_le_pi _⟩

/-- **C35.** The radius is the distance from the origin. -/
theorem C35_radius (x y z : ℝ) : (sphericalFromRect x y z).1 ^ 2 = x ^ 2 + y ^ 2 + z ^ 2 :=
  Real.sq_sqrt (by positivity)

/-- **C35.** At the origin the polar angle is `π/2`, not the documented `0`. -/
theorem C35_origin : sphericalFromRect 0 0 0 = (0, Real.pi / 2, 0) := by
  have : arctan2 0 0 = 0 := Complex.arg_zero
  simp [sphericalFromRect, this]

/-- Non-vacuity of C35: the angles of a generic point. -/
example : (0 : ℝ) < 1 ∧ 0 < Real.pi / 3 ∧ Real.pi / 3 < Real.pi ∧ -Real.pi < -1 ∧ (-1 : ℝ) ≤ Real.pi := by
  have := Real.pi_gt_three
  refine ⟨?_, ?_, ?_, ?_, ?_⟩ <;> linarith
example : (sphericalFromRect 0 0 (-2)).2.1 = Real.pi := by
  have : Real.sqrt ((0 : ℝ) ^ 2 + 0 ^ 2 + (-2) ^ 2) = 2 := by
    rw [show ((0 : ℝ) ^ 2 + 0 ^ 2 + (-2) ^ 2) = 2 ^ 2 by norm_num, Real.sqrt_sq (by norm_num)]
  simp only [sphericalFromRect, this]
  norm_num

/-! ## C36 -/

/-- **C36.** The two transformation matrices are transposes of each other. -/
theorem C36_transpose (θ φ : ℝ) : rectToSphMatrix θ φ = (sphToRectMatrix θ φ).transpose := by
  ext i j; fin_cases i <;> fin_cases j <;> rfl

/-- **C36.** They are mutually inverse. -/
theorem C36_inverse (θ φ : ℝ) :
    rectToSphMatrix θ φ * sphToRectMatrix θ φ = 1 ∧ sphToRectMatrix θ φ * rectToSphMatrix θ φ = 1 := by
  have a := Real.sin_sq_add_cos_sq θ
  have b := Real.sin_sq_add_cos_sq φ
  have h : rectToSphMatrix θ φ * sphToRectMatrix θ φ = 1 := by
    ext i j
    fin_cases i <;> fin_cases j <;>
      simp [rectToSphMatrix, sphToRectMatrix, Matrix.mul_apply, Fin.sum_univ_three]
    · linear_combination Real.sin θ ^ 2 * b + a
    · linear_combination Real.sin θ * Real.cos θ * b
    · ring
    · linear_combination Real.sin θ * Real.cos θ * b
    · linear_combination Real.cos θ ^ 2 * b + a
    · ring
    · ring
    · ring
    · linear_combination b
  exact ⟨h, mul_eq_one_comm.1 h⟩

/-- **C36.** They are rotations: the determinant is 1 (and by `C36_transpose`, `C36_inverse` they are
orthogonal). -/
theorem C36_det (θ φ : ℝ) : (sphToRectMatrix θ φ).det = 1 ∧ (rectToSphMatrix θ φ).det = 1 := by
  have a := Real.sin_sq_add_cos_sq θ
  have b := Real.sin_sq_add_cos_sq φ
  have h : (sphToRectMatrix θ φ).det = 1 := by
    rw [Matrix.det_fin_three]
    simp [sphToRectMatrix]
    linear_combination (Real.sin θ ^ 2 + Real.cos θ ^ 2) * b + a
  exact ⟨h, by rw [C36_transpose, Matrix.det_transpose, h]⟩

/-- **C36.** The first column is the direction of the point with these angles. -/
theorem C36_first_column (r θ φ : ℝ) :
    let p := rectFromSpherical r θ φ
    (fun i => r * sphToRectMatrix θ φ i 0) = ![p.1, p.2.1, p.2.2] := by
  funext i
  fin_cases i <;> simp [sphToRectMatrix, rectFromSpherical] <;> ring

/-- **C36.** The second and third columns are the directions in which the point moves when the polar angle,
respectively the azimuth, grows (the latter up to the factor `sin θ`). -/
theorem C36_other_columns (θ φ : ℝ) :
    (HasDerivAt (fun t => (rectFromSpherical 1 t φ).1) (sphToRectMatrix θ φ 0 1) θ ∧
      HasDerivAt (fun t => (rectFromSpherical 1 t φ).2.1) (sphToRectMatrix θ φ 1 1) θ ∧
      HasDerivAt (fun t => (rectFromSpherical 1 t φ).2.2) (sphToRectMatrix θ φ 2 1) θ) ∧
    (HasDerivAt (fun t => (rectFromSpherical 1 θ t).1) (Real.sin θ * sphToRectMatrix θ φ 0 2) φ ∧
      HasDerivAt (fun t => (rectFromSpherical 1 θ t).2.1) (Real.sin θ * sphToRectMatrix θ φ 1 2) φ ∧
      HasDerivAt (fun t => (rectFromSpherical 1 θ t).2.2) (Real.sin θ * sphToRectMatrix θ φ 2 2) φ) := by
  simp only [rectFromSpherical, sphToRectMatrix, one_mul, Matrix.cons_val', Matrix.cons_val_zero,
    Matrix.cons_val_one, Matrix.cons_val_two, Matrix.of_apply, Matrix.empty_val', Matrix.cons_val_fin_one,
    Matrix.tail_cons, Matrix.head_cons, Matrix.head_fin_const, mul_zero, Matrix.cons_val]
  refine ⟨⟨(Real.hasDerivAt_sin θ).mul_const _, (Real.hasDerivAt_sin θ).mul_const _, Real.hasDerivAt_cos θ⟩,
    ⟨?_, (Real.hasDerivAt_sin φ).const_mul _, hasDerivAt_const _ _⟩⟩
  exact (Real.hasDerivAt_cos φ).const_mul _

/-! ## C37: the geometric statement -/

/-- **C37.** Turning spherical components into cartesian ones keeps lengths. -/
theorem C37_norm (θ φ fr fp fa : ℝ) :
    toCartesian θ φ fr fp fa 0 ^ 2 + toCartesian θ φ fr fp fa 1 ^ 2 + toCartesian θ φ fr fp fa 2 ^ 2
      = fr ^ 2 + fp ^ 2 + fa ^ 2 := by
  have a := Real.sin_sq_add_cos_sq θ
  have b := Real.sin_sq_add_cos_sq φ
  simp [toCartesian, sphToRectMatrix, Matrix.mulVec, dotProduct, Fin.sum_univ_three]
  linear_combination (Real.sin θ * fr + Real.cos θ * fp) ^ 2 * b + fa ^ 2 * b + (fr ^ 2 + fp ^ 2) * a

/-- **C37.** The component along the direction of the point is the radial one. -/
theorem C37_radial_component (θ φ fr fp fa : ℝ) :
    let p := rectFromSpherical 1 θ φ
    toCartesian θ φ fr fp fa 0 * p.1 + toCartesian θ φ fr fp fa 1 * p.2.1 + toCartesian θ φ fr fp fa 2 * p.2.2
      = fr := by
  have a := Real.sin_sq_add_cos_sq θ
  have b := Real.sin_sq_add_cos_sq φ
  simp [toCartesian, sphToRectMatrix, rectFromSpherical, Matrix.mulVec, dotProduct, Fin.sum_univ_three]
  linear_combination (Real.sin θ ^ 2 * fr + Real.sin θ * Real.cos θ * fp) * b + fr * a

end Verif
