import Verif.Model.FloatVector
import Verif.Props.FloatLongitudinal

/-!
# Property C127: spherical and rectangular components of vectors in double precision
-/

set_option exponentiation.threshold 4000

namespace Verif
open Spec PyFloat FloatRange FloatSets FloatCoords FloatError FloatRound FloatVisible FloatVector

/-- What is assumed of the matrix product: an entry, the product of a row of numbers of magnitude at most 2 with a vector, is right up to rounding.
Any order of the sum, with or without fused operations, meets this. -/
def Spec.GoodInner (E : FVec → FVec → PyFloat) : Prop :=
  ∀ (r v : FVec) (B : ℝ), Bounded3 r 2 → Bounded3 v B → B ≤ 2 ^ 60 → FinD (E r v) ∧ |((E r v).num : ℝ) - inner3 (real3 v) (real3 r)| ≤ B / 2 ^ 46 + 1 / 2 ^ 990

/-- The directions in which radius, polar angle and azimuth grow. -/
noncomputable def Spec.frame (θ φ : ℝ) : Fin 3 → ℝ × ℝ × ℝ :=
  ![pointing θ φ, pointing (θ + Real.pi / 2) φ, pointing (Real.pi / 2) (φ + Real.pi / 2)]

/-- The vector with given components along the three directions. -/
def Spec.combine (e : Fin 3 → ℝ × ℝ × ℝ) (f : ℝ × ℝ × ℝ) : ℝ × ℝ × ℝ :=
  (f.1 * (e 0).1 + f.2.1 * (e 1).1 + f.2.2 * (e 2).1, f.1 * (e 0).2.1 + f.2.1 * (e 1).2.1 + f.2.2 * (e 2).2.1,
    f.1 * (e 0).2.2 + f.2.1 * (e 1).2.2 + f.2.2 * (e 2).2.2)

namespace FloatVector
open FloatEnergy FloatDescribe

theorem frame_eq (θ φ : ℝ) : frame θ φ = ![(Real.sin θ * Real.cos φ, Real.sin θ * Real.sin φ, Real.cos θ),
    (Real.cos θ * Real.cos φ, Real.cos θ * Real.sin φ, -Real.sin θ), (-Real.sin φ, Real.cos φ, 0)] := by
  simp [frame, pointing, Real.sin_add_pi_div_two, Real.cos_add_pi_div_two]

/-- The three directions are unit vectors at right angles. -/
theorem frame_orth (θ φ : ℝ) (i j : Fin 3) : inner3 (frame θ φ i) (frame θ φ j) = if i = j then 1 else 0 := by
  have h1 := Real.sin_sq_add_cos_sq θ
  have h2 := Real.sin_sq_add_cos_sq φ
  rw [frame_eq]
  fin_cases i <;> fin_cases j <;> simp [inner3]
  · linear_combination Real.sin θ ^ 2 * h2 + h1
  · linear_combination Real.sin θ * Real.cos θ * h2
  · ring
  · linear_combination Real.sin θ * Real.cos θ * h2
  · linear_combination Real.cos θ ^ 2 * h2 + h1
  · ring
  · ring
  · ring
  · linear_combination h2

theorem combine_inner (e : Fin 3 → ℝ × ℝ × ℝ) (f v : ℝ × ℝ × ℝ) :
    inner3 (combine e f) v = f.1 * inner3 (e 0) v + f.2.1 * inner3 (e 1) v + f.2.2 * inner3 (e 2) v := by
  simp only [inner3, combine]
  ring

theorem combine_frame (θ φ : ℝ) (f : ℝ × ℝ × ℝ) : inner3 (combine (frame θ φ) f) (frame θ φ 0) = f.1 ∧ inner3 (combine (frame θ φ) f) (frame θ φ 1) = f.2.1 ∧
    inner3 (combine (frame θ φ) f) (frame θ φ 2) = f.2.2 := by
  simp only [combine_inner, frame_orth]
  simp

theorem combine_norm (θ φ : ℝ) (f : ℝ × ℝ × ℝ) : inner3 (combine (frame θ φ) f) (combine (frame θ φ) f) = inner3 f f := by
  have h1 := Real.sin_sq_add_cos_sq θ
  have h2 := Real.sin_sq_add_cos_sq φ
  obtain ⟨a, b, c⟩ := combine_frame θ φ f
  have key : ∀ v, inner3 (combine (frame θ φ) f) v = f.1 * inner3 (frame θ φ 0) v + f.2.1 * inner3 (frame θ φ 1) v + f.2.2 * inner3 (frame θ φ 2) v :=
    combine_inner _ _
  have sym : ∀ u v, inner3 u v = inner3 v u := fun u v => by simp only [inner3]; ring
  rw [key, sym _ (combine _ _), sym (frame θ φ 1), sym (frame θ φ 2), a, b, c]
  simp only [inner3]

/-- The entries of the matrix. -/
theorem mat_near {T : SineLib} (hT : GoodCircle T) {θ φ : PyFloat} (hθ : FinD θ ∧ |(θ.num : ℝ)| ≤ 8) (hφ : FinD φ ∧ |(φ.num : ℝ)| ≤ 8) :
    Near3 (row (toSphMat T θ φ) 0) (frame θ.num φ.num 0) (1 / 2 ^ 48) ∧ Near3 (row (toSphMat T θ φ) 1) (frame θ.num φ.num 1) (1 / 2 ^ 48) ∧
      Near3 (row (toSphMat T θ φ) 2) (frame θ.num φ.num 2) (1 / 2 ^ 48) := by
  obtain ⟨s1, s2⟩ := hT.sin θ hθ.1 hθ.2
  obtain ⟨c1, c2⟩ := hT.cos θ hθ.1 hθ.2
  obtain ⟨s3, s4⟩ := hT.sin φ hφ.1 hφ.2
  obtain ⟨c3, c4⟩ := hT.cos φ hφ.1 hφ.2
  have n1 := neg_num s1
  have n2 := neg_num s3
  have ms := fun {x y : PyFloat} {X Y : ℝ} (a : FinD x) (b : FinD y) (c : |(x.num : ℝ) - X| ≤ 1 / 2 ^ 50) (d : |(y.num : ℝ) - Y| ≤ 1 / 2 ^ 50) (e : |X| ≤ 1) (f : |Y| ≤ 1) =>
    mul_circle a b c d e f (by norm_num)
  have w : (3 : ℝ) * (1 / 2 ^ 50) + 1 / 2 ^ 52 ≤ 1 / 2 ^ 48 := by norm_num
  have w' : (1 : ℝ) / 2 ^ 50 ≤ 1 / 2 ^ 48 := by norm_num
  have ps := ms s1 c3 s2 c4 (Real.abs_sin_le_one _) (Real.abs_cos_le_one _)
  have pt := ms s1 s3 s2 s4 (Real.abs_sin_le_one _) (Real.abs_sin_le_one _)
  have pu := ms c1 c3 c2 c4 (Real.abs_cos_le_one _) (Real.abs_cos_le_one _)
  have pv := ms c1 s3 c2 s4 (Real.abs_cos_le_one _) (Real.abs_sin_le_one _)
  have m1 : |(((neg (T.sin θ)).num : ℚ) : ℝ) - -Real.sin θ.num| ≤ 1 / 2 ^ 48 := by
    rw [n1.2]; push_cast; rw [← neg_sub', abs_neg]; exact s2.trans w'
  have m2 : |(((neg (T.sin φ)).num : ℚ) : ℝ) - -Real.sin φ.num| ≤ 1 / 2 ^ 48 := by
    rw [n2.2]; push_cast; rw [← neg_sub', abs_neg]; exact s4.trans w'
  rw [frame_eq]
  refine ⟨⟨⟨ps.1, pt.1, c1⟩, ps.2.trans w, pt.2.trans w, c2.trans w'⟩, ⟨⟨pu.1, pv.1, n1.1⟩, pu.2.trans w, pv.2.trans w, m1⟩,
    ⟨⟨n2.1, c3, zero_fd⟩, m2, c4.trans w', ?_⟩⟩
  simp [row, toSphMat, PyFloat.num]

theorem frame_le (θ φ : ℝ) (i : Fin 3) : |(frame θ φ i).1| ≤ 1 ∧ |(frame θ φ i).2.1| ≤ 1 ∧ |(frame θ φ i).2.2| ≤ 1 := by
  fin_cases i <;> exact pointing_le _ _

/-- The rows of the first matrix, with the numbers they should be. -/
theorem rows_near {T : SineLib} (hT : GoodCircle T) {θ φ : PyFloat} (hθ : FinD θ ∧ |(θ.num : ℝ)| ≤ 8) (hφ : FinD φ ∧ |(φ.num : ℝ)| ≤ 8) :
    Near3 (row (toRectMat T θ φ) 0) ((frame θ.num φ.num 0).1, (frame θ.num φ.num 1).1, (frame θ.num φ.num 2).1) (1 / 2 ^ 48) ∧
      Near3 (row (toRectMat T θ φ) 1) ((frame θ.num φ.num 0).2.1, (frame θ.num φ.num 1).2.1, (frame θ.num φ.num 2).2.1) (1 / 2 ^ 48) ∧
      Near3 (row (toRectMat T θ φ) 2) ((frame θ.num φ.num 0).2.2, (frame θ.num φ.num 1).2.2, (frame θ.num φ.num 2).2.2) (1 / 2 ^ 48) := by
  obtain ⟨a, b, c⟩ := mat_near hT hθ hφ
  exact ⟨⟨⟨a.finite.1, b.finite.1, c.finite.1⟩, a.first, b.first, c.first⟩, ⟨⟨a.finite.2.1, b.finite.2.1, c.finite.2.1⟩, a.second, b.second, c.second⟩,
    ⟨⟨a.finite.2.2, b.finite.2.2, c.finite.2.2⟩, a.third, b.third, c.third⟩⟩

/-- One entry of the product of a matrix close to `R` with a vector close to `V`. -/
theorem entry_near {E : FVec → FVec → PyFloat} (hE : GoodInner E) {r v : FVec} {R V : ℝ × ℝ × ℝ} {M ε : ℝ} (hr : Near3 r R (1 / 2 ^ 48))
    (hR : |R.1| ≤ 1 ∧ |R.2.1| ≤ 1 ∧ |R.2.2| ≤ 1) (hv : Near3 v V ε) (hV : |V.1| ≤ M ∧ |V.2.1| ≤ M ∧ |V.2.2| ≤ M) (hM : M + ε ≤ 2 ^ 60) :
    FinD (E r v) ∧ |((E r v).num : ℝ) - inner3 V R| ≤ M / 2 ^ 45 + 7 * ε + 1 / 2 ^ 990 := by
  have M0 : 0 ≤ M := (abs_nonneg _).trans hV.1
  have ε0 : 0 ≤ ε := (abs_nonneg _).trans hv.first
  have hb : Bounded3 v (M + ε) := by
    obtain ⟨a, b, c⟩ := hV
    obtain ⟨f, h1, h2, h3⟩ := hv
    refine ⟨f, ?_, ?_, ?_⟩ <;> rw [abs_le] at * <;> constructor <;> linarith
  have hrb := near_bounded hr hR (by norm_num)
  obtain ⟨f, e⟩ := hE r v _ hrb hb hM
  refine ⟨f, ?_⟩
  have i := inner_diff (u := real3 v) (v := real3 r) (U := V) (V := R) ⟨hv.first, hv.second, hv.third⟩ ⟨hr.first, hr.second, hr.third⟩
    ⟨hrb.first, hrb.second, hrb.third⟩ hV
  have t := abs_sub_le ((E r v).num : ℝ) (inner3 (real3 v) (real3 r)) (inner3 V R)
  generalize |((E r v).num : ℝ) - inner3 V R| = x at *
  generalize |((E r v).num : ℝ) - inner3 (real3 v) (real3 r)| = y at *
  generalize |inner3 (real3 v) (real3 r) - inner3 V R| = z at *
  generalize (1 : ℝ) / 2 ^ 990 = q at *
  clear * - M0 ε0 e i t
  norm_num at *
  linarith

theorem combine_le (θ φ : ℝ) {f : ℝ × ℝ × ℝ} {M : ℝ} (h : |f.1| ≤ M ∧ |f.2.1| ≤ M ∧ |f.2.2| ≤ M) :
    |(combine (frame θ φ) f).1| ≤ 2 * M ∧ |(combine (frame θ φ) f).2.1| ≤ 2 * M ∧ |(combine (frame θ φ) f).2.2| ≤ 2 * M := by
  have M0 : 0 ≤ M := (abs_nonneg _).trans h.1
  have n := combine_norm θ φ f
  have sq : ∀ x : ℝ, |x| ≤ M → x * x ≤ M * M := fun x hx => by rw [← abs_mul_abs_self]; exact mul_le_mul hx hx (abs_nonneg _) M0
  have b : inner3 f f ≤ 3 * (M * M) := by
    have := sq _ h.1
    have := sq _ h.2.1
    have := sq _ h.2.2
    simp only [inner3]
    linarith
  rw [← n] at b
  simp only [inner3] at b
  have M2 := mul_nonneg M0 M0
  refine ⟨?_, ?_, ?_⟩ <;> refine abs_le_of_sq_le_sq ?_ (by linarith) <;> nlinarith [mul_self_nonneg (combine (frame θ φ) f).1, mul_self_nonneg (combine (frame θ φ) f).2.1,
    mul_self_nonneg (combine (frame θ φ) f).2.2]

/-- The cartesian vector at one point. -/
theorem act_near {E : FVec → FVec → PyFloat} (hE : GoodInner E) {T : SineLib} (hT : GoodCircle T) {θ φ : PyFloat} (hθ : FinD θ ∧ |(θ.num : ℝ)| ≤ 8)
    (hφ : FinD φ ∧ |(φ.num : ℝ)| ≤ 8) {f : FVec} {M : ℝ} (hf : Bounded3 f M) (hM : M ≤ 2 ^ 50) :
    Near3 (act E (toRectMat T θ φ) f) (combine (frame θ.num φ.num) (real3 f)) (M / 2 ^ 45 + 1 / 2 ^ 990) := by
  obtain ⟨a, b, c⟩ := rows_near hT hθ hφ
  have l := frame_le (θ.num : ℝ) φ.num
  have hv : Near3 f (real3 f) 0 := ⟨hf.finite, by simp [real3], by simp [real3], by simp [real3]⟩
  have hB : M + 0 ≤ 2 ^ 60 := by norm_num at *; linarith
  have e1 := entry_near hE a ⟨(l 0).1, (l 1).1, (l 2).1⟩ hv ⟨hf.first, hf.second, hf.third⟩ hB
  have e2 := entry_near hE b ⟨(l 0).2.1, (l 1).2.1, (l 2).2.1⟩ hv ⟨hf.first, hf.second, hf.third⟩ hB
  have e3 := entry_near hE c ⟨(l 0).2.2, (l 1).2.2, (l 2).2.2⟩ hv ⟨hf.first, hf.second, hf.third⟩ hB
  rw [mul_zero, add_zero] at e1 e2 e3
  exact ⟨⟨e1.1, e2.1, e3.1⟩, e1.2, e2.2, e3.2⟩

theorem helper_eq (E : FVec → FVec → PyFloat) (T : SineLib) (qs : List ((PyFloat × PyFloat) × FVec)) :
    helper E T (qs.map (·.2.1)) (qs.map (·.2.2.1)) (qs.map (·.2.2.2)) (qs.map (·.1.1)) (qs.map (·.1.2)) =
      .ok (qs.map fun q => act E (toRectMat T q.1.1 q.1.2) q.2) := by
  have hz : ((qs.map (·.1.1)).zip (qs.map (·.1.2))).zip ((qs.map (·.2.1)).zip ((qs.map (·.2.2.1)).zip (qs.map (·.2.2.2)))) = qs := by
    induction qs with
    | nil => rfl
    | cons q qs ih => simp only [List.map_cons, List.zip_cons_cons, ih]
  simp only [helper, stretch, List.length_map, if_true, resAssert]
  simp only [pure_bind]
  change Except.ok _ = _
  rw [hz]

end FloatVector

/-- **C127.** The two transformation matrices of a point are transposes of each other, number for number. -/
theorem C127_transpose (T : SineLib) (θ φ : PyFloat) (i j : Fin 3) : toSphMat T θ φ i j = toRectMat T θ φ j i := by
  fin_cases i <;> fin_cases j <;> rfl

/-- **C127.** The columns of `spherical_to_rectangular_transformation_matrix` are the directions of growing radius, polar angle and azimuth,
entry by entry up to 2^-48. -/
theorem C127_matrix (T : SineLib) (hT : GoodCircle T) (θ φ : PyFloat) (hθ : FinD θ ∧ |(θ.num : ℝ)| ≤ 8) (hφ : FinD φ ∧ |(φ.num : ℝ)| ≤ 8) (j : Fin 3) :
    Near3 (toRectMat T θ φ 0 j, toRectMat T θ φ 1 j, toRectMat T θ φ 2 j) (frame θ.num φ.num j) (1 / 2 ^ 48) := by
  obtain ⟨a, b, c⟩ := mat_near hT hθ hφ
  fin_cases j
  · exact a
  · exact b
  · exact c

/-- **C127.** The numpy sums over the three products, in any order, are among the matrix products considered. -/
theorem C127_sums (S : List PyFloat → PyFloat) (hS : ∀ xs, IsNpSum xs (S xs)) : GoodInner fun r v => dot S v r :=
  fun _ _ _ hr hv hB => dot_ok hS hv hr hB

/-- **C127.** The cartesian field at each point is the vector with the given components along the three directions, up to rounding. -/
theorem C127_field (E : FVec → FVec → PyFloat) (hE : GoodInner E) (T : SineLib) (hT : GoodCircle T) (qs : List ((PyFloat × PyFloat) × FVec))
    (hq : ∀ q ∈ qs, (FinD q.1.1 ∧ |(q.1.1.num : ℝ)| ≤ 8) ∧ FinD q.1.2 ∧ |(q.1.2.num : ℝ)| ≤ 8) :
    ∃ ys, helper E T (qs.map (·.2.1)) (qs.map (·.2.2.1)) (qs.map (·.2.2.2)) (qs.map (·.1.1)) (qs.map (·.1.2)) = .ok ys ∧
      List.Forall₂ (fun q y => ∀ M, Bounded3 q.2 M → M ≤ 2 ^ 50 →
        Near3 y (combine (frame q.1.1.num q.1.2.num) (real3 q.2)) (M / 2 ^ 45 + 1 / 2 ^ 990)) qs ys := by
  refine ⟨_, helper_eq E T qs, ?_⟩
  rw [List.forall₂_map_right_iff, List.forall₂_same]
  intro q hm M hb hM
  exact act_near hE hT (hq q hm).1 (hq q hm).2 hb hM

/-- **C127.** The length of the vector at each point is kept, up to rounding. -/
theorem C127_length (E : FVec → FVec → PyFloat) (hE : GoodInner E) (T : SineLib) (hT : GoodCircle T) (qs : List ((PyFloat × PyFloat) × FVec))
    (hq : ∀ q ∈ qs, (FinD q.1.1 ∧ |(q.1.1.num : ℝ)| ≤ 8) ∧ FinD q.1.2 ∧ |(q.1.2.num : ℝ)| ≤ 8) :
    ∃ ys, helper E T (qs.map (·.2.1)) (qs.map (·.2.2.1)) (qs.map (·.2.2.2)) (qs.map (·.1.1)) (qs.map (·.1.2)) = .ok ys ∧
      List.Forall₂ (fun q y => ∀ M, Bounded3 q.2 M → M ≤ 2 ^ 50 →
        |inner3 (real3 y) (real3 y) - inner3 (real3 q.2) (real3 q.2)| ≤ M ^ 2 / 2 ^ 40 + 1 / 2 ^ 900) qs ys := by
  obtain ⟨ys, e, f⟩ := C127_field E hE T hT qs hq
  refine ⟨ys, e, f.imp fun q y h M hb hM => ?_⟩
  have n := h M hb hM
  have M0 : 0 ≤ M := (abs_nonneg _).trans hb.first
  have c := combine_le (q.1.1.num : ℝ) q.1.2.num (f := real3 q.2) ⟨hb.first, hb.second, hb.third⟩
  have i := inner_diff (u := real3 y) (v := real3 y) (U := combine (frame q.1.1.num q.1.2.num) (real3 q.2)) (V := combine (frame q.1.1.num q.1.2.num) (real3 q.2))
    (m := 2 * M + (M / 2 ^ 45 + 1 / 2 ^ 990)) (M := 2 * M) ⟨n.first, n.second, n.third⟩ ⟨n.first, n.second, n.third⟩ (by
      obtain ⟨a, b, c⟩ := c
      obtain ⟨-, h1, h2, h3⟩ := n
      simp only [real3]
      refine ⟨?_, ?_, ?_⟩ <;> rw [abs_le] at * <;> constructor <;> linarith) c
  rw [combine_norm] at i
  refine i.trans ?_
  have t0 : (0 : ℝ) ≤ 1 / 2 ^ 990 := by positivity
  have t1 := tiny_le (a := 990) (b := 60) (by norm_num)
  have t2 : (1 : ℝ) / 2 ^ 990 * 2 ^ 60 ≤ 1 / 2 ^ 900 := by
    rw [div_mul_eq_mul_div, one_mul, div_le_div_iff₀ (by positivity) (by positivity), one_mul, ← pow_add]
    exact pow_le_pow_right₀ (by norm_num) (by norm_num)
  generalize (1 : ℝ) / 2 ^ 990 = t at *
  generalize (1 : ℝ) / 2 ^ 900 = u at *
  clear * - M0 hM t0 t1 t2
  norm_num at *
  have a1 := mul_nonneg M0 t0
  have a2 : M * t ≤ 1125899906842624 * t := mul_le_mul_of_nonneg_right hM t0
  have a3 : t * t ≤ t := by nlinarith
  nlinarith

/-- **C127.** `rectangular_to_spherical_transformation_matrix` takes the result back to the components given, up to rounding. -/
theorem C127_round_trip (E : FVec → FVec → PyFloat) (hE : GoodInner E) (T : SineLib) (hT : GoodCircle T) (qs : List ((PyFloat × PyFloat) × FVec))
    (hq : ∀ q ∈ qs, (FinD q.1.1 ∧ |(q.1.1.num : ℝ)| ≤ 8) ∧ FinD q.1.2 ∧ |(q.1.2.num : ℝ)| ≤ 8) :
    ∃ ys, helper E T (qs.map (·.2.1)) (qs.map (·.2.2.1)) (qs.map (·.2.2.2)) (qs.map (·.1.1)) (qs.map (·.1.2)) = .ok ys ∧
      List.Forall₂ (fun q y => ∀ M, Bounded3 q.2 M → M ≤ 2 ^ 50 →
        Near3 (act E (toSphMat T q.1.1 q.1.2) y) (real3 q.2) (M / 2 ^ 41 + 1 / 2 ^ 980)) qs ys := by
  refine ⟨_, helper_eq E T qs, ?_⟩
  rw [List.forall₂_map_right_iff, List.forall₂_same]
  intro q hm M hb hM
  have n := act_near hE hT (hq q hm).1 (hq q hm).2 hb hM
  have M0 : 0 ≤ M := (abs_nonneg _).trans hb.first
  have c := combine_le (q.1.1.num : ℝ) q.1.2.num (f := real3 q.2) ⟨hb.first, hb.second, hb.third⟩
  obtain ⟨a1, a2, a3⟩ := mat_near hT (hq q hm).1 (hq q hm).2
  obtain ⟨i1, i2, i3⟩ := combine_frame (q.1.1.num : ℝ) q.1.2.num (real3 q.2)
  have l := frame_le (q.1.1.num : ℝ) q.1.2.num
  have t0 : (0 : ℝ) ≤ 1 / 2 ^ 990 := by positivity
  have t1 := tiny_le (a := 990) (b := 60) (by norm_num)
  have t2 : (1 : ℝ) / 2 ^ 990 * 2 ^ 10 ≤ 1 / 2 ^ 980 := by
    rw [div_mul_eq_mul_div, one_mul, div_le_div_iff₀ (by positivity) (by positivity), one_mul, ← pow_add]
  have hB : 2 * M + (M / 2 ^ 45 + 1 / 2 ^ 990) ≤ 2 ^ 60 := by
    generalize (1 : ℝ) / 2 ^ 990 = t at *
    clear * - M0 hM t1
    norm_num at *
    linarith
  have w : 2 * M / 2 ^ 45 + 7 * (M / 2 ^ 45 + 1 / 2 ^ 990) + 1 / 2 ^ 990 ≤ M / 2 ^ 41 + 1 / 2 ^ 980 := by
    generalize (1 : ℝ) / 2 ^ 990 = t at *
    generalize (1 : ℝ) / 2 ^ 980 = u at *
    clear * - M0 t0 t2
    norm_num at *
    linarith
  have e1 := entry_near hE a1 (l 0) n c hB
  have e2 := entry_near hE a2 (l 1) n c hB
  have e3 := entry_near hE a3 (l 2) n c hB
  rw [i1] at e1
  rw [i2] at e2
  rw [i3] at e3
  exact ⟨⟨e1.1, e2.1, e3.1⟩, e1.2.trans w, e2.2.trans w, e3.2.trans w⟩

/-- **C127.** What is refused: components whose number is not that of the polar angles (AssertionError), then azimuths whose number is neither that
nor one (ValueError); everything else, nan and infinities included, gives one vector per point. -/
theorem C127_refuses (E : FVec → FVec → PyFloat) (T : SineLib) (fr fp fa pp pa : List PyFloat) :
    (¬ (fr.length = pp.length ∧ fp.length = pp.length ∧ fa.length = pp.length) → helper E T fr fp fa pp pa = .error .assertion) ∧
      ((fr.length = pp.length ∧ fp.length = pp.length ∧ fa.length = pp.length) → ¬ (pa.length = pp.length ∨ pa.length = 1) →
        helper E T fr fp fa pp pa = .error .value) ∧
      ((fr.length = pp.length ∧ fp.length = pp.length ∧ fa.length = pp.length) → (pa.length = pp.length ∨ pa.length = 1) →
        ∃ ys, helper E T fr fp fa pp pa = .ok ys ∧ ys.length = pp.length) := by
  refine ⟨?_, ?_, ?_⟩
  · intro h
    simp only [helper, resAssert]
    by_cases h1 : fr.length = pp.length
    · by_cases h2 : fp.length = pp.length
      · by_cases h3 : fa.length = pp.length
        · exact absurd ⟨h1, h2, h3⟩ h
        · rw [if_pos h1, if_pos h2, if_neg h3]; rfl
      · rw [if_pos h1, if_neg h2]; rfl
    · rw [if_neg h1]; rfl
  · rintro ⟨h1, h2, h3⟩ h
    rw [not_or] at h
    simp only [helper, resAssert]
    rw [if_pos h1, if_pos h2, if_pos h3]
    have : stretch pp.length pa = .error .value := by
      unfold stretch
      rw [if_neg h.1]
      match pa, h.2 with
      | [], _ => rfl
      | [_], h => simp at h
      | _ :: _ :: _, _ => rfl
    rw [this]
    rfl
  · rintro ⟨h1, h2, h3⟩ h
    simp only [helper, resAssert]
    rw [if_pos h1, if_pos h2, if_pos h3]
    have : ∃ qa, stretch pp.length pa = .ok qa ∧ qa.length = pp.length := by
      unfold stretch
      by_cases h' : pa.length = pp.length
      · rw [if_pos h']; exact ⟨_, rfl, h'⟩
      · rw [if_neg h']
        obtain ⟨x, rfl⟩ := List.length_eq_one_iff.1 (h.resolve_left h')
        exact ⟨_, rfl, by simp⟩
    obtain ⟨qa, e, l⟩ := this
    rw [e]
    exact ⟨_, rfl, by simp [h1, h2, h3, l]⟩

/-- **C127.** A single azimuth stands for the same azimuth at every point. -/
theorem C127_one_azimuth (E : FVec → FVec → PyFloat) (T : SineLib) (fr fp fa pp : List PyFloat) (φ : PyFloat) :
    helper E T fr fp fa pp [φ] = helper E T fr fp fa pp (List.replicate pp.length φ) := by
  have : stretch pp.length [φ] = stretch pp.length (List.replicate pp.length φ) := by
    unfold stretch
    by_cases h : [φ].length = pp.length
    · rw [if_pos h, ← h]; rfl
    · rw [if_neg h, if_pos (by simp)]
  simp only [helper, this]

/-! ### The longitudinal field of a field given in spherical components -/

/-- The directions of growing radius, polar angle and azimuth at the middle of a facet. -/
noncomputable def Spec.facetFrame (f : (PyFloat × PyFloat) × (PyFloat × PyFloat)) : Fin 3 → ℝ × ℝ × ℝ :=
  frame (((f.2.1.num : ℝ) + f.2.2.num) / 2) (((f.1.1.num : ℝ) + f.1.2.num) / 2)

/-- The component along the line of sight of a field given by its radial, polar and azimuthal components, summed over the area seen. -/
noncomputable def Spec.seenSpherical (D : ℝ × ℝ × ℝ) (xs : List (PyFloat × ((PyFloat × PyFloat) × (PyFloat × PyFloat)) × FVec)) : ℝ :=
  (xs.map fun x => inner3 (combine (facetFrame x.2.1) (real3 x.2.2)) D * ((x.1.num : ℝ) * max 0 (inner3 D (facetNormal x.2.1)))).sum

namespace FloatVector
open FloatEnergy FloatDescribe

theorem prod_lip {a b A B ε : ℝ} (h1 : |a - A| ≤ ε) (h2 : |b - B| ≤ ε) (hb : |b| ≤ 1) (hA : |A| ≤ 1) : |a * b - A * B| ≤ 2 * ε := by
  have : a * b - A * B = (a - A) * b + A * (b - B) := by ring
  rw [this]
  refine (abs_add_le _ _).trans ?_
  rw [abs_mul, abs_mul]
  have ε0 := (abs_nonneg _).trans h1
  have := mul_le_mul h1 hb (abs_nonneg _) ε0
  have := mul_le_mul hA h2 (abs_nonneg _) zero_le_one
  linarith

theorem sin_lip {x y ε : ℝ} (h : |x - y| ≤ ε) : |Real.sin x - Real.sin y| ≤ ε ∧ |Real.cos x - Real.cos y| ≤ ε :=
  ⟨(Real.abs_sin_sub_sin_le x y).trans h, (Real.abs_cos_sub_cos_le x y).trans h⟩

theorem pointing_lip {θ φ Θ Φ ε : ℝ} (h1 : |θ - Θ| ≤ ε) (h2 : |φ - Φ| ≤ ε) : |(pointing θ φ).1 - (pointing Θ Φ).1| ≤ 2 * ε ∧
    |(pointing θ φ).2.1 - (pointing Θ Φ).2.1| ≤ 2 * ε ∧ |(pointing θ φ).2.2 - (pointing Θ Φ).2.2| ≤ 2 * ε := by
  have ε0 := (abs_nonneg _).trans h1
  obtain ⟨a, b⟩ := sin_lip h1
  obtain ⟨c, d⟩ := sin_lip h2
  exact ⟨prod_lip a d (Real.abs_cos_le_one _) (Real.abs_sin_le_one _), prod_lip a c (Real.abs_sin_le_one _) (Real.abs_sin_le_one _), by
    simp only [pointing]; linarith⟩

theorem frame_lip {θ φ Θ Φ ε : ℝ} (h1 : |θ - Θ| ≤ ε) (h2 : |φ - Φ| ≤ ε) (i : Fin 3) : |(frame θ φ i).1 - (frame Θ Φ i).1| ≤ 2 * ε ∧
    |(frame θ φ i).2.1 - (frame Θ Φ i).2.1| ≤ 2 * ε ∧ |(frame θ φ i).2.2 - (frame Θ Φ i).2.2| ≤ 2 * ε := by
  have e : ∀ x y z : ℝ, x + z - (y + z) = x - y := fun x y z => by ring
  fin_cases i
  · exact pointing_lip h1 h2
  · exact pointing_lip (by rw [e]; exact h1) h2
  · exact pointing_lip (by rw [sub_self, abs_zero]; exact (abs_nonneg _).trans h1) (by rw [e]; exact h2)

theorem combine_lip {e e' : Fin 3 → ℝ × ℝ × ℝ} {f : ℝ × ℝ × ℝ} {M δ : ℝ} (hf : |f.1| ≤ M ∧ |f.2.1| ≤ M ∧ |f.2.2| ≤ M)
    (h : ∀ i, |(e i).1 - (e' i).1| ≤ δ ∧ |(e i).2.1 - (e' i).2.1| ≤ δ ∧ |(e i).2.2 - (e' i).2.2| ≤ δ) :
    |(combine e f).1 - (combine e' f).1| ≤ 3 * (M * δ) ∧ |(combine e f).2.1 - (combine e' f).2.1| ≤ 3 * (M * δ) ∧
      |(combine e f).2.2 - (combine e' f).2.2| ≤ 3 * (M * δ) := by
  have M0 := (abs_nonneg _).trans hf.1
  have key : ∀ a b c a' b' c' : ℝ, |a - a'| ≤ δ → |b - b'| ≤ δ → |c - c'| ≤ δ →
      |f.1 * a + f.2.1 * b + f.2.2 * c - (f.1 * a' + f.2.1 * b' + f.2.2 * c')| ≤ 3 * (M * δ) := by
    intro a b c a' b' c' ha hb hc
    have : f.1 * a + f.2.1 * b + f.2.2 * c - (f.1 * a' + f.2.1 * b' + f.2.2 * c') = f.1 * (a - a') + f.2.1 * (b - b') + f.2.2 * (c - c') := by ring
    rw [this]
    refine (abs_add_three _ _ _).trans ?_
    rw [abs_mul, abs_mul, abs_mul]
    have := mul_le_mul hf.1 ha (abs_nonneg _) M0
    have := mul_le_mul hf.2.1 hb (abs_nonneg _) M0
    have := mul_le_mul hf.2.2 hc (abs_nonneg _) M0
    linarith
  exact ⟨key _ _ _ _ _ _ (h 0).1 (h 1).1 (h 2).1, key _ _ _ _ _ _ (h 0).2.1 (h 1).2.1 (h 2).2.1, key _ _ _ _ _ _ (h 0).2.2 (h 1).2.2 (h 2).2.2⟩

/-- The angles of the centre of a facet. -/
theorem centre_near {P A : List PyFloat} (hP : CornerList P pi) (hA : CornerList A twoPi) {f} (h : f ∈ gridFacets P A) :
    ((FinD (centrePolar f.2) ∧ |((centrePolar f.2).num : ℝ)| ≤ 8) ∧ FinD (centreAzimuth f.1) ∧ |((centreAzimuth f.1).num : ℝ)| ≤ 8) ∧
      |((centrePolar f.2).num : ℝ) - ((f.2.1.num : ℝ) + f.2.2.num) / 2| ≤ 1 / 2 ^ 48 ∧
      |((centreAzimuth f.1).num : ℝ) - ((f.1.1.num : ℝ) + f.1.2.num) / 2| ≤ 1 / 2 ^ 48 := by
  obtain ⟨h1, h2⟩ := mem_facets h
  obtain ⟨p1, p2⟩ := pair_mem h2
  obtain ⟨a1, a2⟩ := pair_mem h1
  have P1 := corner_range hP pi_range.1 p1
  have P2 := corner_range hP pi_range.1 p2
  have A1 := corner_range hA pi_range.2 a1
  have A2 := corner_range hA pi_range.2 a2
  obtain ⟨x1, x2, x3⟩ := quarter_ok P1.1 P2.1 P1.1 P2.1 P1.2 P2.2 P1.2 P2.2
  obtain ⟨y1, y2, y3⟩ := quarter_ok A1.1 A1.1 A2.1 A2.1 A1.2 A1.2 A2.2 A2.2
  refine ⟨⟨⟨x1, x2⟩, y1, y2⟩, ?_, ?_⟩
  · convert x3 using 2
    simp only [centrePolar]; ring
  · convert y3 using 2
    simp only [centreAzimuth]; ring

/-- The cartesian vector at the centre of a facet. -/
theorem centre_field {E : FVec → FVec → PyFloat} (hE : GoodInner E) {T : SineLib} (hT : GoodCircle T) {P A : List PyFloat} (hP : CornerList P pi)
    (hA : CornerList A twoPi) {f} (h : f ∈ gridFacets P A) {b : FVec} {M : ℝ} (hb : Bounded3 b M) (hM : M ≤ 2 ^ 48) :
    Near3 (act E (toRectMat T (centrePolar f.2) (centreAzimuth f.1)) b) (combine (facetFrame f) (real3 b)) (M / 2 ^ 42 + 1 / 2 ^ 990) ∧
      Bounded3 (act E (toRectMat T (centrePolar f.2) (centreAzimuth f.1)) b) (4 * M + 1 / 2 ^ 980) := by
  obtain ⟨⟨h1, h2⟩, e1, e2⟩ := centre_near hP hA h
  have M0 : 0 ≤ M := (abs_nonneg _).trans hb.first
  have n := act_near hE hT h1 h2 hb (hM.trans (by norm_num))
  have d := combine_lip (f := real3 b) ⟨hb.first, hb.second, hb.third⟩ (frame_lip e1 e2)
  have c := combine_le (((f.2.1.num : ℝ) + f.2.2.num) / 2) (((f.1.1.num : ℝ) + f.1.2.num) / 2) (f := real3 b) ⟨hb.first, hb.second, hb.third⟩
  have t0 : (0 : ℝ) ≤ 1 / 2 ^ 990 := by positivity
  have t2 := tiny_le (a := 990) (b := 980) (by norm_num)
  have w : M / 2 ^ 45 + 1 / 2 ^ 990 + 3 * (M * (2 * (1 / 2 ^ 48))) ≤ M / 2 ^ 42 + 1 / 2 ^ 990 := by
    generalize (1 : ℝ) / 2 ^ 990 = t at *
    clear * - M0
    norm_num at *
    linarith
  have w2 : 2 * M + (M / 2 ^ 42 + 1 / 2 ^ 990) ≤ 4 * M + 1 / 2 ^ 980 := by
    generalize (1 : ℝ) / 2 ^ 990 = t at *
    generalize (1 : ℝ) / 2 ^ 980 = u at *
    clear * - M0 t2
    norm_num at *
    linarith
  have near : Near3 (act E (toRectMat T (centrePolar f.2) (centreAzimuth f.1)) b) (combine (facetFrame f) (real3 b)) (M / 2 ^ 42 + 1 / 2 ^ 990) :=
    ⟨n.finite, (abs_sub_le _ _ _).trans ((add_le_add n.first d.1).trans w), (abs_sub_le _ _ _).trans ((add_le_add n.second d.2.1).trans w),
      (abs_sub_le _ _ _).trans ((add_le_add n.third d.2.2).trans w)⟩
  refine ⟨near, n.finite, ?_, ?_, ?_⟩
  · have := abs_sub_abs_le_abs_sub ((act E (toRectMat T (centrePolar f.2) (centreAzimuth f.1)) b).1.num : ℝ) (combine (facetFrame f) (real3 b)).1
    linarith [near.first, c.1, show |(combine (facetFrame f) (real3 b)).1| ≤ 2 * M from c.1]
  · have := abs_sub_abs_le_abs_sub ((act E (toRectMat T (centrePolar f.2) (centreAzimuth f.1)) b).2.1.num : ℝ) (combine (facetFrame f) (real3 b)).2.1
    linarith [near.second, show |(combine (facetFrame f) (real3 b)).2.1| ≤ 2 * M from c.2.1]
  · have := abs_sub_abs_le_abs_sub ((act E (toRectMat T (centrePolar f.2) (centreAzimuth f.1)) b).2.2.num : ℝ) (combine (facetFrame f) (real3 b)).2.2
    linarith [near.third, show |(combine (facetFrame f) (real3 b)).2.2| ≤ 2 * M from c.2.2]

theorem zip_self_map {α β γ : Type*} (F : List α) (c : List β) (h : α × β → γ) : F.zip ((F.zip c).map h) = (F.zip c).map fun x => (x.1, h x) := by
  induction F generalizing c with
  | nil => simp
  | cons f F ih =>
    cases c with
    | nil => simp
    | cons b c => simp [ih]

end FloatVector

open FloatDescribe FloatEnergy

/-- **C127.** `get_longitudinal_field_curve` of a field given by its radial, polar and azimuthal components at the centres of the facets: the
cartesian field is computed and each entry of the curve is the average over the area seen of the component along the line of sight, up to
rounding. -/
theorem C127_curve (E : FVec → FVec → PyFloat) (hE : GoodInner E) (T : SineLib) (hT : GoodCircle T) (L : DescLib) (hL : GoodDesc L)
    (S : List PyFloat → PyFloat) (hS : ∀ xs, IsNpSum xs (S xs)) (P A : List PyFloat) (field : List FVec) (M : ℝ) (h : GridField P A field M) (hM : M ≤ 2 ^ 47)
    (θ : PyFloat) (hθ : FinD θ ∧ |(θ.num : ℝ)| ≤ 8) (φs : List PyFloat) (hφ : ∀ φ ∈ φs, FinD φ ∧ |(φ.num : ℝ)| ≤ 8) :
    ∃ cart ys, helper E T (field.map (·.1)) (field.map (·.2.1)) (field.map (·.2.2)) ((gridFacets P A).map fun f => centrePolar f.2)
        ((gridFacets P A).map fun f => centreAzimuth f.1) = .ok cart ∧ curve T L S P A cart θ φs = .ok ys ∧ List.Forall₂ (fun φ y =>
      1 / 2 ^ 10 ≤ seenArea (pointing θ.num φ.num) ((areas L P A).zip ((gridFacets P A).zip field)) → FinD y ∧
        |(y.num : ℝ) - seenSpherical (pointing θ.num φ.num) ((areas L P A).zip ((gridFacets P A).zip field)) /
          seenArea (pointing θ.num φ.num) ((areas L P A).zip ((gridFacets P A).zip field))| ≤
          M * (1 / 2 ^ 19 + 1 / 2 ^ 24 / seenArea (pointing θ.num φ.num) ((areas L P A).zip ((gridFacets P A).zip field))) + 1 / 2 ^ 790) φs ys := by
  set F := gridFacets P A with hF
  have hlen : field.length = F.length := h.complete
  have hfst : (F.zip field).map Prod.fst = F := List.map_fst_zip hlen.ge
  have hsnd : (F.zip field).map Prod.snd = field := List.map_snd_zip hlen.le
  have hh := helper_eq E T ((F.zip field).map fun x => ((centrePolar x.1.2, centreAzimuth x.1.1), x.2))
  simp only [List.map_map] at hh
  have r1 : field.map (·.1) = (F.zip field).map ((fun q : (PyFloat × PyFloat) × FVec => q.2.1) ∘ fun x => ((centrePolar x.1.2, centreAzimuth x.1.1), x.2)) := by
    conv_lhs => rw [← hsnd, List.map_map]
    rfl
  have r2 : field.map (·.2.1) = (F.zip field).map ((fun q : (PyFloat × PyFloat) × FVec => q.2.2.1) ∘ fun x => ((centrePolar x.1.2, centreAzimuth x.1.1), x.2)) := by
    conv_lhs => rw [← hsnd, List.map_map]
    rfl
  have r3 : field.map (·.2.2) = (F.zip field).map ((fun q : (PyFloat × PyFloat) × FVec => q.2.2.2) ∘ fun x => ((centrePolar x.1.2, centreAzimuth x.1.1), x.2)) := by
    conv_lhs => rw [← hsnd, List.map_map]
    rfl
  have r4 : (F.map fun f => centrePolar f.2) = (F.zip field).map ((fun q : (PyFloat × PyFloat) × FVec => q.1.1) ∘ fun x => ((centrePolar x.1.2, centreAzimuth x.1.1), x.2)) := by
    conv_lhs => rw [← hfst, List.map_map]
    rfl
  have r5 : (F.map fun f => centreAzimuth f.1) = (F.zip field).map ((fun q : (PyFloat × PyFloat) × FVec => q.1.2) ∘ fun x => ((centrePolar x.1.2, centreAzimuth x.1.1), x.2)) := by
    conv_lhs => rw [← hfst, List.map_map]
    rfl
  have fact : ∀ x ∈ F.zip field, Near3 (act E (toRectMat T (centrePolar x.1.2) (centreAzimuth x.1.1)) x.2) (combine (facetFrame x.1) (real3 x.2)) (M / 2 ^ 42 + 1 / 2 ^ 990) ∧
      Bounded3 (act E (toRectMat T (centrePolar x.1.2) (centreAzimuth x.1.1)) x.2) (4 * M + 1 / 2 ^ 980) := fun x hx =>
    centre_field hE hT h.polar h.azimuth (List.of_mem_zip (a := x.1) (b := x.2) hx).1 (h.bounded x.2 (List.of_mem_zip (a := x.1) (b := x.2) hx).2) (hM.trans (by norm_num))
  obtain ⟨cart, ec⟩ : ∃ c, c = (F.zip field).map fun x => act E (toRectMat T (centrePolar x.1.2) (centreAzimuth x.1.1)) x.2 := ⟨_, rfl⟩
  obtain ⟨g1, g2, g3, g4, g5, g6⟩ := grid_facts hT hL h
  obtain ⟨x0, hx0⟩ := List.exists_mem_of_ne_nil _ g6
  have M0 : 0 ≤ M := (abs_nonneg _).trans (g5 x0 hx0).first
  have t0 : (0 : ℝ) ≤ 1 / 2 ^ 980 := by positivity
  have t1 := tiny_le (a := 980) (b := 900) (by norm_num)
  have t2 := tiny_le (a := 990) (b := 900) (by norm_num)
  have t3 := tiny_le (a := 800) (b := 795) (by norm_num)
  have t4 := tiny_le (a := 900) (b := 795) (by norm_num)
  have t6 := tiny_le (a := 900) (b := 60) (by norm_num)
  have t5 : (1 : ℝ) / 2 ^ 795 * 2 ^ 5 ≤ 1 / 2 ^ 790 := by
    rw [div_mul_eq_mul_div, one_mul, div_le_div_iff₀ (by positivity) (by positivity), one_mul, ← pow_add]
  have hg : GridField P A cart (4 * M + 1 / 2 ^ 980) := by
    refine ⟨h.polar, h.azimuth, h.rows, h.columns, h.facets, ?_, ?_, ?_⟩
    · rw [ec, List.length_map, List.length_zip, hlen, min_self]
    · intro b hb
      rw [ec] at hb
      obtain ⟨x, hx, rfl⟩ := List.mem_map.1 hb
      exact (fact x hx).2
    · generalize (1 : ℝ) / 2 ^ 980 = t at *
      generalize (1 : ℝ) / 2 ^ 900 = u at *
      clear * - hM t1 t6
      norm_num at *
      linarith
  obtain ⟨ys, ey, hy⟩ := C126_average T hT L hL S hS P A cart _ hg θ hθ φs hφ
  refine ⟨cart, ys, ?_, ey, hy.imp fun φ y k => ?_⟩
  · rw [r1, r2, r3, r4, r5, hh, ec]
    rfl
  rw [zip_pairs, ← hF] at k ⊢
  rw [ec, zip_self_map] at k
  simp only [seenArea, seenField, seenSpherical, List.map_map] at k ⊢
  have eV : ((F.zip field).map ((fun x : PyFloat × ((PyFloat × PyFloat) × (PyFloat × PyFloat)) × FVec => (x.1.num : ℝ) * max 0 (inner3 (pointing θ.num φ.num) (facetNormal x.2.1))) ∘
      (fun x => (area L x.1, x.1, x.2)) ∘ fun x => (x.1, act E (toRectMat T (centrePolar x.1.2) (centreAzimuth x.1.1)) x.2))).sum =
      ((F.zip field).map ((fun x : PyFloat × ((PyFloat × PyFloat) × (PyFloat × PyFloat)) × FVec => (x.1.num : ℝ) * max 0 (inner3 (pointing θ.num φ.num) (facetNormal x.2.1))) ∘
      (fun x => (area L x.1, x.1, x.2)))).sum := rfl
  rw [eV] at k
  generalize hV' : ((F.zip field).map ((fun x : PyFloat × ((PyFloat × PyFloat) × (PyFloat × PyFloat)) × FVec => (x.1.num : ℝ) * max 0 (inner3 (pointing θ.num φ.num) (facetNormal x.2.1))) ∘
      (fun x => (area L x.1, x.1, x.2)))).sum = V at k ⊢
  intro hV
  obtain ⟨k1, k2⟩ := k hV
  refine ⟨k1, ?_⟩
  have V0 : 0 < V := lt_of_lt_of_le (by norm_num) hV
  have hd : |((F.zip field).map ((fun x : PyFloat × ((PyFloat × PyFloat) × (PyFloat × PyFloat)) × FVec => inner3 (real3 x.2.2) (pointing θ.num φ.num) *
        ((x.1.num : ℝ) * max 0 (inner3 (pointing θ.num φ.num) (facetNormal x.2.1)))) ∘ (fun x => (area L x.1, x.1, x.2)) ∘
        fun x => (x.1, act E (toRectMat T (centrePolar x.1.2) (centreAzimuth x.1.1)) x.2))).sum -
      ((F.zip field).map ((fun x : PyFloat × ((PyFloat × PyFloat) × (PyFloat × PyFloat)) × FVec => inner3 (combine (facetFrame x.2.1) (real3 x.2.2)) (pointing θ.num φ.num) *
        ((x.1.num : ℝ) * max 0 (inner3 (pointing θ.num φ.num) (facetNormal x.2.1)))) ∘ (fun x => (area L x.1, x.1, x.2)))).sum| ≤
      3 * (M / 2 ^ 42 + 1 / 2 ^ 990) * V := by
    rw [← hV', ← List.sum_map_mul_left, ]
    refine sum_diff _ fun x hx => ?_
    simp only [Function.comp]
    have n := (fact x hx).1
    have pl := pointing_le (θ.num : ℝ) φ.num
    have i := inner_diff (u := real3 (act E (toRectMat T (centrePolar x.1.2) (centreAzimuth x.1.1)) x.2)) (U := combine (facetFrame x.1) (real3 x.2))
      (v := pointing θ.num φ.num) (V := pointing θ.num φ.num) (δ := 0) (m := 1) (M := 2 * M) ⟨n.first, n.second, n.third⟩ (by simp) pl
      (combine_le _ _ ⟨(g5 x hx).first, (g5 x hx).second, (g5 x hx).third⟩)
    rw [← sub_mul, abs_mul, abs_of_nonneg (mul_nonneg (g2 x hx).2.1 (le_max_left 0 _))]
    refine mul_le_mul_of_nonneg_right (i.trans (le_of_eq (by ring))) (mul_nonneg (g2 x hx).2.1 (le_max_left 0 _))
  generalize ((F.zip field).map ((fun x : PyFloat × ((PyFloat × PyFloat) × (PyFloat × PyFloat)) × FVec => inner3 (real3 x.2.2) (pointing θ.num φ.num) *
        ((x.1.num : ℝ) * max 0 (inner3 (pointing θ.num φ.num) (facetNormal x.2.1)))) ∘ (fun x => (area L x.1, x.1, x.2)) ∘
        fun x => (x.1, act E (toRectMat T (centrePolar x.1.2) (centreAzimuth x.1.1)) x.2))).sum = G at *
  generalize ((F.zip field).map ((fun x : PyFloat × ((PyFloat × PyFloat) × (PyFloat × PyFloat)) × FVec => inner3 (combine (facetFrame x.2.1) (real3 x.2.2)) (pointing θ.num φ.num) *
        ((x.1.num : ℝ) * max 0 (inner3 (pointing θ.num φ.num) (facetNormal x.2.1)))) ∘ (fun x => (area L x.1, x.1, x.2)))).sum = H at *
  have q : |G / V - H / V| ≤ 3 * (M / 2 ^ 42 + 1 / 2 ^ 990) := by
    rw [← sub_div, abs_div, abs_of_pos V0, div_le_iff₀ V0]
    exact hd
  refine (abs_sub_le _ (G / V) _).trans ((add_le_add k2 q).trans ?_)
  have iV : (1 : ℝ) / 2 ^ 26 / V ≤ 1 / 2 ^ 16 := by
    rw [div_le_iff₀ V0]
    norm_num at *
    linarith
  have iV0 : 0 ≤ (1 : ℝ) / 2 ^ 26 / V := by positivity
  have e24 : (1 : ℝ) / 2 ^ 24 / V = 4 * (1 / 2 ^ 26 / V) := by ring
  rw [e24]
  generalize (1 : ℝ) / 2 ^ 26 / V = z at *
  have m1 := mul_nonneg M0 iV0
  have m2 : 1 / 2 ^ 980 * z ≤ 1 / 2 ^ 980 := by
    have : z ≤ 1 := iV.trans (by norm_num)
    exact mul_le_of_le_one_right t0 this
  have u0 : (0 : ℝ) ≤ 1 / 2 ^ 795 := by positivity
  generalize (1 : ℝ) / 2 ^ 980 = t at *
  generalize (1 : ℝ) / 2 ^ 990 = t' at *
  generalize (1 : ℝ) / 2 ^ 900 = u at *
  generalize (1 : ℝ) / 2 ^ 800 = v at *
  generalize (1 : ℝ) / 2 ^ 795 = w at *
  generalize (1 : ℝ) / 2 ^ 790 = r at *
  clear * - M0 t0 t1 t2 t3 t4 t5 m1 m2 u0
  norm_num at *
  nlinarith

/-! ### Non-vacuity -/

private theorem exUnit : Bounded3 (fin false 1, fin false 0, fin false 0) 1 :=
  ⟨⟨⟨_, _, rfl, 1, 0, by norm_num, by norm_num, by norm_num, by norm_num⟩, zero_fd, zero_fd⟩, by simp [PyFloat.num], by simp [PyFloat.num], by simp [PyFloat.num]⟩

private theorem exAngle : FinD (fin false (3 / 2)) ∧ FinD (fin false 3) ∧ (((fin false (3 / 2)).num : ℚ) : ℝ) = 3 / 2 ∧ (((fin false 3).num : ℚ) : ℝ) = 3 :=
  ⟨⟨_, _, rfl, 3, -1, by norm_num, by norm_num, by norm_num, by norm_num⟩, ⟨_, _, rfl, 3, 0, by norm_num, by norm_num, by norm_num, by norm_num⟩,
    by simp [PyFloat.num], by simp [PyFloat.num]⟩

/-- A radial unit vector: its cartesian components point in the direction of the point, and going back gives nearly 1. -/
example : ∃ y, helper (fun r v => dot exSum v r) exCircle [fin false 1] [fin false 0] [fin false 0] [fin false (3 / 2)] [fin false 3] = .ok [y] ∧
    Near3 y (pointing (3 / 2) 3) (1 / 2 ^ 44) := by
  obtain ⟨a, b, c, d⟩ := exAngle
  obtain ⟨ys, e, f⟩ := C127_field (fun r v => dot exSum v r) (C127_sums exSum exSum_ok) exCircle exCircle_good
    [((fin false (3 / 2), fin false 3), (fin false 1, fin false 0, fin false 0))] (by
      intro q hq
      obtain rfl := List.mem_singleton.1 hq
      exact ⟨⟨a, by rw [c]; norm_num [abs_le]⟩, b, by rw [d]; norm_num [abs_le]⟩)
  rw [List.forall₂_cons_left_iff] at f
  obtain ⟨y, ys', k, f, rfl⟩ := f
  obtain rfl := List.forall₂_nil_left_iff.1 f
  refine ⟨y, e, ?_⟩
  have n := k 1 exUnit (by norm_num)
  have ec : combine (frame (3 / 2) 3) (real3 (fin false 1, fin false 0, fin false 0)) = pointing (3 / 2) 3 := by
    simp [combine, frame, real3, PyFloat.num]
  simp only [c, d, ec] at n
  refine near_mono n ?_
  have := tiny_le (a := 990) (b := 100) (by norm_num)
  generalize (1 : ℝ) / 2 ^ 990 = t at *
  norm_num at *
  linarith

example (E : FVec → FVec → PyFloat) : helper E exCircle [fin false 1] [] [] [fin false 1] [fin false 1] = .error .assertion :=
  (C127_refuses E exCircle [fin false 1] [] [] [fin false 1] [fin false 1]).1 (by simp)

example (E : FVec → FVec → PyFloat) : helper E exCircle [fin false 1] [fin false 1] [fin false 1] [fin false 1] [fin false 1, fin false 2] = .error .value :=
  (C127_refuses E exCircle [fin false 1] [fin false 1] [fin false 1] [fin false 1] [fin false 1, fin false 2]).2.1 (by simp) (by simp)

/-- A radial field on the only facet of `ZdiGeometry(2, 2)`, seen from its side. -/
example : ∃ P A cart y, corners (some 2) (some 2) = .ok (P, A) ∧
    helper (fun r v => dot exSum v r) exCircle [fin false 1] [fin false 0] [fin false 0] ((gridFacets P A).map fun f => centrePolar f.2)
      ((gridFacets P A).map fun f => centreAzimuth f.1) = .ok cart ∧
    curve exCircle exDesc exSum P A cart (fin false (3 / 2)) [fin false 3] = .ok [y] ∧ FinD y := by
  obtain ⟨P, A, e, g, f, ef, hf⟩ := two_by_two exUnit (by norm_num)
  obtain ⟨a, b, c, d⟩ := exAngle
  obtain ⟨cart, ys, e1, e2, k⟩ := C127_curve (fun r v => dot exSum v r) (C127_sums exSum exSum_ok) exCircle exCircle_good exDesc exDesc_good exSum exSum_ok P A _ 1 g
    (by norm_num) (fin false (3 / 2)) ⟨a, by rw [c]; norm_num [abs_le]⟩ [fin false 3] (by
      intro q hq
      obtain rfl := List.mem_singleton.1 hq
      exact ⟨b, by rw [d]; norm_num [abs_le]⟩)
  rw [List.forall₂_cons_left_iff] at k
  obtain ⟨y, ys', k, k', rfl⟩ := k
  obtain rfl := List.forall₂_nil_left_iff.1 k'
  refine ⟨P, A, cart, y, e, e1, e2, (k ?_).1⟩
  rw [c, d]
  exact exSeen g ef hf

end Verif
