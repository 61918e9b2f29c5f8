import Verif.Lemmas.FloatVisible

/-!
# Property C126: the longitudinal field in double precision
-/

set_option exponentiation.threshold 4000

namespace Verif
open Spec PyFloat FloatRange FloatSets FloatCoords FloatError FloatRound FloatVisible

/-- What is assumed of numpy's sine and cosine: right to 2^-50 for angles of at most 8 radians. -/
structure Spec.GoodCircle (T : SineLib) : Prop where
  sin : ∀ x, FinD x → |(x.num : ℝ)| ≤ 8 → FinD (T.sin x) ∧ |((T.sin x).num : ℝ) - Real.sin x.num| ≤ 1 / 2 ^ 50
  cos : ∀ x, FinD x → |(x.num : ℝ)| ≤ 8 → FinD (T.cos x) ∧ |((T.cos x).num : ℝ) - Real.cos x.num| ≤ 1 / 2 ^ 50

/-- The unit vector with the given polar angle and azimuth. -/
noncomputable def Spec.pointing (θ φ : ℝ) : ℝ × ℝ × ℝ := (Real.sin θ * Real.cos φ, Real.sin θ * Real.sin φ, Real.cos θ)

/-- The scalar product. -/
def Spec.inner3 (v w : ℝ × ℝ × ℝ) : ℝ := v.1 * w.1 + v.2.1 * w.2.1 + v.2.2 * w.2.2

/-- A vector of finite doubles close to a vector. -/
structure Spec.Near3 (v : FVec) (V : ℝ × ℝ × ℝ) (ε : ℝ) : Prop where
  finite : FinD v.1 ∧ FinD v.2.1 ∧ FinD v.2.2
  first : |(v.1.num : ℝ) - V.1| ≤ ε
  second : |(v.2.1.num : ℝ) - V.2.1| ≤ ε
  third : |(v.2.2.num : ℝ) - V.2.2| ≤ ε

/-- The vector of the numbers. -/
noncomputable def Spec.real3 (v : FVec) : ℝ × ℝ × ℝ := (v.1.num, v.2.1.num, v.2.2.num)

/-- A vector whose components have at most the magnitude `M`. -/
structure Spec.Bounded3 (v : FVec) (M : ℝ) : Prop where
  finite : FinD v.1 ∧ FinD v.2.1 ∧ FinD v.2.2
  first : |(v.1.num : ℝ)| ≤ M
  second : |(v.2.1.num : ℝ)| ≤ M
  third : |(v.2.2.num : ℝ)| ≤ M

namespace FloatVisible
open FloatEnergy FloatDescribe

theorem div_real {x y : PyFloat} (hx : Fd x) (hy : Fd y) (h0 : (y.num : ℝ) ≠ 0) {k : ℕ} (h : |(x.num : ℝ) / y.num| ≤ 2 ^ k) (hk : k ≤ 1023) :
    Fd (div x y) ∧ |((div x y).num : ℝ) - x.num / y.num| ≤ |(x.num : ℝ) / y.num| / 2 ^ 53 + 1 / 2 ^ 1000 := by
  have := div_num hx hy (by exact_mod_cast h0) (le_max_of_real (k := k) (by push_cast; exact h) hk)
  refine ⟨this.1, ?_⟩
  rw [this.2]
  have := real_err (x.num / y.num)
  push_cast at this
  exact this

theorem pow_w_three : w ^ 3 - 1 ≤ 1 / 2 ^ 50 := by unfold w; norm_num

/-- The product of two numbers in a scalar product. -/
theorem prod_ok {x y : PyFloat} (hx : FinD x) (hy : FinD y) {B : ℝ} (h1 : |(x.num : ℝ)| ≤ B) (h2 : |(y.num : ℝ)| ≤ 2) (hB : B ≤ 2 ^ 60) :
    FinD (mul x y) ∧ |((mul x y).num : ℝ) - x.num * y.num| ≤ B / 2 ^ 52 + 1 / 2 ^ 1000 ∧ |((mul x y).num : ℝ)| ≤ 3 * B + 1 / 2 ^ 1000 := by
  have B0 : 0 ≤ B := (abs_nonneg _).trans h1
  have hp : |(x.num : ℝ) * y.num| ≤ 2 * B := by
    rw [abs_mul]
    calc |(x.num : ℝ)| * |(y.num : ℝ)| ≤ B * 2 := by gcongr
      _ = 2 * B := by ring
  obtain ⟨f, e⟩ := mul_real hx hy (k := 61) (hp.trans (by rw [pow_succ]; linarith)) (by norm_num)
  have e1 : |((mul x y).num : ℝ) - x.num * y.num| ≤ B / 2 ^ 52 + 1 / 2 ^ 1000 := by
    refine e.trans ?_
    have : |(x.num : ℝ) * y.num| / 2 ^ 53 ≤ B / 2 ^ 52 := by
      generalize |(x.num : ℝ) * y.num| = p at *
      norm_num; linarith
    linarith
  refine ⟨f, e1, ?_⟩
  have : B / 2 ^ 52 ≤ B := div_le_self B0 (by norm_num)
  rw [abs_le] at *
  constructor <;> linarith

theorem dot_ok {S : List PyFloat → PyFloat} (hS : ∀ xs, IsNpSum xs (S xs)) {v w : FVec} {B : ℝ} (hv : Bounded3 v B) (hw : Bounded3 w 2) (hB : B ≤ 2 ^ 60) :
    FinD (dot S v w) ∧ |((dot S v w).num : ℝ) - inner3 (real3 v) (real3 w)| ≤ B / 2 ^ 46 + 1 / 2 ^ 990 := by
  have B0 : 0 ≤ B := (abs_nonneg _).trans hv.first
  obtain ⟨f1, a1, b1⟩ := prod_ok hv.finite.1 hw.finite.1 hv.first hw.first hB
  obtain ⟨f2, a2, b2⟩ := prod_ok hv.finite.2.1 hw.finite.2.1 hv.second hw.second hB
  obtain ⟨f3, a3, b3⟩ := prod_ok hv.finite.2.2 hw.finite.2.2 hv.third hw.third hB
  have t0 : (0 : ℝ) ≤ 1 / 2 ^ 1000 := by positivity
  have t1 : (1 : ℝ) / 2 ^ 1000 * 2 ^ 10 ≤ 1 / 2 ^ 990 := by
    rw [div_mul_eq_mul_div, one_mul, div_le_div_iff₀ (by positivity) (by positivity), one_mul, ← pow_add]
  have t2 : (1 : ℝ) / 2 ^ 1000 ≤ 1 := by
    rw [div_le_one (by positivity)]; exact one_le_pow₀ (by norm_num)
  have hsz : size [mul v.1 w.1, mul v.2.1 w.2.1, mul v.2.2 w.2.2] ≤ 9 * B + 3 * (1 / 2 ^ 1000) := by
    simp only [size, List.map_cons, List.map_nil, List.sum_cons, List.sum_nil, add_zero]
    linarith
  have hsz0 := size_nonneg [mul v.1 w.1, mul v.2.1 w.2.1, mul v.2.2 w.2.2]
  obtain ⟨g1, g2, -⟩ := npSum_signed (hS [mul v.1 w.1, mul v.2.1 w.2.1, mul v.2.2 w.2.2])
    (by
      intro x hx
      simp only [List.mem_cons, List.not_mem_nil, or_false] at hx
      rcases hx with rfl | rfl | rfl
      · exact f1
      · exact f2
      · exact f3) (by simp)
    (hsz.trans (by
      have : 9 * B + 3 * (1 / 2 ^ 1000) ≤ (2 : ℝ) ^ 64 := by norm_num at hB t2 ⊢; linarith
      exact this.trans (pow_le_pow_right₀ (by norm_num) (by norm_num))))
  refine ⟨g1, ?_⟩
  have ht : (FloatEnergy.total [mul v.1 w.1, mul v.2.1 w.2.1, mul v.2.2 w.2.2] : ℝ) =
      (mul v.1 w.1).num + ((mul v.2.1 w.2.1).num + (mul v.2.2 w.2.2).num) := by
    simp [FloatEnergy.total]
  rw [ht] at g2
  have hw3 : (FloatError.w ^ [mul v.1 w.1, mul v.2.1 w.2.1, mul v.2.2 w.2.2].length - 1) * size [mul v.1 w.1, mul v.2.1 w.2.1, mul v.2.2 w.2.2] ≤
      1 / 2 ^ 50 * (9 * B + 3 * (1 / 2 ^ 1000)) := by
    refine mul_le_mul pow_w_three hsz hsz0 (by positivity)
  have h5 := g2.trans hw3
  unfold dot inner3 real3
  generalize ((S [mul v.1 w.1, mul v.2.1 w.2.1, mul v.2.2 w.2.2]).num : ℝ) = s at *
  generalize ((mul v.1 w.1).num : ℝ) = m1 at *
  generalize ((mul v.2.1 w.2.1).num : ℝ) = m2 at *
  generalize ((mul v.2.2 w.2.2).num : ℝ) = m3 at *
  generalize (1 : ℝ) / 2 ^ 1000 = t at *
  generalize (1 : ℝ) / 2 ^ 990 = u at *
  simp only
  generalize (v.1.num : ℝ) * w.1.num = x1 at *
  generalize (v.2.1.num : ℝ) * w.2.1.num = x2 at *
  generalize (v.2.2.num : ℝ) * w.2.2.num = x3 at *
  clear * - h5 a1 a2 a3 t0 t1 B0
  rw [abs_le] at *
  norm_num at *
  constructor <;> linarith

theorem pointing_le (θ φ : ℝ) : |(pointing θ φ).1| ≤ 1 ∧ |(pointing θ φ).2.1| ≤ 1 ∧ |(pointing θ φ).2.2| ≤ 1 := by
  have h1 := Real.abs_sin_le_one θ
  refine ⟨?_, ?_, Real.abs_cos_le_one θ⟩
  · simp only [pointing, abs_mul]
    exact mul_le_one₀ h1 (abs_nonneg _) (Real.abs_cos_le_one φ)
  · simp only [pointing, abs_mul]
    exact mul_le_one₀ h1 (abs_nonneg _) (Real.abs_sin_le_one φ)

theorem pointing_unit (θ φ : ℝ) : inner3 (pointing θ φ) (pointing θ φ) = 1 := by
  simp only [inner3, pointing]
  have h1 := Real.sin_sq_add_cos_sq θ
  have h2 := Real.sin_sq_add_cos_sq φ
  linear_combination Real.sin θ ^ 2 * h2 + h1

theorem near_bounded {v : FVec} {V : ℝ × ℝ × ℝ} {ε : ℝ} (h : Near3 v V ε) (hV : |V.1| ≤ 1 ∧ |V.2.1| ≤ 1 ∧ |V.2.2| ≤ 1) (hε : ε ≤ 1) : Bounded3 v 2 := by
  obtain ⟨a, b, c⟩ := hV
  obtain ⟨f, h1, h2, h3⟩ := h
  refine ⟨f, ?_, ?_, ?_⟩ <;> rw [abs_le] at * <;> constructor <;> linarith

/-- The product of a sine or cosine with another. -/
theorem mul_circle {x y : PyFloat} {X Y ε : ℝ} (hx : FinD x) (hy : FinD y) (h1 : |(x.num : ℝ) - X| ≤ ε) (h2 : |(y.num : ℝ) - Y| ≤ ε)
    (X1 : |X| ≤ 1) (Y1 : |Y| ≤ 1) (hε : ε ≤ 1 / 2 ^ 20) : FinD (mul x y) ∧ |((mul x y).num : ℝ) - X * Y| ≤ 3 * ε + 1 / 2 ^ 52 := by
  have ε0 : 0 ≤ ε := (abs_nonneg _).trans h1
  have t1 : (1 : ℝ) / 2 ^ 1000 ≤ 1 / 2 ^ 100 := by gcongr <;> norm_num
  have hX : |(x.num : ℝ)| ≤ 1 + ε := by rw [abs_le] at *; constructor <;> linarith
  have e : |(x.num : ℝ) * y.num - X * Y| ≤ (1 + ε) * ε + ε := by
    have : (x.num : ℝ) * y.num - X * Y = x.num * (y.num - Y) + (x.num - X) * Y := by ring
    rw [this]
    refine (abs_add_le _ _).trans ?_
    rw [abs_mul, abs_mul]
    have i1 : |(x.num : ℝ)| * |(y.num : ℝ) - Y| ≤ (1 + ε) * ε := by gcongr
    have i2 : |(x.num : ℝ) - X| * |Y| ≤ ε * 1 := by gcongr
    linarith
  have e2 : ε * ε ≤ 1 / 2 ^ 20 * ε := by gcongr
  have hXY : |X * Y| ≤ 1 := by rw [abs_mul]; exact mul_le_one₀ X1 (abs_nonneg _) Y1
  have hp : |(x.num : ℝ) * y.num| ≤ 1 + 3 * ε := by
    clear t1 hX h1 h2
    generalize (x.num : ℝ) * y.num = p at *
    generalize X * Y = q at *
    norm_num at *
    rw [abs_le] at *; constructor <;> linarith
  obtain ⟨f, g⟩ := mul_real hx hy (k := 2) (hp.trans (by norm_num at *; linarith)) (by norm_num)
  refine ⟨f, ?_⟩
  generalize (1 : ℝ) / 2 ^ 1000 = t at *
  clear hX h1 h2
  have g2 : |(x.num : ℝ) * y.num| / 2 ^ 53 ≤ (1 + 3 * ε) / 2 ^ 53 := by gcongr
  have g3 := g.trans (add_le_add_left g2 t)
  clear g g2 hp
  generalize (x.num : ℝ) * y.num = p at *
  generalize X * Y = q at *
  norm_num at *
  rw [abs_le] at g3 e ⊢
  constructor <;> linarith

theorem one_mul_fd {o x : PyFloat} (ho : FinD o ∧ o.num = 1) (hx : FinD x) : FinD (mul o x) ∧ (mul o x).num = x.num := by
  have hmax : |o.num * x.num| ≤ maxDouble := by
    rw [ho.2, one_mul]
    obtain ⟨s, a, rfl, ha⟩ := hx
    have h0 := ha.nonneg
    cases s <;> simpa [PyFloat.num, abs_of_nonneg h0] using ha.le_max
  have := mul_num ho.1 hx hmax
  rwa [ho.2, one_mul, num_double hx] at this

/-- `rectangular_coordinates_from_spherical(1, θ, φ)`, where the angles are close to given ones. -/
theorem rect_near {T : SineLib} (hT : GoodCircle T) {o θ φ : PyFloat} (ho : FinD o ∧ o.num = 1) (hθ : FinD θ) (hφ : FinD φ)
    (h1 : |(θ.num : ℝ)| ≤ 8) (h2 : |(φ.num : ℝ)| ≤ 8) {Θ Φ ε : ℝ} (e1 : |(θ.num : ℝ) - Θ| ≤ ε) (e2 : |(φ.num : ℝ) - Φ| ≤ ε) (hε : ε ≤ 1 / 2 ^ 21) :
    Near3 (rawRect T (o, θ, φ)) (pointing Θ Φ) (3 * ε + 1 / 2 ^ 48) := by
  have ε0 : 0 ≤ ε := (abs_nonneg _).trans e1
  obtain ⟨s1, s2⟩ := hT.sin θ hθ h1
  obtain ⟨c1, c2⟩ := hT.cos θ hθ h1
  obtain ⟨s3, s4⟩ := hT.sin φ hφ h2
  obtain ⟨c3, c4⟩ := hT.cos φ hφ h2
  have lip : ∀ x y : ℝ, |x - y| ≤ ε → |Real.sin x - Real.sin y| ≤ ε ∧ |Real.cos x - Real.cos y| ≤ ε := fun x y h =>
    ⟨(Real.abs_sin_sub_sin_le x y).trans h, (Real.abs_cos_sub_cos_le x y).trans h⟩
  have tri : ∀ a b c : ℝ, |a - b| ≤ 1 / 2 ^ 50 → |b - c| ≤ ε → |a - c| ≤ ε + 1 / 2 ^ 50 := by
    intro a b c u v
    rw [abs_le] at *
    constructor <;> linarith
  have S1 := tri _ _ _ s2 (lip _ _ e1).1
  have C1 := tri _ _ _ c2 (lip _ _ e1).2
  have S2 := tri _ _ _ s4 (lip _ _ e2).1
  have C2 := tri _ _ _ c4 (lip _ _ e2).2
  have m := one_mul_fd ho s1
  have m' := one_mul_fd ho c1
  have hε' : ε + 1 / 2 ^ 50 ≤ 1 / 2 ^ 20 := by norm_num at *; linarith
  have x1 := mul_circle m.1 c3 (by rw [m.2]; exact S1) C2 (Real.abs_sin_le_one _) (Real.abs_cos_le_one _) hε'
  have x2 := mul_circle m.1 s3 (by rw [m.2]; exact S1) S2 (Real.abs_sin_le_one _) (Real.abs_sin_le_one _) hε'
  refine ⟨⟨x1.1, x2.1, m'.1⟩, x1.2.trans ?_, x2.2.trans ?_, ?_⟩
  · norm_num; linarith
  · norm_num; linarith
  · change |((mul o (T.cos θ)).num : ℝ) - Real.cos Θ| ≤ _
    rw [m'.2]
    refine C1.trans ?_
    norm_num; linarith

theorem inner_diff {u v U V : ℝ × ℝ × ℝ} {ε δ m M : ℝ} (h1 : |u.1 - U.1| ≤ ε ∧ |u.2.1 - U.2.1| ≤ ε ∧ |u.2.2 - U.2.2| ≤ ε)
    (h2 : |v.1 - V.1| ≤ δ ∧ |v.2.1 - V.2.1| ≤ δ ∧ |v.2.2 - V.2.2| ≤ δ) (h3 : |v.1| ≤ m ∧ |v.2.1| ≤ m ∧ |v.2.2| ≤ m)
    (h4 : |U.1| ≤ M ∧ |U.2.1| ≤ M ∧ |U.2.2| ≤ M) : |inner3 u v - inner3 U V| ≤ 3 * (ε * m + M * δ) := by
  have key : ∀ a b A B : ℝ, |a - A| ≤ ε → |b - B| ≤ δ → |b| ≤ m → |A| ≤ M → |a * b - A * B| ≤ ε * m + M * δ := by
    intro a b A B i1 i2 i3 i4
    have ε0 := (abs_nonneg _).trans i1
    have M0 := (abs_nonneg _).trans i4
    have : a * b - A * B = (a - A) * b + A * (b - B) := by ring
    rw [this]
    refine (abs_add_le _ _).trans ?_
    rw [abs_mul, abs_mul]
    gcongr
  have k1 := key _ _ _ _ h1.1 h2.1 h3.1 h4.1
  have k2 := key _ _ _ _ h1.2.1 h2.2.1 h3.2.1 h4.2.1
  have k3 := key _ _ _ _ h1.2.2 h2.2.2 h3.2.2 h4.2.2
  unfold inner3
  rw [abs_le] at *
  constructor <;> linarith

theorem tiny_le {a b : ℕ} (h : b ≤ a) : (1 : ℝ) / 2 ^ a ≤ 1 / 2 ^ b :=
  one_div_le_one_div_of_le (by positivity) (pow_le_pow_right₀ (by norm_num) h)

/-- The length of the direction of the observer. -/
theorem length_ok {L : DescLib} (hL : GoodDesc L) {S : List PyFloat → PyFloat} (hS : ∀ xs, IsNpSum xs (S xs)) {d : FVec} {D : ℝ × ℝ × ℝ}
    (hd : Near3 d D (1 / 2 ^ 47)) (hD : |D.1| ≤ 1 ∧ |D.2.1| ≤ 1 ∧ |D.2.2| ≤ 1) (hu : inner3 D D = 1) :
    FinD (dirLength L S d) ∧ |((dirLength L S d).num : ℝ) - 1| ≤ 1 / 2 ^ 42 := by
  have hb := near_bounded hd hD (by norm_num)
  obtain ⟨f, e⟩ := dot_ok hS hb hb (by norm_num)
  have i := inner_diff (u := real3 d) (v := real3 d) (U := D) (V := D) ⟨hd.first, hd.second, hd.third⟩ ⟨hd.first, hd.second, hd.third⟩
    ⟨hb.first, hb.second, hb.third⟩ hD
  rw [hu] at i
  have t := tiny_le (a := 990) (b := 100) (by norm_num)
  have h1 : |((dot S d d).num : ℝ) - 1| ≤ 1 / 2 ^ 43 := by
    generalize (1 : ℝ) / 2 ^ 990 = t at *
    norm_num at *
    rw [abs_le] at *
    constructor <;> linarith
  have h0 : (1 : ℝ) / 2 ≤ (dot S d d).num := by
    rw [abs_le] at h1
    norm_num at *
    linarith
  have h0' : 0 ≤ (dot S d d).num := by
    have : (0 : ℝ) ≤ (dot S d d).num := by linarith
    exact_mod_cast this
  obtain ⟨g1, -, g2⟩ := hL.root _ f h0'
  refine ⟨g1, ?_⟩
  unfold dirLength
  have h2 : |Real.sqrt (dot S d d).num - 1| ≤ 1 / 2 ^ 43 := by
    have q := Real.sq_sqrt (show (0 : ℝ) ≤ (dot S d d).num by linarith)
    have r := Real.sqrt_nonneg ((dot S d d).num : ℝ)
    generalize Real.sqrt (dot S d d).num = s at *
    rw [← q] at h1
    rw [show s ^ 2 - 1 = (s - 1) * (s + 1) by ring, abs_mul, abs_of_nonneg (by linarith : 0 ≤ s + 1)] at h1
    refine le_trans ?_ h1
    exact le_mul_of_one_le_right (abs_nonneg _) (by linarith)
  generalize ((L.root (dot S d d)).num : ℝ) = l at *
  generalize Real.sqrt (dot S d d).num = s at *
  norm_num at *
  rw [abs_le] at *
  constructor <;> linarith

theorem unit_entry {x l : PyFloat} {X : ℝ} (hx : FinD x) (hl : FinD l) (h1 : |(x.num : ℝ) - X| ≤ 1 / 2 ^ 47) (hX : |X| ≤ 1)
    (h2 : |(l.num : ℝ) - 1| ≤ 1 / 2 ^ 42) : FinD (div x l) ∧ |((div x l).num : ℝ) - X| ≤ 1 / 2 ^ 39 := by
  have l0 : (1 : ℝ) / 2 ≤ l.num := by rw [abs_le] at h2; norm_num at *; linarith
  have lp : (0 : ℝ) < l.num := by linarith
  have hxa : |(x.num : ℝ)| ≤ 3 / 2 := by norm_num at h1; rw [abs_le] at *; constructor <;> linarith
  have hq : |(x.num : ℝ) / l.num - x.num| ≤ 3 / 2 ^ 42 := by
    have : (x.num : ℝ) / l.num - x.num = x.num / l.num * (1 - l.num) := by field_simp
    rw [this, abs_mul, abs_div, abs_of_pos lp, abs_sub_comm 1]
    calc |(x.num : ℝ)| / l.num * |(l.num : ℝ) - 1| ≤ (3 / 2) / (1 / 2) * (1 / 2 ^ 42) := by gcongr
      _ = 3 / 2 ^ 42 := by ring
  have hs : |(x.num : ℝ) / l.num| ≤ 2 := by
    norm_num at hq; rw [abs_le] at *; constructor <;> linarith
  obtain ⟨f, e⟩ := div_real hx hl lp.ne' (k := 1) (by simpa using hs) (by norm_num)
  refine ⟨f, ?_⟩
  have ht := tiny_le (a := 1000) (b := 100) (by norm_num)
  generalize (1 : ℝ) / 2 ^ 1000 = t at *
  have e2 : |(x.num : ℝ) / l.num| / 2 ^ 53 ≤ 2 / 2 ^ 53 := by gcongr
  have e3 := e.trans (add_le_add_left e2 t)
  clear e e2 hs
  generalize (x.num : ℝ) / l.num = q at *
  norm_num at *
  rw [abs_le] at *
  constructor <;> linarith

/-- The visible fraction of a facet. -/
theorem fraction_ok {L : DescLib} (hL : GoodDesc L) {S : List PyFloat → PyFloat} (hS : ∀ xs, IsNpSum xs (S xs)) {d n : FVec} {D N : ℝ × ℝ × ℝ}
    (hd : Near3 d D (1 / 2 ^ 47)) (hD : |D.1| ≤ 1 ∧ |D.2.1| ≤ 1 ∧ |D.2.2| ≤ 1) (hu : inner3 D D = 1)
    (hn : Near3 n N (1 / 2 ^ 44)) (hN : |N.1| ≤ 1 ∧ |N.2.1| ≤ 1 ∧ |N.2.2| ≤ 1) :
    FinD (fraction L S d n) ∧ 0 ≤ (fraction L S d n).num ∧ |((fraction L S d n).num : ℝ) - max 0 (inner3 D N)| ≤ 1 / 2 ^ 36 ∧
      (inner3 D N ≤ -(1 / 2 ^ 36) → fraction L S d n = fin false 0) := by
  obtain ⟨l1, l2⟩ := length_ok hL hS hd hD hu
  obtain ⟨a1, a2⟩ := unit_entry hd.finite.1 l1 hd.first hD.1 l2
  obtain ⟨b1, b2⟩ := unit_entry hd.finite.2.1 l1 hd.second hD.2.1 l2
  obtain ⟨c1, c2⟩ := unit_entry hd.finite.2.2 l1 hd.third hD.2.2 l2
  have hnear : Near3 (unitDir L S d) D (1 / 2 ^ 39) := ⟨⟨a1, b1, c1⟩, a2, b2, c2⟩
  have hb := near_bounded hnear hD (by norm_num)
  have hbn := near_bounded hn hN (by norm_num)
  obtain ⟨f, e⟩ := dot_ok hS hb hbn (by norm_num)
  have i := inner_diff (u := real3 (unitDir L S d)) (v := real3 n) (U := D) (V := N) ⟨a2, b2, c2⟩ ⟨hn.first, hn.second, hn.third⟩
    ⟨hbn.first, hbn.second, hbn.third⟩ hD
  have t := tiny_le (a := 990) (b := 100) (by norm_num)
  have key : |((dot S (unitDir L S d) n).num : ℝ) - inner3 D N| ≤ 15 / 2 ^ 40 := by
    generalize (1 : ℝ) / 2 ^ 990 = t at *
    norm_num at *
    rw [abs_le] at *
    constructor <;> linarith
  have hlt := lt_fin zero_fd f
  rw [show (fin false 0).num = 0 from rfl] at hlt
  unfold fraction
  by_cases hp : 0 < (dot S (unitDir L S d) n).num
  · rw [if_pos (hlt.2 hp)]
    have hp' : (0 : ℝ) < (dot S (unitDir L S d) n).num := by exact_mod_cast hp
    refine ⟨f, hp.le, ?_, ?_⟩
    · refine le_trans ?_ (key.trans (by norm_num))
      rcases le_total 0 (inner3 D N) with h | h
      · rw [max_eq_right h]
      · rw [max_eq_left h, sub_zero, abs_of_pos hp']
        exact le_trans (by linarith) (le_abs_self _)
    · intro h
      exfalso
      generalize ((dot S (unitDir L S d) n).num : ℝ) = z at *
      clear * - key h hp'
      rw [abs_le] at key
      norm_num at *
      linarith
  · rw [if_neg (by rw [hlt]; exact hp)]
    have hp' : ((dot S (unitDir L S d) n).num : ℝ) ≤ 0 := by exact_mod_cast not_lt.1 hp
    refine ⟨zero_fd, le_refl 0, ?_, fun _ => rfl⟩
    rw [show (fin false 0).num = 0 from rfl, Rat.cast_zero, zero_sub, abs_neg, abs_of_nonneg (le_max_left _ _)]
    refine max_le (by norm_num) ?_
    generalize ((dot S (unitDir L S d) n).num : ℝ) = z at *
    clear * - key hp'
    rw [abs_le] at key
    norm_num at *
    linarith

/-- The visible area of a facet. -/
theorem visible_ok {L : DescLib} (hL : GoodDesc L) {S : List PyFloat → PyFloat} (hS : ∀ xs, IsNpSum xs (S xs)) {d : FVec} {D N : ℝ × ℝ × ℝ}
    (hd : Near3 d D (1 / 2 ^ 47)) (hD : |D.1| ≤ 1 ∧ |D.2.1| ≤ 1 ∧ |D.2.2| ≤ 1) (hu : inner3 D D = 1) {x : PyFloat × FVec × FVec}
    (ha : FinD x.1 ∧ 0 ≤ (x.1.num : ℝ) ∧ (x.1.num : ℝ) ≤ 16) (hn : Near3 x.2.1 N (1 / 2 ^ 44)) (hN : |N.1| ≤ 1 ∧ |N.2.1| ≤ 1 ∧ |N.2.2| ≤ 1) :
    FinD (visibleArea L S d x) ∧ 0 ≤ ((visibleArea L S d x).num : ℝ) ∧ 0 ≤ max 0 (inner3 D N) ∧ max 0 (inner3 D N) ≤ 3 ∧
      |((visibleArea L S d x).num : ℝ) - x.1.num * max 0 (inner3 D N)| ≤ x.1.num / 2 ^ 35 + 1 / 2 ^ 1000 ∧
      (inner3 D N ≤ -(1 / 2 ^ 36) → (visibleArea L S d x).num = 0) := by
  obtain ⟨a1, a2, a3⟩ := ha
  obtain ⟨f1, f2, f3, f4⟩ := fraction_ok hL hS hd hD hu hn hN
  have w0 : 0 ≤ max 0 (inner3 D N) := le_max_left _ _
  have w3 : max 0 (inner3 D N) ≤ 3 := by
    have h : ∀ a b : ℝ, |a| ≤ 1 → |b| ≤ 1 → a * b ≤ 1 := fun a b h1 h2 =>
      (le_abs_self _).trans (by rw [abs_mul]; exact mul_le_one₀ h1 (abs_nonneg _) h2)
    refine max_le (by norm_num) ?_
    unfold inner3
    linarith [h _ _ hD.1 hN.1, h _ _ hD.2.1 hN.2.1, h _ _ hD.2.2 hN.2.2]
  have f2' : (0 : ℝ) ≤ (fraction L S d x.2.1).num := by exact_mod_cast f2
  have g4 : ((fraction L S d x.2.1).num : ℝ) ≤ 4 := by
    have := (abs_le.1 f3).2
    norm_num at this
    linarith
  have hp0 : 0 ≤ (x.1.num : ℝ) * (fraction L S d x.2.1).num := mul_nonneg a2 f2'
  have hp1 : (x.1.num : ℝ) * (fraction L S d x.2.1).num ≤ x.1.num * 4 := by gcongr
  obtain ⟨m1, m2⟩ := mul_real a1 f1 (k := 6) (by rw [abs_of_nonneg hp0]; norm_num; linarith) (by norm_num)
  refine ⟨m1, ?_, w0, w3, ?_, ?_⟩
  · have hp0' : 0 ≤ x.1.num * (fraction L S d x.2.1).num := by exact_mod_cast hp0
    have := mul_nonneg_num a1 f1 hp0' (by
      have := le_max_of_real (q := x.1.num * (fraction L S d x.2.1).num) (k := 6)
        (by push_cast; rw [abs_of_nonneg hp0]; norm_num; linarith) (by norm_num)
      rwa [abs_of_nonneg hp0'] at this)
    exact_mod_cast this
  · rw [abs_of_nonneg hp0] at m2
    have e : |(x.1.num : ℝ) * (fraction L S d x.2.1).num - x.1.num * max 0 (inner3 D N)| ≤ x.1.num / 2 ^ 36 := by
      rw [← mul_sub, abs_mul, abs_of_nonneg a2, div_eq_mul_one_div]
      gcongr
    unfold visibleArea
    generalize (x.1.num : ℝ) * (fraction L S d x.2.1).num = p at *
    generalize (x.1.num : ℝ) * max 0 (inner3 D N) = q at *
    generalize (1 : ℝ) / 2 ^ 1000 = t at *
    generalize ((mul x.1 (fraction L S d x.2.1)).num : ℝ) = z at *
    clear * - m2 e hp1 a2
    norm_num at *
    rw [abs_le] at *
    constructor <;> linarith
  · intro h
    unfold visibleArea
    have e0 := f4 h
    have hz : (fraction L S d x.2.1).num = 0 := by rw [e0]; rfl
    rw [(mul_num a1 f1 (by rw [hz, mul_zero, abs_zero]; exact isDouble_zero.le_max)).2, hz, mul_zero, rnd_zero]

/-- The component of the field of a facet in the direction of the observer. -/
theorem parallel_ok {S : List PyFloat → PyFloat} (hS : ∀ xs, IsNpSum xs (S xs)) {d b : FVec} {D : ℝ × ℝ × ℝ}
    (hd : Near3 d D (1 / 2 ^ 47)) (hD : |D.1| ≤ 1 ∧ |D.2.1| ≤ 1 ∧ |D.2.2| ≤ 1) {M : ℝ} (hb : Bounded3 b M) (hM : M ≤ 2 ^ 50) :
    FinD (dot S b d) ∧ |((dot S b d).num : ℝ) - inner3 (real3 b) D| ≤ M / 2 ^ 44 + 1 / 2 ^ 990 ∧ |inner3 (real3 b) D| ≤ 3 * M := by
  have M0 : 0 ≤ M := (abs_nonneg _).trans hb.first
  obtain ⟨f, e⟩ := dot_ok hS hb (near_bounded hd hD (by norm_num)) (hM.trans (by norm_num))
  have i := inner_diff (u := real3 b) (v := real3 d) (U := real3 b) (V := D) (ε := 0) (m := 2) (M := M) (δ := 1 / 2 ^ 47)
    (by simp) ⟨hd.first, hd.second, hd.third⟩
    (by have := near_bounded hd hD (by norm_num); exact ⟨this.first, this.second, this.third⟩) ⟨hb.first, hb.second, hb.third⟩
  refine ⟨f, ?_, ?_⟩
  · generalize ((dot S b d).num : ℝ) = z at *
    generalize inner3 (real3 b) (real3 d) = p at *
    generalize inner3 (real3 b) D = q at *
    generalize (1 : ℝ) / 2 ^ 990 = t at *
    clear * - e i M0
    norm_num at *
    rw [abs_le] at *
    constructor <;> linarith
  · have h : ∀ a b : ℝ, |a| ≤ M → |b| ≤ 1 → |a * b| ≤ M := fun a b h1 h2 => by
      rw [abs_mul]; exact (mul_le_mul h1 h2 (abs_nonneg _) M0).trans (by rw [mul_one])
    have k1 := h _ _ hb.first hD.1
    have k2 := h _ _ hb.second hD.2.1
    have k3 := h _ _ hb.third hD.2.2
    simp only [inner3, real3]
    rw [abs_le] at *
    constructor <;> linarith

theorem s_le {s r : ℝ} (h : 0 ≤ s) (h' : s ≤ r) : 0 ≤ r := h.trans h'

/-- A term of the sum in the numerator. -/
theorem weighted_ok {p v : PyFloat} {P a W M : ℝ} (hp : FinD p) (hv : FinD v) (M0 : 0 ≤ M) (hM : M ≤ 2 ^ 50) (h1 : |(p.num : ℝ) - P| ≤ M / 2 ^ 44 + 1 / 2 ^ 990)
    (h2 : |P| ≤ 3 * M) (a0 : 0 ≤ a) (a1 : a ≤ 16) (W0 : 0 ≤ W) (W3 : W ≤ 3) (v0 : 0 ≤ (v.num : ℝ)) (h3 : |(v.num : ℝ) - a * W| ≤ a / 2 ^ 35 + 1 / 2 ^ 1000) :
    FinD (mul p v) ∧ |((mul p v).num : ℝ) - P * (a * W)| ≤ M * a / 2 ^ 32 + 1 / 2 ^ 930 := by
  have t0 : (0 : ℝ) ≤ 1 / 2 ^ 990 := by positivity
  have t1 : (0 : ℝ) ≤ 1 / 2 ^ 1000 := by positivity
  have t2 := tiny_le (a := 990) (b := 935) (by norm_num)
  have t4 : (1 : ℝ) / 2 ^ 1000 * 2 ^ 60 ≤ 1 / 2 ^ 935 := by
    rw [div_mul_eq_mul_div, one_mul, div_le_div_iff₀ (by positivity) (by positivity), one_mul, ← pow_add]
    exact pow_le_pow_right₀ (by norm_num) (by norm_num)
  have t5 : (1 : ℝ) / 2 ^ 990 * 2 ^ 10 ≤ 1 / 2 ^ 935 := by
    rw [div_mul_eq_mul_div, one_mul, div_le_div_iff₀ (by positivity) (by positivity), one_mul, ← pow_add]
    exact pow_le_pow_right₀ (by norm_num) (by norm_num)
  have t6 : (1 : ℝ) / 2 ^ 935 * 2 ^ 5 ≤ 1 / 2 ^ 930 := by
    rw [div_mul_eq_mul_div, one_mul, div_le_div_iff₀ (by positivity) (by positivity), one_mul, ← pow_add]
  have t3 := tiny_le (a := 935) (b := 100) (by norm_num)
  generalize (1 : ℝ) / 2 ^ 990 = s at *
  generalize ht : (1 : ℝ) / 2 ^ 1000 = t at *
  generalize (1 : ℝ) / 2 ^ 935 = r at *
  generalize (1 : ℝ) / 2 ^ 930 = z at *
  have aM : 0 ≤ M * a := by positivity
  have aW : a * W ≤ a * 3 := by gcongr
  have aW0 : 0 ≤ a * W := by positivity
  have hpa : |(p.num : ℝ)| ≤ 4 * M + s := by
    have : M / 2 ^ 44 ≤ M := div_le_self M0 (by norm_num)
    rw [abs_le] at *
    constructor <;> linarith
  have d1 : |(p.num : ℝ) * (v.num - a * W)| ≤ (4 * M + s) * (a / 2 ^ 35 + t) := by
    rw [abs_mul]; gcongr
  have d2 : |((p.num : ℝ) - P) * (a * W)| ≤ (M / 2 ^ 44 + s) * (a * 3) := by
    rw [abs_mul, abs_of_nonneg aW0]
    have : 0 ≤ M / 2 ^ 44 + s := by positivity
    gcongr
  have e : |(p.num : ℝ) * v.num - P * (a * W)| ≤ 5 * (M * a) / 2 ^ 35 + 3 * r := by
    have : (p.num : ℝ) * v.num - P * (a * W) = p.num * (v.num - a * W) + (p.num - P) * (a * W) := by ring
    rw [this]
    refine (abs_add_le _ _).trans ((add_le_add d1 d2).trans ?_)
    have mt : M * t ≤ 2 ^ 50 * t := by gcongr
    have sa : s * a ≤ s * 16 := by gcongr
    have st : s * t ≤ s * 1 := by gcongr; rw [← ht]; rw [div_le_one (by positivity)]; exact one_le_pow₀ (by norm_num)
    clear ht d1 d2 this
    norm_num at *
    linarith
  have hP : |P * (a * W)| ≤ 9 * (M * a) := by
    rw [abs_mul, abs_of_nonneg aW0]
    calc |P| * (a * W) ≤ (3 * M) * (a * 3) := by gcongr
      _ = 9 * (M * a) := by ring
  have hMa : M * a ≤ 2 ^ 50 * 16 := by gcongr
  have r0 : 0 ≤ r := s_le t0 t2
  have hq : |(p.num : ℝ) * v.num| ≤ 10 * (M * a) + 3 * r := by
    have : 5 * (M * a) / 2 ^ 35 ≤ M * a := by norm_num; linarith
    rw [abs_le] at *
    constructor <;> linarith
  obtain ⟨f, g⟩ := mul_real hp hv (k := 60) (hq.trans (by norm_num at *; linarith)) (by norm_num)
  refine ⟨f, ?_⟩
  rw [ht] at g
  have g2 : |(p.num : ℝ) * v.num| / 2 ^ 53 ≤ (10 * (M * a) + 3 * r) / 2 ^ 53 := by gcongr
  have g3 := g.trans (add_le_add_left g2 t)
  have hE : (10 * (M * a) + 3 * r) / 2 ^ 53 + t + (5 * (M * a) / 2 ^ 35 + 3 * r) ≤ M * a / 2 ^ 32 + z := by
    clear * - aM r0 t0 t1 t4 t6
    norm_num at *
    linarith
  generalize ((mul p v).num : ℝ) = m at *
  generalize (p.num : ℝ) * v.num = q at *
  rw [abs_le] at *
  constructor <;> linarith

/-! ### The average -/

theorem total_map {α : Type*} (xs : List α) (g : α → PyFloat) : (FloatEnergy.total (xs.map g) : ℝ) = (xs.map fun x => ((g x).num : ℝ)).sum := by
  induction xs with
  | nil => simp [FloatEnergy.total]
  | cons x xs ih =>
    have : FloatEnergy.total ((x :: xs).map g) = (g x).num + FloatEnergy.total (xs.map g) := by simp [FloatEnergy.total]
    rw [this, List.map_cons, List.sum_cons, ← ih]
    push_cast
    rfl

theorem size_map {α : Type*} (xs : List α) (g : α → PyFloat) : size (xs.map g) = (xs.map fun x => |((g x).num : ℝ)|).sum := by
  unfold size
  rw [List.map_map]
  rfl

theorem sum_affine {α : Type*} (xs : List α) (a : α → ℝ) (c t : ℝ) : (xs.map fun x => c * a x + t).sum = c * (xs.map a).sum + xs.length * t := by
  induction xs with
  | nil => simp
  | cons x xs ih =>
    simp only [List.map_cons, List.sum_cons, List.length_cons, ih]
    push_cast
    ring

theorem sum_le' {α : Type*} (xs : List α) {f g : α → ℝ} (h : ∀ x ∈ xs, f x ≤ g x) : (xs.map f).sum ≤ (xs.map g).sum := by
  induction xs with
  | nil => simp
  | cons x xs ih =>
    simp only [List.map_cons, List.sum_cons]
    linarith [h x (by simp), ih fun y hy => h y (by simp [hy])]

/-- `np.sum` of terms close to given ones. -/
theorem sum_near {α : Type*} (xs : List α) {g : α → PyFloat} {t a : α → ℝ} {c z A : ℝ} {s : PyFloat} (hs : IsNpSum (xs.map g) s) (hn : xs.length ≤ 2 ^ 24)
    (hg : ∀ x ∈ xs, FinD (g x)) (he : ∀ x ∈ xs, |((g x).num : ℝ) - t x| ≤ c * a x + z) (hA : (xs.map a).sum ≤ A) (c0 : 0 ≤ c) (z0 : 0 ≤ z)
    (hT : (xs.map fun x => |t x|).sum + (c * A + 2 ^ 24 * z) ≤ 2 ^ 900) :
    FinD s ∧ |(s.num : ℝ) - (xs.map t).sum| ≤ (xs.map fun x => |t x|).sum / 2 ^ 27 + 2 * (c * A + 2 ^ 24 * z) := by
  have h1 : (xs.map fun x => c * a x + z).sum ≤ c * A + 2 ^ 24 * z := by
    rw [sum_affine]
    have : (xs.length : ℝ) ≤ 2 ^ 24 := by exact_mod_cast hn
    gcongr
  have h2 := (sum_diff xs he).trans h1
  have h3 : size (xs.map g) ≤ (xs.map fun x => |t x|).sum + (c * A + 2 ^ 24 * z) := by
    rw [size_map]
    have := (abs_le.1 (sum_diff xs (f := fun x => |((g x).num : ℝ)|) (g := fun x => |t x|) fun x hx =>
      (abs_abs_sub_abs_le_abs_sub _ _).trans (he x hx))).2
    linarith
  obtain ⟨f, e, -⟩ := npSum_signed hs
    (by intro y hy; obtain ⟨x, hx, rfl⟩ := List.mem_map.1 hy; exact hg x hx) (by simpa using hn) (h3.trans hT)
  refine ⟨f, ?_⟩
  rw [total_map, List.length_map] at e
  have hw := pow_w_small hn
  have s0 := size_nonneg (xs.map g)
  have e2 : (w ^ xs.length - 1) * size (xs.map g) ≤ 1 / 2 ^ 27 * ((xs.map fun x => |t x|).sum + (c * A + 2 ^ 24 * z)) :=
    mul_le_mul hw h3 s0 (by positivity)
  have e3 := e.trans e2
  have k0 : 0 ≤ c * A + 2 ^ 24 * z := (abs_nonneg _).trans h2
  generalize c * A + 2 ^ 24 * z = k at *
  generalize (xs.map fun x => ((g x).num : ℝ)).sum = G at *
  generalize (xs.map fun x => |t x|).sum = T at *
  generalize (xs.map t).sum = F at *
  clear * - e3 h2 k0
  norm_num at *
  rw [abs_le] at *
  constructor <;> linarith

theorem quot_near {n d F V M z : ℝ} (M0 : 0 ≤ M) (z0 : 0 ≤ z) (hV : 1 / 2 ^ 10 ≤ V) (hF : |F| ≤ 3 * M * V)
    (hn : |n - F| ≤ M * V / 2 ^ 25 + M / 2 ^ 27 + z) (hd : |d - V| ≤ V / 2 ^ 26 + 1 / 2 ^ 30) :
    0 < d ∧ |n / d - F / V| ≤ M * (1 / 2 ^ 23 + 1 / 2 ^ 26 / V) + 2 ^ 12 * z ∧ |F / V| ≤ 3 * M := by
  have V0 : 0 < V := lt_of_lt_of_le (by norm_num) hV
  have d9 : 9 / 10 * V ≤ d := by
    rw [abs_le] at hd
    norm_num at *
    linarith
  have d0 : 0 < d := by linarith
  have hG : |F / V| ≤ 3 * M := by
    rw [abs_div, abs_of_pos V0, div_le_iff₀ V0]; exact hF
  refine ⟨d0, ?_, hG⟩
  have e : n / d - F / V = ((n - F) - F / V * (d - V)) / d := by field_simp; ring
  rw [e, abs_div, abs_of_pos d0, div_le_iff₀ d0]
  have e1 : |(n - F) - F / V * (d - V)| ≤ (M * V / 2 ^ 25 + M / 2 ^ 27 + z) + 3 * M * (V / 2 ^ 26 + 1 / 2 ^ 30) := by
    refine (abs_sub _ _).trans ?_
    rw [abs_mul]
    gcongr
  refine e1.trans ?_
  have R0 : 0 ≤ M * (1 / 2 ^ 23 + 1 / 2 ^ 26 / V) + 2 ^ 12 * z := by positivity
  refine le_trans ?_ (mul_le_mul_of_nonneg_left d9 R0)
  have e2 : (M * (1 / 2 ^ 23 + 1 / 2 ^ 26 / V) + 2 ^ 12 * z) * (9 / 10 * V) = 9 / 10 * (M * V / 2 ^ 23 + M / 2 ^ 26 + 2 ^ 12 * (z * V)) := by
    field_simp
  rw [e2]
  have hz : z * (1 / 2 ^ 10) ≤ z * V := by gcongr
  have hMV : 0 ≤ M * V := by positivity
  norm_num at *
  linarith

/-- The average over the visible facets. -/
theorem average_ok {L : DescLib} (hL : GoodDesc L) {S : List PyFloat → PyFloat} (hS : ∀ xs, IsNpSum xs (S xs)) {d : FVec} {D : ℝ × ℝ × ℝ}
    (hd : Near3 d D (1 / 2 ^ 47)) (hD : |D.1| ≤ 1 ∧ |D.2.1| ≤ 1 ∧ |D.2.2| ≤ 1) (hu : inner3 D D = 1) {α : Type*} (xs : List α)
    (f : α → PyFloat × FVec × FVec) (N : α → ℝ × ℝ × ℝ) {M : ℝ} (hM : M ≤ 2 ^ 50) (M0 : 0 ≤ M) (hlen : xs.length ≤ 2 ^ 24)
    (ha : ∀ x ∈ xs, FinD (f x).1 ∧ 0 ≤ ((f x).1.num : ℝ) ∧ ((f x).1.num : ℝ) ≤ 16) (htot : (xs.map fun x => ((f x).1.num : ℝ)).sum ≤ 13)
    (hn : ∀ x ∈ xs, Near3 (f x).2.1 (N x) (1 / 2 ^ 44)) (hN : ∀ x ∈ xs, |(N x).1| ≤ 1 ∧ |(N x).2.1| ≤ 1 ∧ |(N x).2.2| ≤ 1)
    (hb : ∀ x ∈ xs, Bounded3 (f x).2.2 M) {V F : ℝ} (eV : V = (xs.map fun x => ((f x).1.num : ℝ) * max 0 (inner3 D (N x))).sum)
    (eF : F = (xs.map fun x => inner3 (real3 (f x).2.2) D * (((f x).1.num : ℝ) * max 0 (inner3 D (N x)))).sum) (hV : 1 / 2 ^ 10 ≤ V) :
    FinD (longitudinal L S d (xs.map f)) ∧ |((longitudinal L S d (xs.map f)).num : ℝ) - F / V| ≤ M * (1 / 2 ^ 22 + 1 / 2 ^ 26 / V) + 1 / 2 ^ 800 := by
  have hv := fun x hx => visible_ok hL hS hd hD hu (ha x hx) (hn x hx) (hN x hx)
  have hp := fun x hx => parallel_ok hS hd hD (hb x hx) hM
  have ht := fun x hx => weighted_ok (hp x hx).1 (hv x hx).1 M0 hM (hp x hx).2.1 (hp x hx).2.2 (ha x hx).2.1 (ha x hx).2.2 (hv x hx).2.2.1
    (hv x hx).2.2.2.1 (hv x hx).2.1 (hv x hx).2.2.2.2.1
  have t1 : (2 : ℝ) ^ 24 * (1 / 2 ^ 1000) ≤ 1 / 2 ^ 905 := by
    rw [mul_one_div, div_le_div_iff₀ (by positivity) (by positivity), one_mul, ← pow_add]
    exact pow_le_pow_right₀ (by norm_num) (by norm_num)
  have t2 : (2 : ℝ) ^ 24 * (1 / 2 ^ 930) ≤ 1 / 2 ^ 905 := by
    rw [mul_one_div, div_le_div_iff₀ (by positivity) (by positivity), one_mul, ← pow_add]
    exact pow_le_pow_right₀ (by norm_num) (by norm_num)
  have t3 := tiny_le (a := 905) (b := 100) (by norm_num)
  have t4 : (0 : ℝ) ≤ 1 / 2 ^ 905 := by positivity
  have t5 : (1 : ℝ) / 2 ^ 905 * 2 ^ 20 ≤ 1 / 2 ^ 800 := by
    rw [div_mul_eq_mul_div, one_mul, div_le_div_iff₀ (by positivity) (by positivity), one_mul, ← pow_add]
    exact pow_le_pow_right₀ (by norm_num) (by norm_num)
  have t6 := tiny_le (a := 1000) (b := 905) (by norm_num)
  have big : (2 : ℝ) ^ 80 ≤ 2 ^ 900 := pow_le_pow_right₀ (by norm_num) (by norm_num)
  -- the sizes of the sums
  have vabs : (xs.map fun x => |((f x).1.num : ℝ) * max 0 (inner3 D (N x))|).sum = V := by
    rw [eV]
    congr 1
    apply List.map_congr_left
    intro x hx
    exact abs_of_nonneg (mul_nonneg (ha x hx).2.1 (hv x hx).2.2.1)
  have hV3 : V ≤ 39 := by
    rw [eV]
    have := sum_le' xs (f := fun x => ((f x).1.num : ℝ) * max 0 (inner3 D (N x))) (g := fun x => 3 * ((f x).1.num : ℝ) + 0) fun x hx => by
      have := mul_le_mul_of_nonneg_left (hv x hx).2.2.2.1 (ha x hx).2.1
      linarith
    rw [sum_affine] at this
    linarith
  have fabs : (xs.map fun x => |inner3 (real3 (f x).2.2) D * (((f x).1.num : ℝ) * max 0 (inner3 D (N x)))|).sum ≤ 3 * M * V := by
    have := sum_le' xs (f := fun x => |inner3 (real3 (f x).2.2) D * (((f x).1.num : ℝ) * max 0 (inner3 D (N x)))|)
      (g := fun x => 3 * M * (((f x).1.num : ℝ) * max 0 (inner3 D (N x))) + 0) fun x hx => by
      have h0 := mul_nonneg (ha x hx).2.1 (hv x hx).2.2.1
      rw [abs_mul, abs_of_nonneg h0, add_zero]
      exact mul_le_mul_of_nonneg_right (hp x hx).2.2 h0
    rw [sum_affine, ← eV] at this
    linarith
  have hF : |F| ≤ 3 * M * V := by
    refine le_trans ?_ fabs
    have := sum_diff xs (f := fun x => inner3 (real3 (f x).2.2) D * (((f x).1.num : ℝ) * max 0 (inner3 D (N x)))) (g := fun _ => 0)
      (e := fun x => |inner3 (real3 (f x).2.2) D * (((f x).1.num : ℝ) * max 0 (inner3 D (N x)))|) fun x _ => by simp
    simpa [← eF] using this
  have V0 : 0 ≤ V := le_trans (by norm_num) hV
  have hMV : M * V ≤ 2 ^ 50 * 39 := by gcongr
  have hMV0 : 0 ≤ M * V := by positivity
  -- the two sums
  have den := sum_near xs (g := fun x => visibleArea L S d (f x)) (t := fun x => ((f x).1.num : ℝ) * max 0 (inner3 D (N x)))
    (a := fun x => ((f x).1.num : ℝ)) (c := 1 / 2 ^ 35) (z := 1 / 2 ^ 1000) (A := 13)
    (hS _) hlen (fun x hx => (hv x hx).1) (fun x hx => by have := (hv x hx).2.2.2.2.1; rw [one_div_mul_eq_div]; exact this) htot (by positivity) (by positivity)
    (by
      rw [vabs]
      refine le_trans ?_ big
      generalize (2 : ℝ) ^ 24 * (1 / 2 ^ 1000) = t at *
      generalize (1 : ℝ) / 2 ^ 905 = s at *
      norm_num at *
      linarith)
  have num := sum_near xs (g := fun x => mul (dot S (f x).2.2 d) (visibleArea L S d (f x)))
    (t := fun x => inner3 (real3 (f x).2.2) D * (((f x).1.num : ℝ) * max 0 (inner3 D (N x))))
    (a := fun x => ((f x).1.num : ℝ)) (c := M / 2 ^ 32) (z := 1 / 2 ^ 930) (A := 13)
    (hS _) hlen (fun x hx => (ht x hx).1) (fun x hx => by have := (ht x hx).2; rw [div_mul_eq_mul_div]; exact this) htot (by positivity) (by positivity)
    (by
      refine le_trans (add_le_add_left fabs _) (le_trans ?_ big)
      generalize (2 : ℝ) ^ 24 * (1 / 2 ^ 930) = t at *
      generalize (1 : ℝ) / 2 ^ 905 = s at *
      norm_num at *
      linarith)
  rw [vabs, ← eV] at den
  rw [← eF] at num
  have n2 : |((S (xs.map fun x => mul (dot S (f x).2.2 d) (visibleArea L S d (f x)))).num : ℝ) - F| ≤ M * V / 2 ^ 25 + M / 2 ^ 27 + 2 * (1 / 2 ^ 905) := by
    refine num.2.trans ?_
    generalize (2 : ℝ) ^ 24 * (1 / 2 ^ 930) = t at *
    generalize (1 : ℝ) / 2 ^ 905 = s at *
    generalize (xs.map fun x => |inner3 (real3 (f x).2.2) D * (((f x).1.num : ℝ) * max 0 (inner3 D (N x)))|).sum = T at *
    clear * - fabs t2 M0 hMV0
    norm_num at *
    linarith
  have d2 : |((S (xs.map fun x => visibleArea L S d (f x))).num : ℝ) - V| ≤ V / 2 ^ 26 + 1 / 2 ^ 30 := by
    refine den.2.trans ?_
    generalize (2 : ℝ) ^ 24 * (1 / 2 ^ 1000) = t at *
    generalize (1 : ℝ) / 2 ^ 905 = s at *
    clear * - t1 t3 V0
    norm_num at *
    linarith
  obtain ⟨q1, q2, q3⟩ := quot_near M0 (by linarith : 0 ≤ 2 * ((1 : ℝ) / 2 ^ 905)) hV hF n2 d2
  have eL : longitudinal L S d (xs.map f) = div (S (xs.map fun x => mul (dot S (f x).2.2 d) (visibleArea L S d (f x))))
      (S (xs.map fun x => visibleArea L S d (f x))) := by
    simp only [longitudinal, List.map_map]
    rfl
  rw [eL]
  have hI : 1 / 2 ^ 26 / V ≤ 1 / 2 ^ 16 := by
    rw [div_le_iff₀ (lt_of_lt_of_le (by norm_num) hV)]
    norm_num at *
    linarith
  have hI0 : 0 ≤ 1 / 2 ^ 26 / V := by positivity
  have q4 : M * (1 / 2 ^ 23 + 1 / 2 ^ 26 / V) ≤ M * 1 := by
    gcongr
    norm_num at *
    linarith
  have q5 : M * (1 / 2 ^ 22 + 1 / 2 ^ 26 / V) = M * (1 / 2 ^ 23 + 1 / 2 ^ 26 / V) + M / 2 ^ 23 := by ring
  rw [q5]
  have q6 : |((S (xs.map fun x => mul (dot S (f x).2.2 d) (visibleArea L S d (f x)))).num : ℝ) / (S (xs.map fun x => visibleArea L S d (f x))).num| ≤
      4 * M + 1 := by
    generalize M * (1 / 2 ^ 23 + 1 / 2 ^ 26 / V) = R at *
    generalize ((S (xs.map fun x => mul (dot S (f x).2.2 d) (visibleArea L S d (f x)))).num : ℝ) / (S (xs.map fun x => visibleArea L S d (f x))).num = q at *
    generalize (1 : ℝ) / 2 ^ 905 = s at *
    clear * - q2 q3 q4 t3
    norm_num at *
    rw [abs_le] at *
    constructor <;> linarith
  obtain ⟨r1, r2⟩ := div_real num.1 den.1 q1.ne' (k := 60) (q6.trans (by norm_num at *; linarith)) (by norm_num)
  refine ⟨r1, ?_⟩
  have r3 := r2.trans (add_le_add_left (show _ ≤ (4 * M + 2 ^ 12 * (2 * (1 / 2 ^ 905))) / 2 ^ 53 from by
    gcongr
    generalize M * (1 / 2 ^ 23 + 1 / 2 ^ 26 / V) = R at *
    generalize ((S (xs.map fun x => mul (dot S (f x).2.2 d) (visibleArea L S d (f x)))).num : ℝ) / (S (xs.map fun x => visibleArea L S d (f x))).num = q at *
    generalize (1 : ℝ) / 2 ^ 905 = s at *
    clear * - q2 q3 q4
    rw [abs_le] at *
    constructor <;> linarith) _)
  generalize M * (1 / 2 ^ 23 + 1 / 2 ^ 26 / V) = R at *
  generalize ((S (xs.map fun x => mul (dot S (f x).2.2 d) (visibleArea L S d (f x)))).num : ℝ) / (S (xs.map fun x => visibleArea L S d (f x))).num = q at *
  generalize F / V = G at *
  generalize (1 : ℝ) / 2 ^ 1000 = t at *
  generalize (1 : ℝ) / 2 ^ 905 = s at *
  generalize (1 : ℝ) / 2 ^ 800 = u at *
  generalize ((div (S (xs.map fun x => mul (dot S (f x).2.2 d) (visibleArea L S d (f x)))) (S (xs.map fun x => visibleArea L S d (f x)))).num : ℝ) = y at *
  clear * - r3 q2 t5 t6 t4 M0
  norm_num at *
  rw [abs_le] at *
  constructor <;> linarith

end FloatVisible
end Verif
