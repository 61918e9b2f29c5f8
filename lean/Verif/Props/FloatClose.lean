import Verif.Model.FloatClose
import Verif.Props.FloatFib
import Verif.Props.FloatFactors
import Verif.Props.ContainerMore

/-!
# Property C120: comparing coefficient sets in double precision
-/

set_option exponentiation.threshold 4000

namespace Verif
open Spec PyFloat FloatRange FloatSets FloatCoords FloatError FloatRound

/-- What is assumed of `hypot`: infinite if a part is, else nan if a part is; of finite numbers it is right to a few units in the last
place, unless the result is too large, when it is infinite. -/
structure Spec.GoodAbs (L : AbsLib) : Prop where
  inf : ∀ x y s, x = PyFloat.inf s ∨ y = PyFloat.inf s → L.hypot x y = PyFloat.inf false
  nan : ∀ x y, (∀ s, x ≠ PyFloat.inf s) → (∀ s, y ≠ PyFloat.inf s) → x = PyFloat.nan ∨ y = PyFloat.nan → L.hypot x y = PyFloat.nan
  fin : ∀ x y, FinD x → FinD y → let v := ‖(⟨x.num, y.num⟩ : ℂ)‖
    L.hypot x y = PyFloat.inf false ∧ 2 ^ (1023 : ℤ) ≤ v ∨
    FinD (L.hypot x y) ∧ 0 ≤ (L.hypot x y).num ∧ |((L.hypot x y).num : ℝ) - v| ≤ v / 2 ^ 51 + 2 ^ (-1074 : ℤ)

/-- Any double: finite, infinite or not a number. -/
def Spec.IsDbl (x : PyFloat) : Prop := FinD x ∨ (∃ s, x = inf s) ∨ x = nan

/-- The complex number that a pair of finite doubles stands for. -/
noncomputable def Spec.cval (z : PyComplex) : ℂ := ⟨(z.1.num : ℝ), (z.2.num : ℝ)⟩

/-- A finite complex double whose parts are at most 2^k. -/
def Spec.NotHuge (k : ℤ) (z : PyComplex) : Prop := FinD z.1 ∧ FinD z.2 ∧ |z.1.num| ≤ 2 ^ k ∧ |z.2.num| ≤ 2 ^ k

/-- Tolerances: finite, not negative, not huge. -/
structure Spec.GoodTol (T : FloatClose.Tol) : Prop where
  rtol : FinD T.rtol ∧ 0 ≤ T.rtol.num ∧ T.rtol.num ≤ 2 ^ 20
  atol : FinD T.atol ∧ 0 ≤ T.atol.num ∧ T.atol.num ≤ 2 ^ (1000 : ℤ)

namespace FloatClose

/-! ### Norms -/

theorem norm_mono {a b c d : ℝ} (h1 : |a| ≤ |c|) (h2 : |b| ≤ |d|) : ‖(⟨a, b⟩ : ℂ)‖ ≤ ‖(⟨c, d⟩ : ℂ)‖ := by
  rw [Complex.norm_def, Complex.norm_def]
  refine Real.sqrt_le_sqrt ?_
  simp only [Complex.normSq_mk]
  have e1 := mul_self_le_mul_self (abs_nonneg _) h1
  have e2 := mul_self_le_mul_self (abs_nonneg _) h2
  rw [abs_mul_abs_self, abs_mul_abs_self] at e1 e2
  linarith

theorem norm_scale {a b t : ℝ} (ht : 0 ≤ t) : ‖(⟨t * a, t * b⟩ : ℂ)‖ = t * ‖(⟨a, b⟩ : ℂ)‖ := by
  have e : (⟨t * a, t * b⟩ : ℂ) = (t : ℂ) * ⟨a, b⟩ := by apply Complex.ext <;> simp
  rw [e, norm_mul, Complex.norm_real, Real.norm_of_nonneg ht]

/-- The parts of the difference are right to a relative error, and so is its size. -/
theorem norm_rel {a b c d t : ℝ} (h1 : |a - c| ≤ t * |c|) (h2 : |b - d| ≤ t * |d|) (ht : 0 ≤ t) :
    |‖(⟨a, b⟩ : ℂ)‖ - ‖(⟨c, d⟩ : ℂ)‖| ≤ t * ‖(⟨c, d⟩ : ℂ)‖ := by
  refine (abs_norm_sub_norm_le _ _).trans ?_
  have e : (⟨a, b⟩ - ⟨c, d⟩ : ℂ) = ⟨a - c, b - d⟩ := by apply Complex.ext <;> simp
  rw [e, ← norm_scale ht]
  refine norm_mono ?_ ?_
  · rwa [abs_mul, abs_of_nonneg ht]
  · rwa [abs_mul, abs_of_nonneg ht]

theorem norm_le_parts {a b B : ℝ} (h1 : |a| ≤ B) (h2 : |b| ≤ B) : ‖(⟨a, b⟩ : ℂ)‖ ≤ 2 * B := by
  refine (Complex.norm_le_abs_re_add_abs_im _).trans ?_
  simp only
  linarith

theorem part_le_norm (a b : ℝ) : |a| ≤ ‖(⟨a, b⟩ : ℂ)‖ ∧ |b| ≤ ‖(⟨a, b⟩ : ℂ)‖ :=
  ⟨Complex.abs_re_le_norm ⟨a, b⟩, Complex.abs_im_le_norm ⟨a, b⟩⟩

/-! ### The two sides of the comparison -/

/-- A very small number. -/
noncomputable def tiny : ℝ := 2 ^ (-1074 : ℤ)

theorem tiny_pos : 0 < tiny := by unfold tiny; positivity

theorem tiny_le : tiny * 2 ^ 70 ≤ 2 ^ (-1000 : ℤ) := by
  unfold tiny
  rw [← zpow_natCast, ← zpow_add₀ (by norm_num)]
  exact zpow_le_zpow_right₀ (by norm_num) (by norm_num)

/-- A difference of doubles is finite with a relative error, or infinite. -/
theorem sub_cases {x y : PyFloat} (hx : FinD x) (hy : FinD y) :
    FinD (sub x y) ∧ |((sub x y).num : ℝ) - (x.num - y.num)| ≤ 1 / 2 ^ 53 * |(x.num : ℝ) - y.num| ∨ ∃ s, sub x y = inf s := by
  have hn := neg_num hy
  have hr := rnd_add_rel hx hn.1
  have key : FinD (sub x y) ∧ (sub x y).num = rnd (x.num + (PyFloat.neg y).num) ∨ ∃ s, sub x y = inf s := by
    obtain ⟨s, a, rfl, ha⟩ := hx
    obtain ⟨t, b, rfl, hb⟩ := hy
    simp only [sub, PyFloat.neg, PyFloat.add]
    by_cases h0 : (fin s a).num + (fin (!t) b).num = 0
    · rw [if_pos h0, h0, rnd_zero]
      exact Or.inl ⟨fd_zero _, num_zero _⟩
    · rw [if_neg h0]
      unfold ofMag
      split_ifs with hc
      · exact Or.inr ⟨_, rfl⟩
      · left
        refine ⟨⟨_, _, rfl, fl0_isDouble _ (abs_nonneg _) (not_le.1 hc)⟩, ?_⟩
        rw [num_fin _ _ (abs_nonneg _), num_add_core h0]
  rcases key with ⟨h1, h2⟩ | h
  · left
    refine ⟨h1, ?_⟩
    rw [h2, hn.2]
    rw [hn.2] at hr
    have h3 := (Rat.cast_le (K := ℝ)).2 hr
    push_cast at h3
    rw [← sub_eq_add_neg (x.num : ℝ)] at h3
    rw [one_div, inv_mul_eq_div]
    exact h3
  · exact Or.inr h

theorem sub_special {x y : PyFloat} (hx : IsDbl x) (hy : FinD y) (h : ¬ FinD x) : (∃ s, sub x y = inf s) ∨ sub x y = nan := by
  obtain ⟨t, b, rfl, -⟩ := hy
  rcases hx with hx | ⟨s, rfl⟩ | rfl
  · exact absurd hx h
  · exact Or.inl ⟨s, rfl⟩
  · exact Or.inr rfl

/-- `hypot` of anything that is not a pair of finite numbers. -/
theorem hypot_special {L : AbsLib} (hL : GoodAbs L) {x y : PyFloat} (hx : IsDbl x) (hy : IsDbl y) (h : ¬ (FinD x ∧ FinD y)) :
    L.hypot x y = inf false ∨ L.hypot x y = nan := by
  by_cases h1 : ∃ s, x = inf s ∨ y = inf s
  · obtain ⟨s, h1⟩ := h1
    exact Or.inl (hL.inf x y s h1)
  · rw [not_exists] at h1
    refine Or.inr (hL.nan x y (fun s e => h1 s (Or.inl e)) (fun s e => h1 s (Or.inr e)) ?_)
    rcases hx with hx | ⟨s, hx⟩ | hx
    · rcases hy with hy | ⟨s, hy⟩ | hy
      · exact absurd ⟨hx, hy⟩ h
      · exact absurd (Or.inr hy) (h1 s)
      · exact Or.inr hy
    · exact absurd (Or.inl hx) (h1 s)
    · exact Or.inl hx

/-- The absolute value of the difference. -/
theorem diff_cases {L : AbsLib} (hL : GoodAbs L) {x y : PyComplex} (hx : IsDbl x.1 ∧ IsDbl x.2) (hy : FinD y.1 ∧ FinD y.2) :
    (FinD x.1 ∧ FinD x.2) ∧ FinD (cabs L (csub x y)) ∧
        |((cabs L (csub x y)).num : ℝ) - ‖cval x - cval y‖| ≤ ‖cval x - cval y‖ / 2 ^ 50 + tiny ∨
      cabs L (csub x y) = inf false ∨ cabs L (csub x y) = nan := by
  have dbl : ∀ {z u : PyFloat}, IsDbl z → FinD u → IsDbl (sub z u) := by
    intro z u hz hu
    by_cases h : FinD z
    · rcases sub_cases h hu with h' | h'
      · exact Or.inl h'.1
      · exact Or.inr (Or.inl h')
    · rcases sub_special hz hu h with h' | h'
      · exact Or.inr (Or.inl h')
      · exact Or.inr (Or.inr h')
  by_cases hf : FinD x.1 ∧ FinD x.2
  · rcases sub_cases hf.1 hy.1 with ⟨f1, e1⟩ | ⟨s, e1⟩
    · rcases sub_cases hf.2 hy.2 with ⟨f2, e2⟩ | ⟨s, e2⟩
      · rcases hL.fin _ _ f1 f2 with ⟨h1, -⟩ | ⟨h1, -, h2⟩
        · exact Or.inr (Or.inl h1)
        · left
          refine ⟨hf, h1, ?_⟩
          have hrel := norm_rel e1 e2 (by norm_num)
          have e : cval x - cval y = ⟨(x.1.num : ℝ) - y.1.num, (x.2.num : ℝ) - y.2.num⟩ := by
            unfold cval; apply Complex.ext <;> simp
          rw [e]
          set D := ‖(⟨(x.1.num : ℝ) - y.1.num, (x.2.num : ℝ) - y.2.num⟩ : ℂ)‖ with hD
          have hD0 : 0 ≤ D := norm_nonneg _
          unfold cabs csub
          unfold tiny
          have h3 := abs_le.1 hrel
          have h4 := abs_le.1 h2
          rw [abs_le]
          constructor <;> nlinarith [h3.1, h3.2, h4.1, h4.2]
      · exact Or.inr (Or.inl (hL.inf _ _ s (Or.inr e2)))
    · exact Or.inr (Or.inl (hL.inf _ _ s (Or.inl e1)))
  · right
    refine hypot_special hL (dbl hx.1 hy.1) (dbl hx.2 hy.2) ?_
    rintro ⟨h1, h2⟩
    apply hf
    constructor
    · by_contra h
      rcases sub_special hx.1 hy.1 h with ⟨s, e⟩ | e
      · simp only [csub, e] at h1; obtain ⟨_, _, h1, _⟩ := h1; cases h1
      · simp only [csub, e] at h1; obtain ⟨_, _, h1, _⟩ := h1; cases h1
    · by_contra h
      rcases sub_special hx.2 hy.2 h with ⟨s, e⟩ | e
      · simp only [csub, e] at h2; obtain ⟨_, _, h2, _⟩ := h2; cases h2
      · simp only [csub, e] at h2; obtain ⟨_, _, h2, _⟩ := h2; cases h2

theorem pow_cast (k : ℤ) : (((2 : ℚ) ^ k : ℚ) : ℝ) = 2 ^ k := by rw [Rat.cast_zpow, Rat.cast_ofNat]

theorem notHuge_norm {y : PyComplex} (h : NotHuge 1000 y) : ‖cval y‖ ≤ 2 ^ (1001 : ℤ) := by
  have h1 := (Rat.cast_le (K := ℝ)).2 h.2.2.1
  have h2 := (Rat.cast_le (K := ℝ)).2 h.2.2.2
  rw [pow_cast, Rat.cast_abs] at h1 h2
  have := norm_le_parts h1 h2
  rw [show (1001 : ℤ) = 1 + 1000 by norm_num, zpow_add₀ (by norm_num), zpow_one]
  exact this

/-- The absolute value of a number that is not huge. -/
theorem abs_close {L : AbsLib} (hL : GoodAbs L) {y : PyComplex} (h : NotHuge 1000 y) :
    FinD (cabs L y) ∧ 0 ≤ (cabs L y).num ∧ |((cabs L y).num : ℝ) - ‖cval y‖| ≤ ‖cval y‖ / 2 ^ 51 + tiny := by
  rcases hL.fin _ _ h.1 h.2.1 with ⟨-, h1⟩ | h1
  · exfalso
    have h2 : (2 : ℝ) ^ (1001 : ℤ) < 2 ^ (1023 : ℤ) := zpow_lt_zpow_right₀ (by norm_num) (by norm_num)
    exact absurd (h1.trans (notHuge_norm h)) (not_le.2 h2)
  · exact h1

theorem real_le_max {q : ℚ} {k : ℤ} (h : |(q : ℝ)| ≤ 2 ^ k) (hk : k ≤ 1023) : |q| ≤ maxDouble := by
  refine le_trans ?_ big_le_max
  rw [← Rat.cast_le (K := ℝ), pow_cast, Rat.cast_abs]
  exact h.trans (zpow_le_zpow_right₀ (by norm_num) hk)

/-- The tolerance. -/
theorem tol_close {L : AbsLib} (hL : GoodAbs L) {T : Tol} (hT : GoodTol T) {y : PyComplex} (h : NotHuge 1000 y) :
    FinD (add T.atol (mul T.rtol (cabs L y))) ∧
      |((add T.atol (mul T.rtol (cabs L y))).num : ℝ) - (T.atol.num + T.rtol.num * ‖cval y‖)| ≤
        (T.atol.num + T.rtol.num * ‖cval y‖) / 2 ^ 49 + tiny * 2 ^ 25 := by
  obtain ⟨f1, p1, e1⟩ := abs_close hL h
  have hY := notHuge_norm h
  obtain ⟨fr, r0, r1⟩ := hT.rtol
  obtain ⟨fa, a0, a1⟩ := hT.atol
  have r0' : (0 : ℝ) ≤ T.rtol.num := by exact_mod_cast r0
  have r1' : (T.rtol.num : ℝ) ≤ 2 ^ 20 := by exact_mod_cast r1
  have a0' : (0 : ℝ) ≤ T.atol.num := by exact_mod_cast a0
  have a1' : (T.atol.num : ℝ) ≤ 2 ^ (1000 : ℤ) := by
    have := (Rat.cast_le (K := ℝ)).2 a1
    rwa [pow_cast] at this
  have p1' : (0 : ℝ) ≤ (cabs L y).num := by exact_mod_cast p1
  generalize hYY : ‖cval y‖ = Y at *
  have Y0 : 0 ≤ Y := by rw [← hYY]; exact norm_nonneg _
  generalize hr : (T.rtol.num : ℝ) = r at *
  generalize ha : (T.atol.num : ℝ) = a at *
  generalize hA : ((cabs L y).num : ℝ) = A at *
  have t0 := tiny_pos
  have hbig : (2 : ℝ) ^ (1001 : ℤ) = 2 * 2 ^ (1000 : ℤ) := by
    rw [show (1001 : ℤ) = 1 + 1000 by norm_num, zpow_add₀ (by norm_num), zpow_one]
  have hB1 : (1 : ℝ) ≤ 2 ^ (1000 : ℤ) := one_le_zpow₀ (by norm_num) (by norm_num)
  have hB2 : (2 : ℝ) ^ (1022 : ℤ) = 2 ^ 22 * 2 ^ (1000 : ℤ) := by
    rw [show (1022 : ℤ) = 22 + 1000 by norm_num, zpow_add₀ (by norm_num)]; norm_num
  have ht1 : tiny ≤ 1 := by unfold tiny; exact zpow_le_one_of_nonpos₀ (by norm_num) (by norm_num)
  generalize hB : (2 : ℝ) ^ (1000 : ℤ) = B at *
  have e1' := abs_le.1 e1
  have hA3 : A ≤ 4 * B := by
    have : Y / 2 ^ 51 ≤ Y := div_le_self Y0 (by norm_num)
    nlinarith [e1'.2]
  have hrA : r * A ≤ 2 ^ 20 * (4 * B) := mul_le_mul r1' hA3 p1' (by norm_num)
  have hrA0 : 0 ≤ r * A := mul_nonneg r0' p1'
  obtain ⟨fm, em⟩ := mul_num fr f1 (real_le_max (k := 1022) (by
    push_cast
    rw [hr, hA, abs_of_nonneg hrA0, hB2]
    linarith) (by norm_num))
  have emr : |((mul T.rtol (cabs L y)).num : ℝ) - r * A| ≤ r * A / 2 ^ 53 + tiny := by
    rw [em]
    have h1 : |rnd (T.rtol.num * (cabs L y).num) - T.rtol.num * (cabs L y).num| ≤ T.rtol.num * (cabs L y).num / 2 ^ 53 + 2 ^ (-1075 : ℤ) := by
      rw [rnd_sub_abs, abs_of_nonneg (mul_nonneg r0 p1)]
      exact fl0_err (mul_nonneg r0 p1)
    have h3 : (((2 : ℚ) ^ (-1075 : ℤ) : ℚ) : ℝ) ≤ tiny := by
      rw [pow_cast]; unfold tiny; exact zpow_le_zpow_right₀ (by norm_num) (by norm_num)
    generalize (2 : ℚ) ^ (-1075 : ℤ) = u at h1 h3
    have h2 := (Rat.cast_le (K := ℝ)).2 h1
    push_cast at h2
    rw [hr, hA] at h2
    linarith
  generalize hM : ((mul T.rtol (cabs L y)).num : ℝ) = M at *
  have em' := abs_le.1 emr
  have hrY : 0 ≤ r * Y := mul_nonneg r0' Y0
  have hAY : |r * A - r * Y| ≤ r * Y / 2 ^ 51 + 2 ^ 20 * tiny := by
    rw [← mul_sub, abs_mul, abs_of_nonneg r0']
    calc r * |A - Y| ≤ r * (Y / 2 ^ 51 + tiny) := mul_le_mul_of_nonneg_left e1 r0'
      _ = r * Y / 2 ^ 51 + r * tiny := by ring
      _ ≤ _ := by
        have := mul_le_mul_of_nonneg_right r1' t0.le
        linarith
  have hAY' := abs_le.1 hAY
  have M0 : 0 ≤ (mul T.rtol (cabs L y)).num := by
    rw [em]; exact rnd_nonneg (mul_nonneg r0 p1)
  have M0' : 0 ≤ M := by rw [← hM]; exact_mod_cast M0
  have haM : a + M ≤ 2 ^ (1023 : ℤ) := by
    have : (2 : ℝ) ^ (1023 : ℤ) = 2 ^ 23 * B := by
      rw [← hB, show (1023 : ℤ) = 23 + 1000 by norm_num, zpow_add₀ (by norm_num)]; norm_num
    rw [this]
    have h1 : r * A / 2 ^ 53 ≤ r * A / 2 := by gcongr; norm_num
    linarith [em'.2]
  obtain ⟨fs, es⟩ := add_num fa fm (real_le_max (k := 1023) (by
    push_cast
    rw [ha, hM, abs_of_nonneg (by linarith)]
    exact haM) (by norm_num))
  refine ⟨fs, ?_⟩
  rw [es]
  have h1 := rnd_add_rel fa fm
  rw [abs_of_nonneg (add_nonneg a0 M0)] at h1
  have h2 := (Rat.cast_le (K := ℝ)).2 h1
  push_cast at h2
  rw [ha, hM] at h2
  push_cast
  have h3 := abs_le.1 h2
  rw [abs_le]
  constructor <;> linarith [h3.1, h3.2, em'.1, em'.2, hAY'.1, hAY'.2]

theorem notHuge_fin {x : PyComplex} (h : NotHuge 1000 x) : FinD x.1 ∧ FinD x.2 := ⟨h.1, h.2.1⟩

/-- The absolute value of the difference of two numbers that are not huge. -/
theorem diff_close {L : AbsLib} (hL : GoodAbs L) {x y : PyComplex} (hx : NotHuge 1000 x) (hy : NotHuge 1000 y) :
    FinD (cabs L (csub x y)) ∧ |((cabs L (csub x y)).num : ℝ) - ‖cval x - cval y‖| ≤ ‖cval x - cval y‖ / 2 ^ 50 + tiny := by
  rcases diff_cases hL (x := x) ⟨Or.inl hx.1, Or.inl hx.2.1⟩ (notHuge_fin hy) with h | h
  · exact h.2
  · exfalso
    have hle : ∀ {p q : ℚ}, |p| ≤ 2 ^ (1000 : ℤ) → |q| ≤ 2 ^ (1000 : ℤ) → |((p - q : ℚ) : ℝ)| ≤ 2 ^ (1001 : ℤ) := by
      intro p q hp hq
      have h1 := (Rat.cast_le (K := ℝ)).2 hp
      have h2 := (Rat.cast_le (K := ℝ)).2 hq
      rw [pow_cast, Rat.cast_abs] at h1 h2
      push_cast
      refine (abs_sub _ _).trans ?_
      rw [show (1001 : ℤ) = 1 + 1000 by norm_num, zpow_add₀ (by norm_num), zpow_one]
      linarith
    have b1 := hle hx.2.2.1 hy.2.2.1
    have b2 := hle hx.2.2.2 hy.2.2.2
    have s1 := sub_num hx.1 hy.1 (real_le_max b1 (by norm_num))
    have s2 := sub_num hx.2.1 hy.2.1 (real_le_max b2 (by norm_num))
    have n1 : |((sub x.1 y.1).num : ℝ)| ≤ 2 ^ (1002 : ℤ) ∧ |((sub x.2 y.2).num : ℝ)| ≤ 2 ^ (1002 : ℤ) := by
      have e2 : (2 : ℝ) ^ (1002 : ℤ) = 2 * 2 ^ (1001 : ℤ) := by
        rw [show (1002 : ℤ) = 1 + 1001 by norm_num, zpow_add₀ (by norm_num), zpow_one]
      constructor
      · rcases sub_cases hx.1 hy.1 with ⟨-, h1⟩ | ⟨s, h1⟩
        · push_cast at b1
          have := abs_sub_abs_le_abs_sub ((sub x.1 y.1).num : ℝ) (x.1.num - y.1.num)
          rw [e2]
          linarith
        · obtain ⟨_, _, e, _⟩ := s1.1
          rw [h1] at e; cases e
      · rcases sub_cases hx.2.1 hy.2.1 with ⟨-, h1⟩ | ⟨s, h1⟩
        · push_cast at b2
          have := abs_sub_abs_le_abs_sub ((sub x.2 y.2).num : ℝ) (x.2.num - y.2.num)
          rw [e2]
          linarith
        · obtain ⟨_, _, e, _⟩ := s2.1
          rw [h1] at e; cases e
    have hlt : 2 * (2 : ℝ) ^ (1002 : ℤ) < 2 ^ (1023 : ℤ) := by
      calc 2 * (2 : ℝ) ^ (1002 : ℤ) = 2 ^ (1003 : ℤ) := by
            rw [show (1003 : ℤ) = 1 + 1002 by norm_num, zpow_add₀ (by norm_num), zpow_one]
        _ < _ := zpow_lt_zpow_right₀ (by norm_num) (by norm_num)
    rcases hL.fin _ _ s1.1 s2.1 with ⟨-, h1⟩ | ⟨⟨_, _, e, _⟩, -⟩
    · exact absurd (h1.trans (norm_le_parts n1.1 n1.2)) (not_le.2 hlt)
    · have e' : cabs L (csub x y) = _ := e
      rcases h with h | h <;> rw [h] at e' <;> cases e'

theorem le_fin {x y : PyFloat} (hx : FinD x) (hy : FinD y) : le x y = true ↔ x.num ≤ y.num := by
  obtain ⟨s, a, rfl, -⟩ := hx
  obtain ⟨t, b, rfl, -⟩ := hy
  simp [le]

theorem isFin_of {x : PyFloat} (h : FinD x) : isFin x = true := by obtain ⟨s, a, rfl, -⟩ := h; rfl

theorem fin_of_isFin {x : PyFloat} (hx : IsDbl x) (h : isFin x = true) : FinD x := by
  rcases hx with hx | ⟨s, rfl⟩ | rfl
  · exact hx
  · cases h
  · cases h

theorem isNan_fin {x : PyFloat} (h : FinD x) : FloatCoords.isNan x = false := by obtain ⟨s, a, rfl, -⟩ := h; rfl

theorem eq_fin {x y : PyFloat} (hx : IsDbl x) (hy : FinD y) (h : eq x y = true) : FinD x ∧ x.num = y.num := by
  obtain ⟨t, b, rfl, -⟩ := hy
  rcases hx with ⟨s, a, rfl, ha⟩ | ⟨s, rfl⟩ | rfl
  · refine ⟨⟨s, a, rfl, ha⟩, ?_⟩
    simpa [eq] using h
  · cases h
  · cases h

theorem same_of_eq {u v : PyFloat} (h : eq u v = true) : (∀ s, v = inf s → u = inf s) ∧ u.num = v.num := by
  cases u <;> cases v <;> simp only [eq, reduceCtorEq, decide_eq_true_eq, beq_iff_eq] at h
  · exact ⟨fun s hs => (by cases hs), h⟩
  · exact ⟨fun s hs => (by rw [h, hs]), rfl⟩

/-- What it takes to be close to a number that is not huge. -/
theorem close_true {L : AbsLib} (hL : GoodAbs L) {T : Tol} (hT : GoodTol T) {x y : PyComplex} (hx : IsDbl x.1 ∧ IsDbl x.2)
    (hy : NotHuge 1000 y) (h : close L T x y = true) :
    (FinD x.1 ∧ FinD x.2) ∧ ‖cval x - cval y‖ ≤ (1 + 1 / 2 ^ 47) * (T.atol.num + T.rtol.num * ‖cval y‖) + 2 ^ (-1000 : ℤ) := by
  obtain ⟨ft, et⟩ := tol_close hL hT hy
  have a0 : (0 : ℝ) ≤ T.atol.num := by exact_mod_cast hT.atol.2.1
  have r0 : (0 : ℝ) ≤ T.rtol.num := by exact_mod_cast hT.rtol.2.1
  have tol0 : (0 : ℝ) ≤ T.atol.num + T.rtol.num * ‖cval y‖ := add_nonneg a0 (mul_nonneg r0 (norm_nonneg _))
  have t0 := tiny_pos
  have t1 := tiny_le
  have p0 : (0 : ℝ) < 2 ^ (-1000 : ℤ) := by positivity
  unfold close at h
  rw [Bool.or_eq_true, Bool.or_eq_true] at h
  rcases h with (h | h) | h
  · rw [Bool.and_eq_true] at h
    rcases diff_cases hL hx (notHuge_fin hy) with ⟨hf, fd, ed⟩ | e | e
    · refine ⟨hf, ?_⟩
      have hle := (le_fin fd ft).1 h.1
      have hle' : ((cabs L (csub x y)).num : ℝ) ≤ (add T.atol (mul T.rtol (cabs L y))).num := by exact_mod_cast hle
      generalize (T.atol.num : ℝ) + T.rtol.num * ‖cval y‖ = V at *
      generalize ((cabs L (csub x y)).num : ℝ) = D' at *
      generalize ((add T.atol (mul T.rtol (cabs L y))).num : ℝ) = T' at *
      have hD0 := norm_nonneg (cval x - cval y)
      generalize ‖cval x - cval y‖ = D at *
      generalize (2 : ℝ) ^ (-1000 : ℤ) = P at *
      have h1 := abs_le.1 ed
      have h2 := abs_le.1 et
      have h3 : D * (1 - 1 / 2 ^ 50) ≤ V * (1 + 1 / 2 ^ 49) + tiny * 2 ^ 26 := by linarith [h1.1, h2.2]
      nlinarith
    · rw [e] at h
      obtain ⟨s, a, e', -⟩ := ft
      rw [e'] at h
      exact absurd h.1 (by simp [le])
    · rw [e] at h
      obtain ⟨s, a, e', -⟩ := ft
      rw [e'] at h
      exact absurd h.1 (by simp [le])
  · rw [Bool.and_eq_true] at h
    obtain ⟨f1, e1⟩ := eq_fin hx.1 hy.1 h.1
    obtain ⟨f2, e2⟩ := eq_fin hx.2 hy.2.1 h.2
    refine ⟨⟨f1, f2⟩, ?_⟩
    have : cval x = cval y := by unfold cval; rw [e1, e2]
    rw [this, sub_self, norm_zero]
    positivity
  · exfalso
    simp only [Bool.and_eq_true, cnan, isNan_fin hy.1, isNan_fin hy.2.1, Bool.or_false] at h
    exact absurd h.2.2 (by simp)

/-- What suffices to be close. -/
theorem close_of {L : AbsLib} (hL : GoodAbs L) {T : Tol} (hT : GoodTol T) {x y : PyComplex} (hx : NotHuge 1000 x) (hy : NotHuge 1000 y)
    (h : ‖cval x - cval y‖ + 2 ^ (-1000 : ℤ) ≤ (1 - 1 / 2 ^ 47) * (T.atol.num + T.rtol.num * ‖cval y‖)) : close L T x y = true := by
  obtain ⟨ft, et⟩ := tol_close hL hT hy
  obtain ⟨fd, ed⟩ := diff_close hL hx hy
  have a0 : (0 : ℝ) ≤ T.atol.num := by exact_mod_cast hT.atol.2.1
  have r0 : (0 : ℝ) ≤ T.rtol.num := by exact_mod_cast hT.rtol.2.1
  have tol0 : (0 : ℝ) ≤ T.atol.num + T.rtol.num * ‖cval y‖ := add_nonneg a0 (mul_nonneg r0 (norm_nonneg _))
  have t0 := tiny_pos
  have t1 := tiny_le
  have key : ((cabs L (csub x y)).num : ℝ) ≤ (add T.atol (mul T.rtol (cabs L y))).num := by
    generalize (T.atol.num : ℝ) + T.rtol.num * ‖cval y‖ = V at *
    generalize ((cabs L (csub x y)).num : ℝ) = D' at *
    generalize ((add T.atol (mul T.rtol (cabs L y))).num : ℝ) = T' at *
    have hD0 := norm_nonneg (cval x - cval y)
    generalize ‖cval x - cval y‖ = D at *
    generalize (2 : ℝ) ^ (-1000 : ℤ) = P at *
    have h1 := abs_le.1 ed
    have h2 := abs_le.1 et
    have h3 : D ≤ V := by nlinarith
    have h4 : D / 2 ^ 50 ≤ V / 2 ^ 50 := by gcongr
    linarith [h1.2, h2.1]
  have hle : le (cabs L (csub x y)) (add T.atol (mul T.rtol (cabs L y))) = true := (le_fin fd ft).2 (by exact_mod_cast key)
  unfold close
  rw [hle, isFin_of hy.1, isFin_of hy.2.1]
  rfl

/-- The defaults are what their decimals say, to one part in 2^53. -/
theorem defaults_good : GoodTol defaults ∧ |((defaults.rtol.num : ℚ) : ℝ) - 1 / 10 ^ 5| ≤ 1 / 10 ^ 5 / 2 ^ 53 ∧
    |((defaults.atol.num : ℚ) : ℝ) - 1 / 10 ^ 8| ≤ 1 / 10 ^ 8 / 2 ^ 53 := by
  have key : ∀ q : ℚ, (2 : ℚ) ^ (-1022 : ℤ) ≤ q → q ≤ 1 → FinD (ofMag false q) ∧ |(ofMag false q).num - q| ≤ q / 2 ^ 53 := by
    intro q h1 h2
    have h0 : 0 ≤ q := le_trans (by positivity) h1
    obtain ⟨f, e⟩ := ofMag_num false h0 (FloatFib.le_max_of (h2.trans (by norm_num)))
    refine ⟨f, ?_⟩
    rw [e]
    have := rnd_rel (q := (fin false q).num) (Or.inl (by simpa [num, abs_of_nonneg h0] using h1))
    simpa [num, abs_of_nonneg h0] using this
  have low : ∀ n : ℕ, n ≤ 8 → (2 : ℚ) ^ (-1022 : ℤ) ≤ 1 / 10 ^ n := by
    intro n hn
    calc (2 : ℚ) ^ (-1022 : ℤ) ≤ 2 ^ (-100 : ℤ) := zpow_le_zpow_right₀ (by norm_num) (by norm_num)
      _ ≤ 1 / 10 ^ 8 := by norm_num
      _ ≤ 1 / 10 ^ n := by gcongr; norm_num
  obtain ⟨f1, e1⟩ := key (1 / 10 ^ 5) (low 5 (by norm_num)) (by norm_num)
  obtain ⟨f2, e2⟩ := key (1 / 10 ^ 8) (low 8 (by norm_num)) (by norm_num)
  have b1 := abs_le.1 e1
  have b2 := abs_le.1 e2
  have hB1 : (1 : ℚ) ≤ 2 ^ (1000 : ℤ) := one_le_zpow₀ (by norm_num) (by norm_num)
  refine ⟨⟨⟨f1, ?_, ?_⟩, ⟨f2, ?_, ?_⟩⟩, ?_, ?_⟩
  · show 0 ≤ (ofMag false (1 / 10 ^ 5)).num
    linarith [b1.1]
  · show (ofMag false (1 / 10 ^ 5)).num ≤ _
    linarith [b1.2]
  · show 0 ≤ (ofMag false (1 / 10 ^ 8)).num
    linarith [b2.1]
  · show (ofMag false (1 / 10 ^ 8)).num ≤ _
    refine le_trans ?_ hB1
    linarith [b2.2]
  · have := FloatFib.cast_err e1
    push_cast at this
    exact this
  · have := FloatFib.cast_err e2
    push_cast at this
    exact this

/-- `allclose` of sets with equally many columns, entry by entry. -/
theorem allclose_iff (L : AbsLib) (T : Tol) {a b : Coefs PyComplex} (ha : WellFormed a) (hb : WellFormed b)
    (hl : a.dflt.length = b.dflt.length) {ks : List Key} (hk : IsSetIter ks (a.keys ++ b.keys))
    (hne : ∃ l m, stores a l m ∨ stores b l m) (junk : List Bool) (hj : junk.length = a.dflt.length) :
    ∃ r, allclose L T ks junk a b = .ok r ∧ (r = true ↔ ∀ l m, (stores a l m ∨ stores b l m) →
      ∀ (i : ℕ) (x y : PyComplex), (valueAt a l m)[i]? = some x → (valueAt b l m)[i]? = some y → close L T x y = true) := by
  have hmem : ∀ l m, (l, m) ∈ ks ↔ stores a l m ∨ stores b l m := by
    intro l m; rw [hk.2, List.mem_append, stores, stores, Coefs.has_int, Coefs.has_int]
  have hks : ks ≠ [] := by
    obtain ⟨l, m, h⟩ := hne
    intro h'; have := (hmem l m).2 h; rw [h'] at this; cases this
  have va : ∀ (s : Coefs PyComplex) (l m : ℤ), valueAt s l m = s.getI (l, m) := fun _ _ _ => rfl
  refine ⟨_, allclose_eq _ (WF_of_wellFormed ha) (WF_of_wellFormed hb) hl hk hks junk hj, ?_⟩
  rw [List.all_eq_true]
  simp only [List.all_eq_true, id_eq]
  constructor
  · intro h l m hs i x y hx hy
    refine h (l, m) ((hmem l m).2 hs) _ ?_
    rw [List.mem_iff_getElem?]
    exact ⟨i, by rw [List.getElem?_zipWith]; rw [va] at hx hy; rw [hx, hy]⟩
  · intro h k hkm z hz
    rw [List.mem_iff_getElem?] at hz
    obtain ⟨i, hi⟩ := hz
    rw [List.getElem?_zipWith] at hi
    rcases hx : (a.getI k)[i]? with _ | x
    · rw [hx] at hi; simp at hi
    · rcases hy : (b.getI k)[i]? with _ | y
      · rw [hx, hy] at hi; simp at hi
      · rw [hx, hy] at hi
        cases hi
        exact h k.1 k.2 ((hmem _ _).1 hkm) i x y hx hy

theorem close_self {L : AbsLib} {T : Tol} {x : PyComplex} (hx : IsDbl x.1 ∧ IsDbl x.2) :
    close L T x x = true ↔ T.equalNan = true ∨ (x.1 ≠ nan ∧ x.2 ≠ nan) := by
  have eqs : ∀ {u : PyFloat}, u ≠ nan → eq u u = true := by
    intro u hu
    cases u with
    | fin s a => simp [eq]
    | inf s => simp [eq]
    | nan => exact absurd rfl hu
  have hnan : ∀ {u : PyFloat}, FloatCoords.isNan u = true ↔ u = nan := by
    intro u; cases u <;> simp [FloatCoords.isNan]
  by_cases h : x.1 = nan ∨ x.2 = nan
  · have h1 : (isFin x.1 && isFin x.2) = false := by rcases h with h | h <;> rw [h] <;> simp [isFin]
    have h2 : (eq x.1 x.1 && eq x.2 x.2) = false := by rcases h with h | h <;> rw [h] <;> simp [eq]
    have h3 : cnan x = true := by unfold cnan; rw [Bool.or_eq_true, hnan, hnan]; exact h
    unfold close
    rw [h1, h2, h3]
    simp only [Bool.and_false, Bool.or_self, Bool.and_self, Bool.and_true, Bool.false_or]
    constructor
    · exact Or.inl
    · rintro (h4 | ⟨h4, h5⟩)
      · exact h4
      · exact absurd h (by simp [h4, h5])
  · rw [not_or] at h
    refine ⟨fun _ => Or.inr h, fun _ => ?_⟩
    unfold close
    rw [eqs h.1, eqs h.2]
    simp

end FloatClose

open FloatClose Coefs

/-- All numbers of a set are doubles, finite or not. -/
def Spec.Doubles (s : Coefs PyComplex) : Prop := ∀ l m, ∀ z ∈ valueAt s l m, IsDbl z.1 ∧ IsDbl z.2

/-- All numbers of a set are finite with parts of at most 2^k. -/
def Spec.Tame (k : ℤ) (s : Coefs PyComplex) : Prop := ∀ l m, ∀ z ∈ valueAt s l m, NotHuge k z

/-! ## C120 -/

/-- **C120.** If `allclose(a, b)` is true and the numbers of `b` are not huge, then the numbers of `a` at the stored pairs are finite and
differ from those of `b` by no more than the tolerance, up to a fraction 2^-47 of it. -/
theorem C120_true (L : AbsLib) (hL : GoodAbs L) (T : Tol) (hT : GoodTol T) {a b : Coefs PyComplex} (ha : WellFormed a) (hb : WellFormed b)
    (da : Doubles a) (tb : Tame 1000 b) {ks : List Key} (hk : IsSetIter ks (a.keys ++ b.keys)) (junk : List Bool)
    (hj : junk.length = a.dflt.length) (h : allclose L T ks junk a b = .ok true) :
    a.dflt.length = b.dflt.length ∧ ∀ l m, (stores a l m ∨ stores b l m) →
      ∀ (i : ℕ) (x y : PyComplex), (valueAt a l m)[i]? = some x → (valueAt b l m)[i]? = some y →
        (FinD x.1 ∧ FinD x.2) ∧ ‖cval x - cval y‖ ≤ (1 + 1 / 2 ^ 47) * (T.atol.num + T.rtol.num * ‖cval y‖) + 2 ^ (-1000 : ℤ) := by
  have hl : a.dflt.length = b.dflt.length := by
    by_contra hl
    unfold FloatClose.allclose Coefs.allclose at h
    rw [if_pos hl] at h
    cases h
  refine ⟨hl, fun l m hs i x y hx hy => ?_⟩
  obtain ⟨r, e, hr⟩ := allclose_iff L T ha hb hl hk ⟨l, m, hs⟩ junk hj
  rw [h] at e
  cases e
  exact close_true hL hT (da l m x (List.mem_of_getElem? hx)) (tb l m y (List.mem_of_getElem? hy)) (hr.1 rfl l m hs i x y hx hy)

/-- **C120.** Conversely `allclose(a, b)` is true if all numbers are within the tolerance, with a fraction 2^-47 of it to spare. -/
theorem C120_close (L : AbsLib) (hL : GoodAbs L) (T : Tol) (hT : GoodTol T) {a b : Coefs PyComplex} (ha : WellFormed a) (hb : WellFormed b)
    (ta : Tame 1000 a) (tb : Tame 1000 b) (hl : a.dflt.length = b.dflt.length) {ks : List Key} (hk : IsSetIter ks (a.keys ++ b.keys))
    (hne : ∃ l m, stores a l m ∨ stores b l m) (junk : List Bool) (hj : junk.length = a.dflt.length)
    (h : ∀ l m, (stores a l m ∨ stores b l m) → ∀ (i : ℕ) (x y : PyComplex), (valueAt a l m)[i]? = some x → (valueAt b l m)[i]? = some y →
      ‖cval x - cval y‖ + 2 ^ (-1000 : ℤ) ≤ (1 - 1 / 2 ^ 47) * (T.atol.num + T.rtol.num * ‖cval y‖)) :
    allclose L T ks junk a b = .ok true := by
  obtain ⟨r, e, hr⟩ := allclose_iff L T ha hb hl hk hne junk hj
  rw [e, hr.2 fun l m hs i x y hx hy => close_of hL hT (ta l m x (List.mem_of_getElem? hx)) (tb l m y (List.mem_of_getElem? hy))
    (h l m hs i x y hx hy)]

/-- **C120.** A set is close to itself exactly if it has no nan, or `equal_nan` is set; infinities and large numbers do not matter. -/
theorem C120_self (L : AbsLib) (T : Tol) {a : Coefs PyComplex} (ha : WellFormed a) (da : Doubles a) {ks : List Key}
    (hk : IsSetIter ks (a.keys ++ a.keys)) (hne : ∃ l m, stores a l m) (junk : List Bool) (hj : junk.length = a.dflt.length) :
    ∃ r, allclose L T ks junk a a = .ok r ∧
      (r = true ↔ T.equalNan = true ∨ ∀ l m, stores a l m → ∀ z ∈ valueAt a l m, z.1 ≠ nan ∧ z.2 ≠ nan) := by
  obtain ⟨r, e, hr⟩ := allclose_iff L T ha ha rfl hk (by obtain ⟨l, m, h⟩ := hne; exact ⟨l, m, Or.inl h⟩) junk hj
  refine ⟨r, e, hr.trans ?_⟩
  constructor
  · intro h
    by_cases hq : T.equalNan = true
    · exact Or.inl hq
    · right
      intro l m hs z hz
      obtain ⟨i, hi⟩ := List.mem_iff_getElem?.1 hz
      exact ((close_self (da l m z hz)).1 (h l m (Or.inl hs) i z z hi hi)).resolve_left hq
  · intro h l m hs i x y hx hy
    rw [hx] at hy
    cases hy
    refine (close_self (da l m x (List.mem_of_getElem? hx))).2 (h.imp id fun h => ?_)
    exact h l m (or_self_iff.1 hs) x (List.mem_of_getElem? hx)

/-- **C120.** Next to an infinite part there is no tolerance: if a number of `b` has an infinite part and no nan, `allclose(a, b)` is
true only if the number of `a` has the same parts, exactly. -/
theorem C120_infinite (L : AbsLib) (T : Tol) {a b : Coefs PyComplex} (ha : WellFormed a) (hb : WellFormed b) {ks : List Key}
    (hk : IsSetIter ks (a.keys ++ b.keys)) (junk : List Bool) (hj : junk.length = a.dflt.length)
    (h : allclose L T ks junk a b = .ok true) (l m : ℤ) (hs : stores a l m ∨ stores b l m) (i : ℕ) (x y : PyComplex)
    (hx : (valueAt a l m)[i]? = some x) (hy : (valueAt b l m)[i]? = some y) (hn : y.1 ≠ nan ∧ y.2 ≠ nan)
    (hi : ∃ s, y.1 = inf s ∨ y.2 = inf s) :
    (∀ s, y.1 = inf s → x.1 = inf s) ∧ (∀ s, y.2 = inf s → x.2 = inf s) ∧ x.1.num = y.1.num ∧ x.2.num = y.2.num := by
  have hl : a.dflt.length = b.dflt.length := by
    by_contra hl
    unfold FloatClose.allclose Coefs.allclose at h
    rw [if_pos hl] at h
    cases h
  obtain ⟨r, e, hr⟩ := allclose_iff L T ha hb hl hk ⟨l, m, hs⟩ junk hj
  rw [h] at e
  cases e
  have hc := hr.1 rfl l m hs i x y hx hy
  have h1 : (isFin y.1 && isFin y.2) = false := by
    obtain ⟨s, hi | hi⟩ := hi <;> rw [hi] <;> simp [isFin]
  have h3 : cnan y = false := by
    have : ∀ {u : PyFloat}, u ≠ nan → FloatCoords.isNan u = false := by intro u hu; cases u <;> simp_all [FloatCoords.isNan]
    unfold cnan; rw [this hn.1, this hn.2]; rfl
  unfold close at hc
  rw [h1, h3] at hc
  simp only [Bool.and_false, Bool.false_or, Bool.or_false, Bool.and_eq_true] at hc
  obtain ⟨k1, k2⟩ := same_of_eq hc.1
  obtain ⟨k3, k4⟩ := same_of_eq hc.2
  exact ⟨k1, k3, k2, k4⟩

/-! ### Overflow -/

theorem FloatClose.close_overflow {L : AbsLib} (hL : GoodAbs L) {T : Tol} (hr : FinD T.rtol ∧ 0 < T.rtol.num) (hat : FinD T.atol)
    {x y : PyComplex} (hx : (FinD x.1 ∨ ∃ s, x.1 = inf s) ∧ (FinD x.2 ∨ ∃ s, x.2 = inf s)) (hy : FinD y.1 ∧ FinD y.2)
    (hbig : 5 / 4 * 2 ^ (1024 : ℤ) ≤ ‖cval y‖) : close L T x y = true := by
  have hY : cabs L y = inf false := by
    rcases hL.fin _ _ hy.1 hy.2 with ⟨h, -⟩ | ⟨h1, h0, h2⟩
    · exact h
    · exfalso
      obtain ⟨s, a, e, ha⟩ := h1
      have hle : (L.hypot y.1 y.2).num ≤ maxDouble := by
        rw [e]
        refine (le_abs_self _).trans ?_
        rw [num_abs s ha.nonneg]
        exact ha.le_max
      have h3 : ((L.hypot y.1 y.2).num : ℝ) < 2 ^ (1024 : ℤ) := by
        rw [← pow_cast]
        exact Rat.cast_lt.2 (lt_of_le_of_lt hle maxDouble_lt)
      have h4 : (2 : ℝ) ^ (-1074 : ℤ) ≤ 1 := zpow_le_one_of_nonpos₀ (by norm_num) (by norm_num)
      have h5 : (16 : ℝ) ≤ 2 ^ (1024 : ℤ) := by
        calc (16 : ℝ) = 2 ^ (4 : ℤ) := by norm_num
          _ ≤ _ := zpow_le_zpow_right₀ (by norm_num) (by norm_num)
      have h6 := (abs_le.1 h2).1
      have hbig' : 5 / 4 * 2 ^ (1024 : ℤ) ≤ ‖(⟨(y.1.num : ℝ), (y.2.num : ℝ)⟩ : ℂ)‖ := hbig
      generalize (2 : ℝ) ^ (1024 : ℤ) = P at *
      generalize (2 : ℝ) ^ (-1074 : ℤ) = t at *
      generalize ‖(⟨(y.1.num : ℝ), (y.2.num : ℝ)⟩ : ℂ)‖ = v at *
      linarith
  have hT : add T.atol (mul T.rtol (cabs L y)) = inf false := by
    obtain ⟨⟨s, q, e, hq⟩, hpos⟩ := hr
    obtain ⟨t, b, e', -⟩ := hat
    rw [hY, e, e']
    rw [e] at hpos
    cases s
    · have : q ≠ 0 := by rintro rfl; simp [num] at hpos
      simp [PyFloat.mul, PyFloat.add, this]
    · have := hq.nonneg
      simp only [num, if_true] at hpos
      linarith
  have sb : ∀ {u v : PyFloat}, (FinD u ∨ ∃ s, u = inf s) → FinD v → FinD (sub u v) ∨ ∃ s, sub u v = inf s := by
    rintro u v (hu | ⟨s, rfl⟩) hv
    · exact (sub_cases hu hv).imp And.left id
    · obtain ⟨t, b, rfl, -⟩ := hv
      exact Or.inr ⟨s, rfl⟩
  have hD : le (cabs L (csub x y)) (inf false) = true := by
    have inf_le : ∀ s, sub x.1 y.1 = inf s ∨ sub x.2 y.2 = inf s → le (cabs L (csub x y)) (inf false) = true := by
      intro s h
      have : cabs L (csub x y) = inf false := hL.inf _ _ s h
      rw [this]; rfl
    rcases sb hx.1 hy.1 with f1 | ⟨s, e1⟩
    · rcases sb hx.2 hy.2 with f2 | ⟨s, e2⟩
      · rcases hL.fin _ _ f1 f2 with ⟨h, -⟩ | ⟨⟨s, a, h, -⟩, -⟩
        · have : cabs L (csub x y) = inf false := h
          rw [this]; rfl
        · have : cabs L (csub x y) = fin s a := h
          rw [this]; rfl
      · exact inf_le s (Or.inr e2)
    · exact inf_le s (Or.inl e1)
  unfold close
  rw [hT, hD, isFin_of hy.1, isFin_of hy.2]
  rfl

/-- **C120, violated.** A finite number whose absolute value overflows is close to everything: if all numbers of `b` are of this kind, then
`allclose(a, b)` is true for every `a` without nans, zero or infinite, as long as `rtol` is positive. -/
theorem C120_overflow (L : AbsLib) (hL : GoodAbs L) (T : Tol) (hr : FinD T.rtol ∧ 0 < T.rtol.num) (hat : FinD T.atol)
    {a b : Coefs PyComplex} (ha : WellFormed a) (hb : WellFormed b) (hl : a.dflt.length = b.dflt.length) {ks : List Key}
    (hk : IsSetIter ks (a.keys ++ b.keys)) (hne : ∃ l m, stores a l m ∨ stores b l m) (junk : List Bool)
    (hj : junk.length = a.dflt.length) (da : ∀ l m, ∀ z ∈ valueAt a l m, (FinD z.1 ∨ ∃ s, z.1 = inf s) ∧ (FinD z.2 ∨ ∃ s, z.2 = inf s))
    (db : ∀ l m, (stores a l m ∨ stores b l m) → ∀ z ∈ valueAt b l m, FinD z.1 ∧ FinD z.2 ∧ 5 / 4 * 2 ^ (1024 : ℤ) ≤ ‖cval z‖) :
    allclose L T ks junk a b = .ok true := by
  obtain ⟨r, e, h⟩ := allclose_iff L T ha hb hl hk hne junk hj
  rw [e, h.2 fun l m hs i x y hx hy => ?_]
  obtain ⟨h1, h2, h3⟩ := db l m hs y (List.mem_of_getElem? hy)
  exact close_overflow hL hr hat (da l m x (List.mem_of_getElem? hx)) ⟨h1, h2⟩ h3

/-! ### Files -/

/-- Parts that agree to two parts in a million are close by default. -/
theorem FloatClose.close_rel {L : AbsLib} (hL : GoodAbs L) {x y : PyComplex} (hx : NotHuge 1000 x) (hy : NotHuge 1000 y)
    (h1 : |(x.1.num : ℝ) - y.1.num| ≤ 2 / 10 ^ 6 * |(y.1.num : ℝ)|) (h2 : |(x.2.num : ℝ) - y.2.num| ≤ 2 / 10 ^ 6 * |(y.2.num : ℝ)|) :
    close L defaults x y = true := by
  obtain ⟨g, e1, e2⟩ := defaults_good
  refine close_of hL g hx hy ?_
  have hd : ‖cval x - cval y‖ ≤ 2 / 10 ^ 6 * ‖cval y‖ := by
    have e : cval x - cval y = ⟨(x.1.num : ℝ) - y.1.num, (x.2.num : ℝ) - y.2.num⟩ := by
      unfold cval; apply Complex.ext <;> simp
    rw [e]
    unfold cval
    rw [← norm_scale (by norm_num)]
    refine norm_mono ?_ ?_
    · rwa [abs_mul, abs_of_nonneg (by norm_num : (0 : ℝ) ≤ 2 / 10 ^ 6)]
    · rwa [abs_mul, abs_of_nonneg (by norm_num : (0 : ℝ) ≤ 2 / 10 ^ 6)]
  have hY := norm_nonneg (cval y)
  have hP : (2 : ℝ) ^ (-1000 : ℤ) ≤ 1 / 10 ^ 9 := by
    calc (2 : ℝ) ^ (-1000 : ℤ) ≤ 2 ^ (-40 : ℤ) := zpow_le_zpow_right₀ (by norm_num) (by norm_num)
      _ ≤ _ := by norm_num
  generalize (2 : ℝ) ^ (-1000 : ℤ) = P at *
  generalize ‖cval y‖ = Y at *
  generalize (defaults.rtol.num : ℝ) = r at *
  generalize (defaults.atol.num : ℝ) = t at *
  have b1 := (abs_le.1 e1).1
  have b2 := (abs_le.1 e2).1
  have r1 : 9 / 10 ^ 6 ≤ r := by linarith
  have t1 : 9 / 10 ^ 9 ≤ t := by linarith
  have h3 : 9 / 10 ^ 6 * Y ≤ r * Y := mul_le_mul_of_nonneg_right r1 hY
  nlinarith

/-- **C120.** A set written to a file and read again is close to the original, with the default tolerances and in either order, if the
file covers all its pairs. -/
theorem C120_written (E : PyEnv) (L : AbsLib) (hL : GoodAbs L) (src fn : Text) (s : Coefs PyComplex) (dmo : Option ℤ) (om : ℤ) (swmf : Bool)
    (hs : WellFormed s) (hcol : s.dflt ≠ []) (ht : Tame 999 s) (hne : ∃ l m, stores s l m)
    (hall : ∀ l m, stores s l m → InWindow (dmo.getD s.degreeMax) om l m) (hhead : HeaderHarmless E.digits src fn swmf) {text : Text}
    {r : Coefs PyComplex} (hw : writeMagnetogram src fn s dmo om swmf = .ok text) (hr : readMagnetogram E text = .ok r) {ks : List Key}
    (hk : IsSetIter ks (r.keys ++ s.keys)) (junk : List Bool) (hj : junk.length = s.dflt.length) :
    allclose L defaults ks junk r s = .ok true ∧ allclose L defaults ks junk s r = .ok true := by
  obtain ⟨l0, m0, h0⟩ := hne
  have hfin : ∀ l m, ∀ z ∈ valueAt s l m, IsFinite z.1 ∧ IsFinite z.2 := fun l m z hz =>
    ⟨FloatFactors.fd_iff.1 (ht l m z hz).1, FloatFactors.fd_iff.1 (ht l m z hz).2.1⟩
  obtain ⟨text', r', e1, e2, w, dr, hst, hv⟩ := C20_write_read E src fn s dmo om swmf hs hcol ⟨l0, m0, hall l0 m0 h0⟩
    (fun l m _ z hz => hfin l m z hz) hhead
  rw [hw] at e1; cases e1
  rw [hr] at e2; cases e2
  have hlen : r.dflt.length = s.dflt.length := by rw [dr, List.length_replicate]
  have h1000 : ∀ {q p : ℚ}, |p| ≤ 2 ^ (999 : ℤ) → |q - p| ≤ 1 / 10 ^ 6 * |p| → |q| ≤ 2 ^ (1000 : ℤ) := by
    intro q p hp hq
    have := abs_sub_abs_le_abs_sub q p
    rw [show (1000 : ℤ) = 1 + 999 by norm_num, zpow_add₀ (by norm_num), zpow_one]
    linarith
  have ht' : ∀ {z : PyComplex}, NotHuge 999 z → NotHuge 1000 z := by
    rintro z ⟨h1, h2, h3, h4⟩
    exact ⟨h1, h2, h3.trans (zpow_le_zpow_right₀ (by norm_num) (by norm_num)), h4.trans (zpow_le_zpow_right₀ (by norm_num) (by norm_num))⟩
  have step : ∀ {p q : PyFloat}, Rounded7 p q → |p.num| ≤ 2 ^ (999 : ℤ) → FinD q ∧ |q.num| ≤ 2 ^ (1000 : ℤ) ∧
      |(q.num : ℝ) - p.num| ≤ 2 / 10 ^ 6 * |(p.num : ℝ)| ∧ |(p.num : ℝ) - q.num| ≤ 2 / 10 ^ 6 * |(q.num : ℝ)| := by
    rintro p q ⟨fp, fq, d, -, -, -, -, h⟩ hp
    rw [FloatFactors.value_eq_num (FloatFactors.fd_iff.2 fp), FloatFactors.value_eq_num (FloatFactors.fd_iff.2 fq)] at h
    refine ⟨FloatFactors.fd_iff.2 fq, h1000 hp h, ?_, ?_⟩
    · have := (Rat.cast_le (K := ℝ)).2 h
      push_cast at this
      have := abs_nonneg (p.num : ℝ)
      linarith
    · have h1 := (Rat.cast_le (K := ℝ)).2 h
      push_cast at h1
      have h2 := abs_sub_abs_le_abs_sub (p.num : ℝ) q.num
      rw [abs_sub_comm] at h1
      have := abs_nonneg (p.num : ℝ)
      linarith
  have pair : ∀ l m, (stores r l m ∨ stores s l m) → ∀ (i : ℕ) (x y : PyComplex), (valueAt s l m)[i]? = some x → (valueAt r l m)[i]? = some y →
      close L defaults x y = true ∧ close L defaults y x = true := by
    intro l m hsm i x y hx hy
    have hin : InWindow (dmo.getD s.degreeMax) om l m := by
      rcases hsm with h | h
      · exact (hst l m).1 h
      · exact hall l m h
    have hxy : Rounded7 x.1 y.1 ∧ Rounded7 x.2 y.2 := by
      have h := List.forall₂_iff_get.1 (hv l m hin)
      obtain ⟨hi, rfl⟩ := List.getElem?_eq_some_iff.1 hx
      obtain ⟨hi', rfl⟩ := List.getElem?_eq_some_iff.1 hy
      exact h.2 i hi hi'
    have nx := ht l m x (List.mem_of_getElem? hx)
    obtain ⟨f1, b1, c1, c1'⟩ := step hxy.1 nx.2.2.1
    obtain ⟨f2, b2, c2, c2'⟩ := step hxy.2 nx.2.2.2
    have ny : NotHuge 1000 y := ⟨f1, f2, b1, b2⟩
    exact ⟨close_rel hL (ht' nx) ny c1' c2', close_rel hL ny (ht' nx) c1 c2⟩
  constructor
  · obtain ⟨b, e, h⟩ := allclose_iff L defaults w hs hlen hk ⟨l0, m0, Or.inr h0⟩ junk (by rw [hj, hlen])
    rw [e, h.2 fun l m hsm i x y hx hy => (pair l m hsm i y x hy hx).2]
  · have hk' : IsSetIter ks (s.keys ++ r.keys) := ⟨hk.1, fun k => by rw [hk.2]; simp only [List.mem_append]; exact or_comm⟩
    obtain ⟨b, e, h⟩ := allclose_iff L defaults hs w hlen.symm hk' ⟨l0, m0, Or.inl h0⟩ junk hj
    rw [e, h.2 fun l m hsm i x y hx hy => (pair l m hsm.symm i x y hx hy).1]

/-- The first column of a set. -/
theorem FloatClose.first_column {s : Coefs PyComplex} (hs : s.WF) (h : s.dflt ≠ []) :
    ∃ c cs, hsplit s = .ok (c :: cs) ∧ c.WF ∧ c.dflt = s.dflt.take 1 ∧ (∀ l m, stores c l m ↔ stores s l m) ∧
      ∀ l m, valueAt c l m = (valueAt s l m).take 1 := by
  obtain ⟨n, hn⟩ : ∃ n, s.dflt.length = n + 1 := ⟨s.dflt.length - 1, by have := List.length_pos_of_ne_nil h; omega⟩
  obtain ⟨T, e, hT⟩ := hsplit_spec hs (n + 1) (by omega) (by rw [hn, Nat.mod_self])
  have e' : hsplit s = .ok ((List.range (n + 1)).map T) := by
    rw [← e, hsplit, hsplit, Option.getD_none, Option.getD_some, hn]
  rw [List.range_succ_eq_map, List.map_cons] at e'
  obtain ⟨w, k, d, -, g⟩ := hT 0 (by omega)
  have sect0 : ∀ xs : List PyComplex, xs.length = n + 1 → sect xs (n + 1) 0 = xs.take 1 := by
    intro xs hx
    rw [sect, hx, Nat.div_self (by omega), Nat.zero_mul, List.drop_zero]
  refine ⟨T 0, _, e', w, by rw [d, sect0 _ hn], fun l m => ?_, fun l m => ?_⟩
  · rw [stores, stores, has_int, has_int, k, mem_sortKeys]
  · show (T 0).getI (l, m) = (s.getI (l, m)).take 1
    rw [g, sect0 _ (by rw [hs.getI_length, hn])]

open Cli in
/-- **C120.** There and back through files: the radial field of the converted and reconverted file is close to that of the original, with
the default tolerances, if both files cover all its pairs. -/
theorem C120_round_trip (E : PyEnv) (A : AbsLib) (hA : GoodAbs A) (L : FactorLib) (hL : GoodFactorLib L) (src : Text) (o p : Options)
    (d d1 d2 : Disk) (t : Text) (s : Coefs PyComplex) (ho1 : o.noConversion = false) (ho2 : o.pfssToZdi = false) (hp1 : p.noConversion = false)
    (hp2 : p.pfssToZdi = true) (hop : p.input = target o) (h : d.read o.input = .ok t) (hr : readMagnetogram E t = .ok s)
    (hm1 : main E (FloatFactors.factors L) src o d = .ok () d1) (hm2 : main E (FloatFactors.factors L) src p d1 = .ok () d2)
    (hh1 : HeaderHarmless E.digits src (target o) o.swmfHeader) (hh2 : HeaderHarmless E.digits src (target p) false)
    (hmax : 0 ≤ o.degreeMax.getD s.degreeMax ∧ o.degreeMax.getD s.degreeMax ≤ 2 ^ 62 - 1)
    (hcover : ∀ l m : ℤ, stores s l m → 0 ≤ m ∧ l ≤ o.degreeMax.getD s.degreeMax ∧ l ≤ p.degreeMax.getD (o.degreeMax.getD s.degreeMax))
    (hp0 : 0 ≤ p.degreeMax.getD (o.degreeMax.getD s.degreeMax))
    (hz : ∀ l m : ℤ, stores s l m → ∀ z ∈ (valueAt s l m).head?, Moderate 800 z.1 ∧ Moderate 800 z.2) :
    ∃ text r c cs u us, d2.read (target p) = .ok text ∧ readMagnetogram E text = .ok r ∧ hsplit r = .ok (c :: cs) ∧ hsplit s = .ok (u :: us) ∧
      ∀ ks, IsSetIter ks (c.keys ++ u.keys) → ∀ junk : List Bool, junk.length = 1 → allclose A defaults ks junk c u = .ok true := by
  obtain ⟨ws, -, n, hn⟩ := read_column E hr
  have hin : ∀ l m : ℤ, stores s l m → InWindow (o.degreeMax.getD s.degreeMax) 0 l m ∧
      InWindow (p.degreeMax.getD (o.degreeMax.getD s.degreeMax)) 0 l m := by
    intro l m hs
    have hv : |m| ≤ l := ws.valid (l, m) ((has_int s l m).1 hs)
    obtain ⟨a1, a2, a3⟩ := hcover l m hs
    have := FloatFactors.degree_nonneg hr hs
    exact ⟨⟨this, a2, hv, a1⟩, ⟨this, a3, hv, a1⟩⟩
  obtain ⟨text, r, x1, x2, x3, x4, x5⟩ := C118_round_trip E L hL src o p d d1 d2 t s ho1 ho2 hp1 hp2 hop h hr hm1 hm2 hh1 hh2
    (fun l m hs => (hcover l m hs).2.1.trans hmax.2) hmax hz
  obtain ⟨wr, -, -⟩ := read_column E x2
  obtain ⟨c, cs, ec, wc, dc, kc, vc⟩ := first_column wr (by rw [x3]; simp)
  obtain ⟨u, us, eu, wu, du, ku, vu⟩ := first_column ws (by rw [hn]; simp [List.replicate_succ])
  refine ⟨text, r, c, cs, u, us, x1, x2, ec, eu, fun ks hk junk hj => ?_⟩
  have lc : c.dflt.length = 1 := by rw [dc, x3]; rfl
  have lu : u.dflt.length = 1 := by rw [du, hn]; simp [List.replicate_succ]
  have hw0 : stores r 0 0 := (x4 0 0).2 ⟨le_rfl, hp0, by norm_num, le_rfl⟩
  obtain ⟨b, e, hb⟩ := allclose_iff A defaults (wellFormed_of_WF wc) (wellFormed_of_WF wu) (lc.trans lu.symm) hk
    ⟨0, 0, Or.inl ((kc 0 0).2 hw0)⟩ junk (hj.trans lc.symm)
  rw [e, hb.2 fun l m hsm i x y hx hy => ?_]
  have hwin : InWindow (p.degreeMax.getD (o.degreeMax.getD s.degreeMax)) 0 l m := by
    rcases hsm with hsm | hsm
    · exact (x4 l m).1 ((kc l m).1 hsm)
    · exact (hin l m ((ku l m).1 hsm)).2
  obtain ⟨y1, y2, y3, hv, q1, q2, -⟩ := x5 l m hwin
  rw [vc, hv] at hx
  have hi : i = 0 := by
    rcases i with _ | i
    · rfl
    · simp at hx
  subst hi
  simp only [List.take_succ_cons, List.take_zero, List.getElem?_cons_zero, Option.some.injEq] at hx
  subst hx
  have zero_fin : ∀ a : Bool, FinD (fin a 0) ∧ |(fin a 0).num| ≤ (2 : ℚ) ^ (1000 : ℤ) := fun a =>
    ⟨fd_zero a, by rw [num_zero, abs_zero]; positivity⟩
  by_cases hs : stores s l m
  · obtain ⟨z, hz1, ⟨w1, w2⟩, -⟩ := q1 (hin l m hs).1 hs
    have hyz : y = z := by
      rw [vu] at hy
      rcases hvl : valueAt s l m with _ | ⟨z0, zs⟩
      · rw [hvl] at hz1; cases hz1
      · rw [hvl] at hz1 hy
        simp at hz1 hy
        rw [← hy, hz1]
    subst hyz
    obtain ⟨g1, g2⟩ := hz l m hs y (by rw [hz1]; rfl)
    have part : ∀ {a b : PyFloat}, Moderate 800 a → WithinRel (1001 / 10 ^ 9) (value a) b → FinD a ∧ FinD b ∧
        |a.num| ≤ (2 : ℚ) ^ (1000 : ℤ) ∧ |b.num| ≤ (2 : ℚ) ^ (1000 : ℤ) ∧ |(b.num : ℝ) - a.num| ≤ 2 / 10 ^ 6 * |(a.num : ℝ)| := by
      rintro a b ⟨fa, ha⟩ ⟨fb, hb⟩
      have fa' := FloatFactors.fd_iff.2 fa
      have fb' := FloatFactors.fd_iff.2 fb
      rw [FloatFactors.value_eq_num fa'] at ha hb
      rw [FloatFactors.value_eq_num fb'] at hb
      have hA : |a.num| ≤ (2 : ℚ) ^ (999 : ℤ) := by
        rcases ha with ha | ha
        · rw [ha, abs_zero]; positivity
        · exact ha.2.trans (zpow_le_zpow_right₀ (by norm_num) (by norm_num))
      have e2 : (2 : ℚ) ^ (1000 : ℤ) = 2 * 2 ^ (999 : ℤ) := by
        rw [show (1000 : ℤ) = 1 + 999 by norm_num, zpow_add₀ (by norm_num), zpow_one]
      have a0 := abs_nonneg (a.num : ℝ)
      refine ⟨fa', fb', ?_, ?_, ?_⟩
      · exact hA.trans (zpow_le_zpow_right₀ (by norm_num) (by norm_num))
      · have h1 := abs_sub_abs_le_abs_sub (b.num : ℝ) a.num
        have h2 : |(b.num : ℝ)| ≤ 2 * |(a.num : ℝ)| := by linarith
        have h3 : |b.num| ≤ 2 * |a.num| := by
          rw [← Rat.cast_le (K := ℝ)]; push_cast; exact h2
        rw [e2]
        linarith
      · linarith
    obtain ⟨f1, f2, b1, b2, c1⟩ := part g1 w1
    obtain ⟨f3, f4, b3, b4, c2⟩ := part g2 w2
    exact close_rel hA ⟨f2, f4, b2, b4⟩ ⟨f1, f3, b1, b3⟩ c1 c2
  · obtain ⟨⟨a, a', rfl⟩, -⟩ := q2 fun hh => hs hh.2
    have hy0 : y = zeroJ := by
      rw [vu] at hy
      have hk0 : (l, m) ∉ s.keys := fun hk => hs ((has_int s l m).2 hk)
      have : valueAt s l m = s.dflt := by
        show s.getI (l, m) = _
        exact getI_of_not_mem s (l, m) hk0
      rw [this, hn] at hy
      simpa [List.replicate_succ] using hy.symm
    subst hy0
    refine close_rel hA ⟨(zero_fin a).1, (zero_fin a').1, (zero_fin a).2, (zero_fin a').2⟩
      ⟨(zero_fin _).1, (zero_fin _).1, (zero_fin _).2, (zero_fin _).2⟩ ?_ ?_ <;> simp [zeroJ, num]

/-! ### Non-vacuity -/

namespace FloatClose

theorem near_norm (x y : PyFloat) : ∃ u : ℚ, ‖(⟨x.num, y.num⟩ : ℂ)‖ < u ∧
    (u : ℝ) < ‖(⟨x.num, y.num⟩ : ℂ)‖ * (1 + 1 / 2 ^ 53) + 2 ^ (-1076 : ℤ) := by
  have h := norm_nonneg (⟨x.num, y.num⟩ : ℂ)
  have h2 : (0 : ℝ) < 2 ^ (-1076 : ℤ) := by positivity
  exact exists_rat_btwn (show ‖(⟨x.num, y.num⟩ : ℂ)‖ < ‖(⟨x.num, y.num⟩ : ℂ)‖ * (1 + 1 / 2 ^ 53) + 2 ^ (-1076 : ℤ) by nlinarith)

/-- A function as assumed: a number slightly above the norm, rounded. -/
noncomputable def exAbs : AbsLib where
  hypot
    | fin s a, fin t b => ofMag false (near_norm (fin s a) (fin t b)).choose
    | inf _, _ => inf false
    | _, inf _ => inf false
    | _, _ => nan

theorem exAbs_good : GoodAbs exAbs where
  inf x y s h := by
    rcases h with rfl | rfl
    · rfl
    · cases x <;> rfl
  nan x y h1 h2 h := by
    cases x with
    | inf s => exact absurd rfl (h1 s)
    | fin s a =>
      cases y with
      | inf s => exact absurd rfl (h2 s)
      | fin t b => rcases h with h | h <;> cases h
      | nan => rfl
    | nan =>
      cases y with
      | inf s => exact absurd rfl (h2 s)
      | fin t b => rfl
      | nan => rfl
  fin x y hx hy := by
    obtain ⟨s, a, rfl, -⟩ := hx
    obtain ⟨t, b, rfl, -⟩ := hy
    have hu := (near_norm (fin s a) (fin t b)).choose_spec
    show ofMag false (near_norm (fin s a) (fin t b)).choose = _ ∧ _ ∨ FinD (ofMag false (near_norm (fin s a) (fin t b)).choose) ∧
      0 ≤ (ofMag false (near_norm (fin s a) (fin t b)).choose).num ∧
        |((ofMag false (near_norm (fin s a) (fin t b)).choose).num : ℝ) - _| ≤ _
    generalize (near_norm (fin s a) (fin t b)).choose = u at hu ⊢
    have hv := norm_nonneg (⟨(fin s a).num, (fin t b).num⟩ : ℂ)
    generalize ‖(⟨(fin s a).num, (fin t b).num⟩ : ℂ)‖ = v at hu hv ⊢
    have u0' : (0 : ℝ) < u := lt_of_le_of_lt hv hu.1
    have u0 : 0 < u := by exact_mod_cast u0'
    have h1 := fl0_err u0.le
    have t1 : (((2 : ℚ) ^ (-1075 : ℤ) : ℚ) : ℝ) = 2 ^ (-1074 : ℤ) / 2 := by
      rw [pow_cast, show (-1074 : ℤ) = -1075 + 1 by norm_num, zpow_add₀ (by norm_num), zpow_one]; ring
    have t2 : (2 : ℝ) ^ (-1076 : ℤ) = 2 ^ (-1074 : ℤ) / 4 := by
      rw [show (-1074 : ℤ) = -1076 + 2 by norm_num, zpow_add₀ (by norm_num)]; norm_num
    have t3 : (2 : ℝ) ^ (-1074 : ℤ) ≤ 1 := zpow_le_one_of_nonpos₀ (by norm_num) (by norm_num)
    have t4 : (0 : ℝ) < 2 ^ (-1074 : ℤ) := by positivity
    have h2 := (Rat.cast_le (K := ℝ)).2 h1
    rw [Rat.cast_add, t1] at h2
    push_cast at h2
    rw [t2] at hu
    generalize (2 : ℝ) ^ (-1074 : ℤ) = e at *
    have h3 := abs_le.1 h2
    by_cases hc : (2 : ℚ) ^ (1024 : ℤ) ≤ fl0 u
    · left
      refine ⟨by unfold ofMag; rw [if_pos hc], ?_⟩
      have hc' := (Rat.cast_le (K := ℝ)).2 hc
      rw [pow_cast] at hc'
      have e2 : (2 : ℝ) ^ (1024 : ℤ) = 2 * 2 ^ (1023 : ℤ) := by
        rw [show (1024 : ℤ) = 1 + 1023 by norm_num, zpow_add₀ (by norm_num), zpow_one]
      have e3 : (16 : ℝ) ≤ 2 ^ (1023 : ℤ) := by
        calc (16 : ℝ) = 2 ^ (4 : ℤ) := by norm_num
          _ ≤ _ := zpow_le_zpow_right₀ (by norm_num) (by norm_num)
      rw [e2] at hc'
      generalize (2 : ℝ) ^ (1023 : ℤ) = P at *
      nlinarith [h3.2, hu.2]
    · right
      have e1 : ofMag false u = PyFloat.fin false (fl0 u) := by unfold ofMag; rw [if_neg hc]
      have n1 : (PyFloat.fin false (fl0 u)).num = fl0 u := by simp [num]
      rw [e1, n1]
      refine ⟨⟨_, _, rfl, fl0_isDouble u u0.le (not_le.1 hc)⟩, fl0_nonneg u0.le, ?_⟩
      rw [abs_le]
      constructor <;> nlinarith [h3.1, h3.2, hu.1, hu.2]

/-- One complex number at degree 1 and order 0. -/
def single (z : PyComplex) : Coefs PyComplex := ⟨[zeroJ], .cplx, [((1, 0), [z])], 1, 0⟩

theorem single_wf (z : PyComplex) : WellFormed (single z) := by
  refine wellFormed_of_WF ?_
  constructor <;> simp [single, Coefs.keys] <;> intros <;> rfl

theorem single_values {z : PyComplex} {l m : ℤ} {w : PyComplex} (h : w ∈ valueAt (single z) l m) : w = z ∨ w = zeroJ := by
  rw [elem_getI] at h
  by_cases hk : (l, m) = (1, 0)
  · rw [hk, show (single z).getI (1, 0) = [z] from rfl, List.mem_singleton] at h
    exact Or.inl h
  · rw [getI_of_not_mem _ _ (by simpa [single, Coefs.keys] using hk), show (single z).dflt = [zeroJ] from rfl, List.mem_singleton] at h
    exact Or.inr h

theorem single_stores {z : PyComplex} {l m : ℤ} (h : stores (single z) l m) : l = 1 ∧ m = 0 := by
  have := (Coefs.has_int _ l m).1 h
  simpa [single, Coefs.keys] using this

theorem stores_single (z : PyComplex) : stores (single z) 1 0 := rfl

theorem single_at (z : PyComplex) : valueAt (single z) 1 0 = [z] := rfl

theorem single_iter (x y : PyComplex) : IsSetIter [(1, 0)] ((single x).keys ++ (single y).keys) := by
  refine ⟨by simp, fun k => ?_⟩
  simp [single, Coefs.keys]

theorem notHuge_zero {k : ℤ} : NotHuge k zeroJ := by
  have h : (0 : ℚ) ≤ 2 ^ k := by positivity
  exact ⟨fd_zero _, fd_zero _, by simpa [zeroJ, num] using h, by simpa [zeroJ, num] using h⟩

theorem single_tame {k : ℤ} {z : PyComplex} (h : NotHuge k z) : Tame k (single z) := by
  intro l m w hw
  rcases single_values hw with rfl | rfl
  · exact h
  · exact notHuge_zero

theorem single_doubles {z : PyComplex} (h : IsDbl z.1 ∧ IsDbl z.2) : Doubles (single z) := by
  intro l m w hw
  rcases single_values hw with rfl | rfl
  · exact h
  · exact ⟨Or.inl (fd_zero _), Or.inl (fd_zero _)⟩

theorem fd_nat (s : Bool) {n : ℕ} (h : n < 2 ^ 53) : FinD (fin s n) := ⟨s, n, rfl, n, 0, h, by norm_num, by norm_num, by simp⟩

/-- A million, and a million and one. -/
def million : PyComplex := (fin false (1000000 : ℕ), fin false 0)
def millionOne : PyComplex := (fin false (1000001 : ℕ), fin false 0)

theorem notHuge_nat {n : ℕ} (h : n < 2 ^ 53) : NotHuge 1000 (fin false n, fin false 0) := by
  refine ⟨fd_nat _ h, fd_zero _, ?_, by simp [num]⟩
  have h1 : (n : ℚ) ≤ 2 ^ (53 : ℤ) := by exact_mod_cast h.le
  simp only [num, Bool.false_eq_true, if_false, Nat.abs_cast]
  exact h1.trans (zpow_le_zpow_right₀ (by norm_num) (by norm_num))

theorem cval_nat (n : ℕ) : cval (fin false n, fin false 0) = n := by
  apply Complex.ext <;> simp [cval, num]

end FloatClose

open FloatClose

/-- Non-vacuity of `C120_close`: one in a million is within the default tolerance. -/
example : allclose exAbs defaults [(1, 0)] [false] (single millionOne) (single million) = .ok true := by
  obtain ⟨g, e1, e2⟩ := defaults_good
  refine C120_close exAbs exAbs_good defaults g (single_wf millionOne) (single_wf million) (single_tame (notHuge_nat (by norm_num)))
    (single_tame (notHuge_nat (by norm_num))) rfl (single_iter _ _) ⟨1, 0, Or.inl (stores_single _)⟩ _ rfl ?_
  intro l m hs i x y hx hy
  have hk : l = 1 ∧ m = 0 := hs.elim single_stores single_stores
  rw [hk.1, hk.2, single_at] at hx hy
  rcases i with _ | i
  · simp only [List.getElem?_cons_zero, Option.some.injEq] at hx hy
    rw [← hx, ← hy, millionOne, million, cval_nat, cval_nat]
    have h1 : ‖((1000001 : ℕ) : ℂ) - ((1000000 : ℕ) : ℂ)‖ = 1 := by
      rw [show ((1000001 : ℕ) : ℂ) - ((1000000 : ℕ) : ℂ) = 1 by push_cast; norm_num, norm_one]
    have h2 : ‖((1000000 : ℕ) : ℂ)‖ = 1000000 := by rw [Complex.norm_natCast]; norm_num
    have hP : (2 : ℝ) ^ (-1000 : ℤ) ≤ 1 := zpow_le_one_of_nonpos₀ (by norm_num) (by norm_num)
    rw [h1, h2]
    generalize (2 : ℝ) ^ (-1000 : ℤ) = P at *
    have a1 := (abs_le.1 e1).1
    have a2 := (abs_le.1 e2).1
    norm_num at a1 a2 ⊢
    linarith
  · simp at hx

/-- Non-vacuity of `C120_true`: 2 is not close to 1. -/
example : allclose exAbs defaults [(1, 0)] [false] (single (fin false (2 : ℕ), fin false 0)) (single (fin false (1 : ℕ), fin false 0)) ≠ .ok true := by
  intro h
  obtain ⟨g, e1, e2⟩ := defaults_good
  obtain ⟨-, h⟩ := C120_true exAbs exAbs_good defaults g (single_wf (fin false (2 : ℕ), fin false 0))
    (single_wf (fin false (1 : ℕ), fin false 0)) (single_doubles ⟨Or.inl (fd_nat _ (by norm_num)), Or.inl (fd_zero _)⟩)
    (single_tame (notHuge_nat (by norm_num))) (single_iter _ _) _ rfl h
  have h := (h 1 0 (Or.inl rfl) 0 _ _ (by rw [single_at]; rfl) (by rw [single_at]; rfl)).2
  rw [cval_nat, cval_nat] at h
  have h1 : ‖((2 : ℕ) : ℂ) - ((1 : ℕ) : ℂ)‖ = 1 := by
    rw [show ((2 : ℕ) : ℂ) - ((1 : ℕ) : ℂ) = 1 by push_cast; norm_num, norm_one]
  have h2 : ‖((1 : ℕ) : ℂ)‖ = 1 := by rw [Complex.norm_natCast]; norm_num
  have hP : (2 : ℝ) ^ (-1000 : ℤ) ≤ 1 / 2 ^ 10 := by
    calc (2 : ℝ) ^ (-1000 : ℤ) ≤ 2 ^ (-10 : ℤ) := zpow_le_zpow_right₀ (by norm_num) (by norm_num)
      _ = _ := by norm_num
  rw [h1, h2] at h
  generalize (2 : ℝ) ^ (-1000 : ℤ) = P at *
  have a1 := (abs_le.1 e1).2
  have a2 := (abs_le.1 e2).2
  norm_num at a1 a2 hP h
  linarith

/-- Non-vacuity of `C120_self`: a set with a nan is not close to itself, one with an infinity is. -/
example : allclose exAbs defaults [(1, 0)] [false] (single (nan, fin false 0)) (single (nan, fin false 0)) = .ok false ∧
    allclose exAbs defaults [(1, 0)] [false] (single (inf true, fin false 0)) (single (inf true, fin false 0)) = .ok true := by
  constructor
  · obtain ⟨r, e, hr⟩ := C120_self exAbs defaults (single_wf (nan, fin false 0))
      (single_doubles ⟨Or.inr (Or.inr rfl), Or.inl (fd_zero _)⟩) (single_iter _ _) ⟨1, 0, rfl⟩ [false] rfl
    rw [e]
    cases r
    · rfl
    · rcases hr.1 rfl with h | h
      · cases h
      · exact absurd rfl (h 1 0 rfl (nan, fin false 0) (by rw [single_at]; simp)).1
  · obtain ⟨r, e, hr⟩ := C120_self exAbs defaults (single_wf (inf true, fin false 0))
      (single_doubles ⟨Or.inr (Or.inl ⟨_, rfl⟩), Or.inl (fd_zero _)⟩) (single_iter _ _) ⟨1, 0, rfl⟩ [false] rfl
    rw [e, hr.2 (Or.inr fun l m hs z hz => ?_)]
    rcases single_values hz with rfl | rfl <;> simp [zeroJ]

/-- Non-vacuity of `C120_infinite`: next to an infinite part a million and a million and one are not close. -/
example : allclose exAbs defaults [(1, 0)] [false] (single (inf false, million.1)) (single (inf false, millionOne.1)) ≠ .ok true := by
  intro h
  have h := C120_infinite exAbs defaults (single_wf _) (single_wf _) (single_iter _ _) [false] rfl h 1 0 (Or.inl rfl) 0 _ _
    (by rw [single_at]; rfl) (by rw [single_at]; rfl) ⟨by simp, by simp [millionOne]⟩ ⟨false, Or.inl rfl⟩
  have := h.2.2.2
  simp [million, millionOne, num] at this

theorem FloatClose.max_fd : FinD (fin false maxDouble) := ⟨_, _, rfl, maxDouble_isDouble⟩

/-- Non-vacuity of `C120_overflow`: zero is close to the number with both parts the largest double. -/
example : allclose exAbs defaults [(1, 0)] [false] (single zeroJ) (single (fin false maxDouble, fin false maxDouble)) = .ok true := by
  obtain ⟨g, e1, e2⟩ := defaults_good
  refine C120_overflow exAbs exAbs_good defaults ⟨g.rtol.1, ?_⟩ g.atol.1 (single_wf zeroJ)
    (single_wf (fin false maxDouble, fin false maxDouble)) rfl (single_iter _ _) ⟨1, 0, Or.inl (stores_single _)⟩ _ rfl ?_ ?_
  · have a1 := (abs_le.1 e1).1
    have : (0 : ℝ) < defaults.rtol.num := by
      norm_num at a1
      generalize (defaults.rtol.num : ℝ) = t at a1 ⊢
      linarith
    exact_mod_cast this
  · intro l m z hz
    rcases single_values hz with rfl | rfl <;> exact ⟨Or.inl (fd_zero _), Or.inl (fd_zero _)⟩
  · intro l m hs z hz
    have hk : l = 1 ∧ m = 0 := hs.elim single_stores single_stores
    rw [hk.1, hk.2, single_at, List.mem_singleton] at hz
    rw [hz]
    refine ⟨max_fd, max_fd, ?_⟩
    have hm : (((fin false maxDouble).num : ℚ) : ℝ) = (2 ^ 53 - 1) / 2 ^ 53 * 2 ^ (1024 : ℤ) := by
      have : (fin false maxDouble).num = maxDouble := rfl
      rw [this, maxDouble, Rat.cast_mul, pow_cast, show (1024 : ℤ) = 53 + 971 by norm_num, zpow_add₀ (by norm_num)]
      generalize (2 : ℝ) ^ (971 : ℤ) = P
      norm_num
      ring
    unfold cval
    rw [hm]
    have hp : (0 : ℝ) < 2 ^ (1024 : ℤ) := by positivity
    generalize (2 : ℝ) ^ (1024 : ℤ) = P at *
    rw [Complex.norm_def, Complex.normSq_mk]
    refine Real.le_sqrt_of_sq_le ?_
    nlinarith [mul_pos hp hp]

/-- Non-vacuity of `C120_written`. -/
example (E : PyEnv) : ∃ text r, writeMagnetogram [] [] (single million) none 0 false = .ok text ∧ readMagnetogram E text = .ok r ∧
    ∃ ks, IsSetIter ks (r.keys ++ (single million).keys) ∧ allclose exAbs defaults ks [false] r (single million) = .ok true := by
  have hh : HeaderHarmless E.digits [] [] false := by simp [HeaderHarmless, NoBreak]
  have ht : Tame 999 (single million) := by
    refine single_tame ⟨fd_nat _ (by norm_num), fd_zero _, ?_, by simp [million, num]⟩
    have h1 : ((1000000 : ℕ) : ℚ) ≤ 2 ^ (53 : ℤ) := by norm_num
    simp only [million, num, Bool.false_eq_true, if_false, Nat.abs_cast]
    exact h1.trans (zpow_le_zpow_right₀ (by norm_num) (by norm_num))
  have hin : InWindow 1 0 1 0 := by unfold InWindow; norm_num
  have hc : (single million).dflt ≠ [] := by simp [single]
  obtain ⟨text, r, e1, e2, -⟩ := C20_write_read E [] [] (single million) none 0 false (single_wf _) hc ⟨1, 0, hin⟩
    (fun l m _ z hz => ⟨FloatFactors.fd_iff.1 (ht l m z hz).1, FloatFactors.fd_iff.1 (ht l m z hz).2.1⟩) hh
  have hk : IsSetIter (r.keys ++ (single million).keys).dedup (r.keys ++ (single million).keys) :=
    ⟨List.nodup_dedup _, fun k => List.mem_dedup⟩
  exact ⟨text, r, e1, e2, _, hk, (C120_written E exAbs exAbs_good [] [] (single million) none 0 false (single_wf _) hc ht
    ⟨1, 0, stores_single _⟩ (fun l m h => by obtain ⟨rfl, rfl⟩ := single_stores h; exact hin) hh e1 e2 hk [false] rfl).1⟩

open Cli FloatFactors in
/-- Non-vacuity of `C120_round_trip`: both runs of the program on an actual file. -/
example : ∃ (d2 : Disk) (text : Text) (r c : Coefs PyComplex) (cs : List (Coefs PyComplex)) (u : Coefs PyComplex)
    (us : List (Coefs PyComplex)) (ks : List Key), d2.read "in_wso_zdi.dat".toList = .ok text ∧ readMagnetogram demoEnv text = .ok r ∧
    hsplit r = .ok (c :: cs) ∧ hsplit factorSet = .ok (u :: us) ∧ IsSetIter ks (c.keys ++ u.keys) ∧
    allclose exAbs defaults ks [false] c u = .ok true := by
  have hdm : factorOptions.degreeMax.getD factorSet.degreeMax = 2 := by decide +kernel
  have t1 : target factorOptions = "in_wso.dat".toList := by decide +kernel
  obtain ⟨d1, d2, hd1, hd2⟩ := factor_runs
  obtain ⟨text, r, c, cs, u, us, h1, h2, h3, h4, h5⟩ := C120_round_trip demoEnv exAbs exAbs_good exFactorLib exFactorLib_good [] factorOptions
    { input := "in_wso.dat".toList, pfssToZdi := true } (factorDisk factorText) d1 d2 factorText factorSet rfl rfl rfl rfl t1.symm
    (by decide +kernel) factorSet_read hd1 hd2 (by simp [HeaderHarmless, factorOptions, NoBreak]) (by simp [HeaderHarmless, NoBreak])
    (by rw [hdm]; norm_num) (fun l m h => by
      rw [hdm]
      rcases factorSet_stores h with ⟨rfl, rfl⟩ | ⟨rfl, rfl⟩ <;> simp) (by rw [hdm]; simp)
    (fun l m h z hz => factorSet_moderate (by norm_num) h z hz)
  refine ⟨d2, text, r, c, cs, u, us, (c.keys ++ u.keys).dedup, ?_, h2, h3, h4, ⟨List.nodup_dedup _, fun k => List.mem_dedup⟩,
    h5 _ ⟨List.nodup_dedup _, fun k => List.mem_dedup⟩ _ rfl⟩
  rw [← h1]
  congr 1

end Verif
