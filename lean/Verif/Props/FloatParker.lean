import Verif.Model.FloatParker
import Verif.Props.FloatClose
import Verif.Props.FloatFib
import Verif.Props.ParkerFlow
import Mathlib.Analysis.Complex.ExponentialBounds

/-!
# Property C123: the Parker solution in double precision
-/

set_option exponentiation.threshold 4000

namespace Verif
open Spec PyFloat FloatRange FloatSets FloatCoords FloatError FloatRound FloatParker

/-- What is assumed of the functions: logarithm and exponential function are good to a relative error of 2^-51, the exponential
function underflows to zero below -746; `lambertw` of a real number from -1/e to -exp(-700) has no imaginary part and is good to a relative
error of `ε` on the branch asked for; the square of the square root of a positive number is good to 2^-49; zeros give zeros. -/
structure Spec.GoodWind (L : WindLib) (ε : ℝ) : Prop where
  small : ε ≤ 1 / 8
  log : ∀ x, FinD x → 0 < x.num → FinD (L.log x) ∧ |((L.log x).num : ℝ) - Real.log x.num| ≤ |Real.log x.num| / 2 ^ 51
  exp : ∀ x, FinD x → -700 ≤ x.num → x.num ≤ 0 → FinD (L.exp x) ∧ |((L.exp x).num : ℝ) - Real.exp x.num| ≤ Real.exp x.num / 2 ^ 51
  underflow : ∀ x, FinD x → x.num ≤ -746 → L.exp x = fin false 0
  lambertw : ∀ z (k : ℤ), FinD z → -Real.exp (-1) ≤ z.num → (z.num : ℝ) ≤ -Real.exp (-700) → k = 0 ∨ k = -1 →
    ∃ w : ℝ, w * Real.exp w = z.num ∧ (if k = 0 then -1 ≤ w else w ≤ -1) ∧
      FinD (L.lambertw z k).1 ∧ |((L.lambertw z k).1.num : ℝ) - w| ≤ ε * |w| ∧ ∃ s, (L.lambertw z k).2 = fin s 0
  lambertwZero : ∀ s, ∃ t u, L.lambertw (fin s 0) 0 = (fin t 0, fin u 0)
  sqrt : ∀ x s, FinD x → 0 < x.num → ∃ r t, L.csqrt (x, fin s 0) = (r, fin t 0) ∧ FinD r ∧ 0 < r.num ∧ |r.num ^ 2 - x.num| ≤ x.num / 2 ^ 49
  sqrtZero : ∀ s t, ∃ u v, L.csqrt (fin s 0, fin t 0) = (fin u 0, fin v 0)

namespace FloatParker

theorem ofInt_num {k : ℕ} (h : k < 2 ^ 53) : Fd (ofInt (k : ℤ)) ∧ (ofInt (k : ℤ)).num = k := FloatFib.int_num h

theorem ap_int {k : ℕ} (h : k < 2 ^ 53) : Ap (ofInt (k : ℤ)) k k 1 := by
  obtain ⟨h1, h2⟩ := ofInt_num h
  have := Ap.exact h1 (M := k) (by rw [h2]; simp)
  rwa [h2, Rat.cast_natCast] at this

theorem high_big : (2 : ℝ) ^ 300 ≤ high := by
  unfold high
  calc (2 : ℝ) ^ 300 = 2 ^ (300 : ℤ) := by norm_num
    _ ≤ _ := zpow_le_zpow_right₀ (by norm_num) (by norm_num)

theorem low_small : low ≤ 1 / 2 ^ 60 := by
  unfold low
  calc (2 : ℝ) ^ (-1020 : ℤ) ≤ 2 ^ (-60 : ℤ) := zpow_le_zpow_right₀ (by norm_num) (by norm_num)
    _ = _ := by norm_num

theorem w_le : w ≤ 2 := by unfold w; norm_num

/-- The exponent. -/
theorem exponent_close {L : WindLib} {ε : ℝ} (hL : GoodWind L ε) {r : PyFloat} (hr : FinD r) (r0 : 0 < r.num)
    (hlog : |Real.log r.num| ≤ 175) (hinv : 1 / (r.num : ℝ) ≤ 2 ^ 250) (hR : (r.num : ℝ) ≤ 2 ^ (1000 : ℤ)) :
    Ap (sub (neg (rhs L r)) (ofInt 1)) (-Parker.rhs r.num - 1)
      (4 * (1 + |Real.log r.num|) + 4 * (1 / r.num + 1) + 1) (w ^ 5) := by
  have rr : (0 : ℝ) < r.num := by exact_mod_cast r0
  have l0 := abs_nonneg (Real.log r.num)
  have i0 : 0 < 1 / (r.num : ℝ) := by positivity
  have hb := high_big
  have hs := low_small
  have w1 := one_le_w
  have w2 := w_le
  have p2 : w ^ 2 ≤ 4 := by nlinarith
  have p3 : w ^ 3 ≤ 8 := by nlinarith [pow_nonneg w_pos.le 2]
  have p4 : w ^ 4 ≤ 16 := by nlinarith [pow_nonneg w_pos.le 3]
  have q3 := one_le_pow_w 3
  have q4 : 1 ≤ w ^ 3 * w := by nlinarith
  have q5 : 1 ≤ w ^ 5 := one_le_pow_w 5
  have p4' : w ^ 3 * w ≤ 16 := by nlinarith
  have e5 : w ^ 3 * w * w = w ^ 5 := by ring
  have hlow : low ≤ 1 / (r.num : ℝ) := by
    calc low ≤ 1 / 2 ^ (1000 : ℤ) := by
          unfold low
          rw [one_div, ← zpow_neg]
          exact zpow_le_zpow_right₀ (by norm_num) (by norm_num)
      _ ≤ _ := one_div_le_one_div_of_le rr hR
  have a4 := ap_int (k := 4) (by norm_num)
  have a1 := ap_int (k := 1) (by norm_num)
  push_cast at a4 a1
  have hl : Ap (L.log r) (Real.log r.num) (1 + |Real.log r.num|) (w ^ 2) := by
    obtain ⟨h1, h2⟩ := hL.log r hr r0
    refine ⟨h1, h2.trans ?_, by linarith⟩
    have : (1 : ℝ) / 2 ^ 51 ≤ w ^ 2 - 1 := by unfold w; norm_num
    have : (w ^ 2 - 1) * |Real.log r.num| ≤ (w ^ 2 - 1) * (1 + |Real.log r.num|) := by gcongr <;> nlinarith
    have : 1 / 2 ^ 51 * |Real.log r.num| ≤ (w ^ 2 - 1) * |Real.log r.num| := by gcongr
    linarith
  have m1 := a4.mul hl (by nlinarith) (by nlinarith)
  have hrr : Ap r r.num |(r.num : ℝ)| 1 := Ap.exact hr le_rfl
  have d1 := a1.div hrr rr.ne' le_rfl (by norm_num) (by rw [abs_of_pos rr]; exact hlow) (by rw [abs_of_pos rr]; nlinarith)
  rw [abs_of_pos rr] at d1
  have s1 := d1.sub (a1.mono le_rfl (by nlinarith) (by nlinarith)) (by linarith) (by nlinarith)
  have m2 := a4.mul s1 (by nlinarith) (by nlinarith)
  have e1 := (m1.mono le_rfl (by nlinarith) (by nlinarith : _ ≤ w ^ 3)).add (m2.mono le_rfl (by nlinarith) (by nlinarith : _ ≤ w ^ 3))
    (by nlinarith) (by nlinarith)
  have e2 := e1.neg.sub (a1.mono le_rfl q4 q4) (by nlinarith) (by nlinarith)
  have e3 := e2.mono le_rfl q5 e5.le
  rw [Parker.rhs]
  exact e3

/-- The right side of the equation against the size of the rounding errors, at least a millionth away from the sonic point. -/
theorem rhs_large {x : ℝ} (hx : 0 < x) (h : 1 / 10 ^ 6 ≤ |x - 1|) : 32 / 2 ^ 52 * (|Real.log x| + 1 / x + 3) ≤ Parker.rhs x := by
  have l2 := Real.log_two_lt_d9
  have l2' := Real.log_two_gt_d9
  by_cases h1 : x ≤ 1 / 2
  · -- far inside
    have ht : 2 ≤ 1 / x := by rw [le_div_iff₀ hx]; linarith
    have hlx : Real.log x = -Real.log (1 / x) := by rw [one_div, Real.log_inv, neg_neg]
    have h0 : 0 ≤ Real.log (1 / x) := Real.log_nonneg (by linarith)
    have h2 : Real.log (1 / x) ≤ 1 / x / 2 + Real.log 2 - 1 := by
      have := Real.log_le_sub_one_of_pos (show 0 < 1 / x / 2 by positivity)
      rw [Real.log_div (by positivity) (by norm_num)] at this
      linarith
    rw [Parker.rhs, hlx, abs_neg, abs_of_nonneg h0]
    generalize 1 / x = t at *
    generalize Real.log t = l at *
    norm_num
    nlinarith
  · rw [not_le] at h1
    by_cases h2 : 2 ≤ x
    · -- far outside
      have hm : Parker.rhs 2 ≤ Parker.rhs x := by
        rcases h2.lt_or_eq with h3 | h3
        · exact (Parker.rhs_mono (by norm_num) h3).le
        · rw [h3]
      have hl : 0 ≤ Real.log x := Real.log_nonneg (by linarith)
      rw [abs_of_nonneg hl]
      rw [Parker.rhs, Parker.rhs] at *
      generalize 1 / x = t at *
      generalize Real.log x = l at *
      norm_num at hm ⊢
      nlinarith
    · rw [not_le] at h2
      have hi : 1 / x ≤ 2 := by rw [div_le_iff₀ hx]; linarith
      have hl : |Real.log x| ≤ 1 := by
        rw [abs_le]
        constructor
        · have := Real.log_le_log (by norm_num : (0 : ℝ) < 1 / 2) h1.le
          rw [one_div, Real.log_inv] at this
          linarith
        · have := Real.log_le_log hx h2.le
          linarith
      have hb : 32 / 2 ^ 52 * (|Real.log x| + 1 / x + 3) ≤ 1 / 10 ^ 12 := by
        have : 32 / 2 ^ 52 * (|Real.log x| + 1 / x + 3) ≤ 32 / 2 ^ 52 * (1 + 2 + 3) := by gcongr
        refine this.trans ?_
        norm_num
      refine hb.trans ?_
      have near : ∀ y : ℝ, |y| = 1 / 10 ^ 6 → 1 / 10 ^ 12 ≤ Parker.rhs (1 + y) := by
        intro y hy
        have := Parker.rhs_near (y := y) (by rw [hy]; norm_num)
        rw [← sq_abs y, hy, abs_le] at this
        norm_num at this ⊢
        linarith [this.1]
      rcases le_total 1 x with h3 | h3
      · rw [abs_of_nonneg (by linarith)] at h
        have h4 := near (1 / 10 ^ 6) (abs_of_pos (by norm_num))
        rcases h.lt_or_eq with h5 | h5
        · exact h4.trans (Parker.rhs_mono (by norm_num) (by linarith : 1 + 1 / 10 ^ 6 < x)).le
        · have : 1 + 1 / 10 ^ 6 = x := by linarith
          rwa [this] at h4
      · rw [abs_of_nonpos (by linarith)] at h
        have h4 := near (-(1 / 10 ^ 6)) (by rw [abs_neg]; exact abs_of_pos (by norm_num))
        rcases h.lt_or_eq with h5 | h5
        · exact h4.trans (Parker.rhs_anti hx (by linarith : x < 1 + -(1 / 10 ^ 6)) (by norm_num)).le
        · have : 1 + -(1 / 10 ^ 6) = x := by linarith
          rwa [this] at h4

theorem log_one_add {t : ℝ} (h : |t| ≤ 1 / 2) : |Real.log (1 + t)| ≤ 2 * |t| := by
  have h1 := abs_le.1 h
  have hp : 0 < 1 + t := by linarith
  rw [abs_le]
  constructor
  · have h2 := Real.one_sub_inv_le_log_of_pos hp
    have h3 : -(2 * |t|) ≤ 1 - (1 + t)⁻¹ := by
      have e : 1 - (1 + t)⁻¹ = t / (1 + t) := by field_simp; ring
      rw [e, le_div_iff₀ hp]
      rcases le_total 0 t with h4 | h4
      · rw [abs_of_nonneg h4]; nlinarith
      · rw [abs_of_nonpos h4]; nlinarith
    linarith
  · have h2 := Real.log_le_sub_one_of_pos hp
    have := le_abs_self t
    have := abs_nonneg t
    linarith

/-- The argument of `lambertw`. -/
theorem argument_close {L : WindLib} {ε : ℝ} (hL : GoodWind L ε) {r : PyFloat} (hr : FinD r) (h1 : 1 / 2 ^ 7 ≤ r.num)
    (h2 : r.num ≤ 2 ^ 250) :
    Fd (argument L r) ∧ ((argument L r).num : ℝ) ≤ -Real.exp (-700) ∧
      |Real.log (-((argument L r).num : ℝ)) - (-Parker.rhs r.num - 1)| ≤ 24 / 2 ^ 52 * (|Real.log r.num| + 1 / r.num + 3) ∧
      (1 / 10 ^ 6 ≤ |(r.num : ℝ) - 1| → -Real.exp (-1) ≤ (argument L r).num) := by
  have r0 : 0 < r.num := lt_of_lt_of_le (by norm_num) h1
  have rr : (0 : ℝ) < r.num := by exact_mod_cast r0
  have h1' : (1 : ℝ) / 2 ^ 7 ≤ r.num := by
    have : (((1 / 2 ^ 7 : ℚ)) : ℝ) ≤ r.num := Rat.cast_le.2 h1
    push_cast at this; exact this
  have h2' : (r.num : ℝ) ≤ 2 ^ 250 := by
    have : (r.num : ℝ) ≤ (((2 ^ 250 : ℚ)) : ℝ) := Rat.cast_le.2 h2
    push_cast at this; exact this
  have l2 := Real.log_two_lt_d9
  have l0 := Real.log_two_gt_d9
  have hup : Real.log r.num ≤ 173.3 := by
    have := Real.log_le_log rr h2'
    rw [Real.log_pow] at this
    norm_num at this ⊢
    linarith
  have hdn : -5 ≤ Real.log r.num := by
    have := Real.log_le_log (by norm_num) h1'
    rw [one_div, Real.log_inv, Real.log_pow] at this
    norm_num at this ⊢
    linarith
  have hlog : |Real.log r.num| ≤ 175 := by rw [abs_le]; constructor <;> norm_num at hup ⊢ <;> linarith
  have hinv : 1 / (r.num : ℝ) ≤ 128 := by
    rw [div_le_iff₀ rr]; norm_num at h1' ⊢; linarith
  have i0 : 0 < 1 / (r.num : ℝ) := by positivity
  have hR : (r.num : ℝ) ≤ 2 ^ (1000 : ℤ) := by
    refine h2'.trans ?_
    calc (2 : ℝ) ^ 250 = 2 ^ (250 : ℤ) := by norm_cast
      _ ≤ _ := zpow_le_zpow_right₀ (by norm_num) (by norm_num)
  have hE := exponent_close hL hr r0 hlog (by norm_num at hinv ⊢; linarith) hR
  have l00 := abs_nonneg (Real.log r.num)
  have hrhs0 := Parker.rhs_nonneg rr
  have hrhs : Parker.rhs r.num ≤ 695 := by
    rw [Parker.rhs]
    rcases le_total (1 : ℝ) r.num with h | h
    · have : 1 / (r.num : ℝ) ≤ 1 := (div_le_one rr).2 h
      norm_num at hup
      linarith
    · have := Real.log_nonpos rr.le h
      linarith
  have hw : w ^ 5 - 1 ≤ 6 / 2 ^ 52 := by unfold w; norm_num
  have herr := hE.err
  set E := sub (neg (rhs L r)) (ofInt 1) with hEdef
  have herr2 : |(E.num : ℝ) - (-Parker.rhs r.num - 1)| ≤ 6 / 2 ^ 52 * (4 * |Real.log r.num| + 4 * (1 / r.num) + 9) := by
    refine herr.trans ?_
    have e : 4 * (1 + |Real.log r.num|) + 4 * (1 / (r.num : ℝ) + 1) + 1 = 4 * |Real.log r.num| + 4 * (1 / r.num) + 9 := by ring
    rw [e]
    gcongr
  have herr3 : 6 / 2 ^ 52 * (4 * |Real.log r.num| + 4 * (1 / (r.num : ℝ)) + 9) ≤ 1 / 2 := by
    have : 6 / 2 ^ 52 * (4 * |Real.log r.num| + 4 * (1 / (r.num : ℝ)) + 9) ≤ 6 / 2 ^ 52 * (4 * 175 + 4 * 128 + 9) := by gcongr
    refine this.trans ?_
    norm_num
  have hb := abs_le.1 (herr2.trans herr3)
  have b1 : -700 ≤ E.num := by
    have : (-700 : ℝ) ≤ E.num := by linarith [hb.1]
    exact_mod_cast this
  have b2 : E.num ≤ 0 := by
    have : (E.num : ℝ) ≤ 0 := by linarith [hb.2]
    exact_mod_cast this
  obtain ⟨x1, x2⟩ := hL.exp E hE.fd b1 b2
  have ee := Real.exp_pos (E.num : ℝ)
  obtain ⟨n1, n2⟩ := neg_num x1
  have harg : argument L r = neg (L.exp E) := rfl
  set δ := ((L.exp E).num : ℝ) / Real.exp E.num - 1 with hδ
  have hval : ((L.exp E).num : ℝ) = Real.exp E.num * (1 + δ) := by rw [hδ]; field_simp; ring
  have hδ1 : |δ| ≤ 1 / 2 ^ 51 := by
    have : ((L.exp E).num : ℝ) - Real.exp E.num = Real.exp E.num * δ := by rw [hval]; ring
    rw [this, abs_mul, abs_of_pos ee] at x2
    have e : Real.exp E.num / 2 ^ 51 = Real.exp E.num * (1 / 2 ^ 51) := by ring
    rw [e] at x2
    exact le_of_mul_le_mul_left x2 ee
  have hδ2 := abs_le.1 hδ1
  have d0 : 0 < 1 + δ := by norm_num at hδ2 ⊢; linarith [hδ2.1]
  have hpos : (0 : ℝ) < (L.exp E).num := by rw [hval]; positivity
  refine ⟨n1, ?_, ?_, fun hfar => ?_⟩
  · rw [harg, n2]
    push_cast
    rw [neg_le_neg_iff, hval]
    have h3 : Real.exp (-700) * 2 ≤ Real.exp E.num := by
      have h4 : Real.exp (-700) * 2 ≤ Real.exp (-700) * Real.exp 1 := by
        have := Real.add_one_le_exp (1 : ℝ)
        gcongr
        linarith
      rw [← Real.exp_add] at h4
      exact h4.trans (Real.exp_le_exp.2 (by linarith [hb.1]))
    have h5 : (1 : ℝ) / 2 ≤ 1 + δ := by norm_num at hδ2 ⊢; linarith [hδ2.1]
    nlinarith [Real.exp_pos (-700)]
  · rw [harg, n2]
    push_cast
    rw [neg_neg, hval, Real.log_mul ee.ne' d0.ne', Real.log_exp]
    have h3 := log_one_add (t := δ) (hδ1.trans (by norm_num))
    have e : (E.num : ℝ) + Real.log (1 + δ) - (-Parker.rhs r.num - 1) = ((E.num : ℝ) - (-Parker.rhs r.num - 1)) + Real.log (1 + δ) := by ring
    rw [e]
    refine (abs_add_le _ _).trans ((add_le_add herr2 (h3.trans (mul_le_mul_of_nonneg_left hδ1 (by norm_num)))).trans ?_)
    have : 24 / 2 ^ 52 * (|Real.log r.num| + 1 / (r.num : ℝ) + 3) - (6 / 2 ^ 52 * (4 * |Real.log r.num| + 4 * (1 / (r.num : ℝ)) + 9) + 2 * (1 / 2 ^ 51)) =
      14 / 2 ^ 52 := by ring
    have h14 : (0 : ℝ) ≤ 14 / 2 ^ 52 := by norm_num
    linarith
  · have h3 := rhs_large rr hfar
    rw [harg, n2]
    push_cast
    rw [neg_le_neg_iff, hval]
    have h4 : 1 + δ ≤ Real.exp δ := by have := Real.add_one_le_exp δ; linarith
    calc Real.exp E.num * (1 + δ) ≤ Real.exp E.num * Real.exp δ := by gcongr
      _ = Real.exp (E.num + δ) := by rw [Real.exp_add]
      _ ≤ Real.exp (-1) := by
        apply Real.exp_le_exp.2
        have h5 := (abs_le.1 herr2).2
        have : 32 / 2 ^ 52 * (|Real.log r.num| + 1 / (r.num : ℝ) + 3) - (6 / 2 ^ 52 * (4 * |Real.log r.num| + 4 * (1 / (r.num : ℝ)) + 9) + 1 / 2 ^ 51) =
          8 / 2 ^ 52 * (|Real.log r.num| + 1 / (r.num : ℝ)) + 40 / 2 ^ 52 := by ring
        have h6 : 0 ≤ 8 / 2 ^ 52 * (|Real.log r.num| + 1 / (r.num : ℝ)) + 40 / 2 ^ 52 := by positivity
        linarith [hδ2.2]

theorem ofInt_one : ofInt 1 = fin false 1 := by
  have h := FloatFactors.ofInt_double (n := 1) (by exact_mod_cast isDouble_one)
  push_cast at h
  exact h

theorem lt_one {r : PyFloat} (hr : FinD r) : FloatPfss.lt r (ofInt 1) = decide (r.num < 1) := by
  obtain ⟨s, a, rfl, ha⟩ := hr
  rw [ofInt_one]
  cases s <;> simp [FloatPfss.lt, num]

theorem branch_cases (r : PyFloat) : branch r = 0 ∨ branch r = -1 := by
  unfold branch; split_ifs <;> simp

/-- A float whose speed solves a nearby equation. -/
theorem find_core {L : WindLib} {ε : ℝ} (hL : GoodWind L ε) {r : PyFloat} (hr : FinD r) (h1 : 1 / 2 ^ 7 ≤ r.num)
    (h2 : r.num ≤ 2 ^ 250) (far : 1 / 10 ^ 6 ≤ |(r.num : ℝ) - 1|) :
    ∃ (u : PyFloat) (P θ : ℝ), find L r = .real u ∧ FinD u ∧ 0 < u.num ∧ 0 < P ∧ |θ| ≤ ε + 1 / 2 ^ 48 ∧
      (u.num : ℝ) ^ 2 = P ^ 2 * (1 + θ) ∧
      |Parker.lhs P - Parker.rhs r.num| ≤ 24 / 2 ^ 52 * (|Real.log r.num| + 1 / r.num + 3) ∧
      (r.num < 1 → P ≤ 1) ∧ (1 ≤ r.num → 1 ≤ P) := by
  obtain ⟨z1, z2, z3, z4⟩ := argument_close hL hr h1 h2
  obtain ⟨v, v1, v2, v3, v4, s, v5⟩ := hL.lambertw (argument L r) (branch r) z1 (z4 far) z2 (branch_cases r)
  have zz : ((argument L r).num : ℝ) < 0 := z2.trans_lt (neg_lt_zero.2 (Real.exp_pos _))
  have v0 : v < 0 := by
    by_contra h
    have := mul_nonneg (not_lt.1 h) (Real.exp_pos v).le
    linarith
  have e0 : 0 ≤ ε := by
    have h := (abs_nonneg _).trans v4
    rw [abs_of_neg v0] at h
    nlinarith
  have es := hL.small
  rw [abs_of_neg v0] at v4
  obtain ⟨m1, m2⟩ := neg_num v3
  have hv4 := abs_le.1 v4
  have xpos : 0 < (neg (L.lambertw (argument L r) (branch r)).1).num := by
    rw [m2]
    have : (0 : ℝ) < -((L.lambertw (argument L r) (branch r)).1.num : ℝ) := by nlinarith [hv4.2]
    have : (0 : ℚ) < -(L.lambertw (argument L r) (branch r)).1.num := by exact_mod_cast this
    exact this
  obtain ⟨u, t, u1, u2, u3, u4⟩ := hL.sqrt _ (!s) m1 xpos
  have hfind : find L r = .real u := by
    have e : cneg (L.lambertw (argument L r) (branch r)) = (neg (L.lambertw (argument L r) (branch r)).1, fin (!s) 0) := by
      rw [cneg, v5]; rfl
    rw [find, e, u1, realIfClose]
    simp [fabs, FloatPfss.lt, num]
  have P0 : 0 < Real.sqrt (-v) := Real.sqrt_pos.2 (by linarith)
  have Psq : Real.sqrt (-v) ^ 2 = -v := Real.sq_sqrt (by linarith)
  refine ⟨u, Real.sqrt (-v), (u.num : ℝ) ^ 2 / (-v) - 1, hfind, u2, u3, P0, ?_, ?_, ?_, fun h => ?_, fun h => ?_⟩
  · have u4' : |(u.num : ℝ) ^ 2 - -((L.lambertw (argument L r) (branch r)).1.num : ℝ)| ≤
        -((L.lambertw (argument L r) (branch r)).1.num : ℝ) / 2 ^ 49 := by
      rw [m2] at u4
      have := (Rat.cast_le (K := ℝ)).2 u4
      push_cast at this
      exact this
    generalize ((L.lambertw (argument L r) (branch r)).1.num : ℝ) = x at *
    have k1 : |(u.num : ℝ) ^ 2 - (-v)| ≤ (-v) * (ε + 1 / 2 ^ 48) := by
      have e : (u.num : ℝ) ^ 2 - (-v) = ((u.num : ℝ) ^ 2 - -x) + (v - x) := by ring
      rw [e]
      have h3 : |v - x| ≤ ε * -v := by rw [abs_sub_comm]; exact v4
      have h4 : -x / 2 ^ 49 ≤ (-v) * (1 / 2 ^ 48) := by
        have : -x ≤ (-v) * 2 := by nlinarith [hv4.1]
        calc -x / 2 ^ 49 ≤ (-v) * 2 / 2 ^ 49 := by gcongr
          _ = _ := by ring
      linarith [abs_add_le ((u.num : ℝ) ^ 2 - -x) (v - x)]
    have e : (u.num : ℝ) ^ 2 / (-v) - 1 = ((u.num : ℝ) ^ 2 - (-v)) / (-v) := by
      rw [sub_div, div_self (by linarith)]
    rw [e, abs_div, abs_of_pos (show 0 < -v by linarith), div_le_iff₀ (by linarith)]
    linarith
  · rw [Psq, add_sub_cancel, mul_div_cancel₀ _ (by linarith : -v ≠ 0)]
  · have hl : Real.log (-((argument L r).num : ℝ)) = Real.log (-v) + v := by
      rw [← v1, ← neg_mul, Real.log_mul (by linarith) (Real.exp_pos v).ne', Real.log_exp]
    have e : Parker.lhs (Real.sqrt (-v)) - Parker.rhs r.num = -(Real.log (-((argument L r).num : ℝ)) - (-Parker.rhs r.num - 1)) := by
      rw [hl, Parker.lhs, Psq, Real.log_sqrt (by linarith)]
      ring
    rw [e, abs_neg]
    exact z3
  · have hb : branch r = 0 := by rw [branch, lt_one hr]; simp [h]
    rw [hb, if_pos rfl] at v2
    exact Real.sqrt_le_iff.2 ⟨by norm_num, by linarith⟩
  · have hb : branch r = -1 := by rw [branch, lt_one hr]; simp [not_lt.2 h]
    rw [hb, if_neg (by norm_num)] at v2
    exact Real.le_sqrt_of_sq_le (by linarith)

/-- Both sides of the equation grow at least quadratically away from the sonic point. -/
theorem lhs_grows {a b : ℝ} (ha : 0 < a) (hb : 0 < b) (h : 1 ≤ b ∧ b ≤ a ∨ a ≤ b ∧ b ≤ 1) : (a - b) ^ 2 ≤ Parker.lhs a - Parker.lhs b := by
  have hl : Real.log a - Real.log b ≤ a / b - 1 := by
    rw [← Real.log_div ha.ne' hb.ne']
    exact Real.log_le_sub_one_of_pos (by positivity)
  have e : a / b - 1 = (a - b) * (1 / b) := by field_simp
  rw [Parker.lhs, Parker.lhs]
  have key : (a - b) ^ 2 ≤ (a - b) * (a + b - 2 * (1 / b)) := by
    rcases h with ⟨h1, h2⟩ | ⟨h1, h2⟩
    · have : 1 / b ≤ b := by rw [div_le_iff₀ hb]; nlinarith
      nlinarith
    · have : b ≤ 1 / b := by rw [le_div_iff₀ hb]; nlinarith
      nlinarith
  nlinarith

theorem lhs_far {a b : ℝ} (ha : 0 < a) (hb : 0 < b) (h : a ≤ 1 ∧ b ≤ 1 ∨ 1 ≤ a ∧ 1 ≤ b) : (a - b) ^ 2 ≤ |Parker.lhs a - Parker.lhs b| := by
  rcases h with ⟨h1, h2⟩ | ⟨h1, h2⟩
  · rcases le_total a b with h3 | h3
    · exact (lhs_grows ha hb (Or.inr ⟨h3, h2⟩)).trans (le_abs_self _)
    · have := lhs_grows hb ha (Or.inr ⟨h3, h1⟩)
      rw [abs_sub_comm, show (a - b) ^ 2 = (b - a) ^ 2 by ring]
      exact this.trans (le_abs_self _)
  · rcases le_total a b with h3 | h3
    · have := lhs_grows hb ha (Or.inl ⟨h1, h3⟩)
      rw [abs_sub_comm, show (a - b) ^ 2 = (b - a) ^ 2 by ring]
      exact this.trans (le_abs_self _)
    · exact (lhs_grows ha hb (Or.inl ⟨h2, h3⟩)).trans (le_abs_self _)

end FloatParker

/-- **C123.** Away from the sonic point by a millionth or more the result is a positive float; it solves the Parker equation up to
rounding and the accuracy `ε` of `lambertw`, on the transonic branch. -/
theorem C123_equation (L : WindLib) (ε : ℝ) (hL : GoodWind L ε) (r : PyFloat) (hr : FinD r) (h1 : 1 / 2 ^ 7 ≤ r.num)
    (h2 : r.num ≤ 2 ^ 250) (far : 1 / 10 ^ 6 ≤ |(r.num : ℝ) - 1|) :
    ∃ u, find L r = .real u ∧ FinD u ∧ 0 < u.num ∧
      |((u.num : ℝ) ^ 2 - 1 - 2 * Real.log u.num) - (4 * Real.log r.num + 4 * (1 / r.num - 1))| ≤
        (|Real.log r.num| + 1 / r.num + 3) / 2 ^ 47 + 2 * ((u.num : ℝ) ^ 2 + 1) * (ε + 1 / 2 ^ 48) ∧
      (r.num < 1 → (u.num : ℝ) ^ 2 ≤ 1 + (ε + 1 / 2 ^ 48)) ∧ (1 < r.num → 1 - (ε + 1 / 2 ^ 48) ≤ (u.num : ℝ) ^ 2) := by
  obtain ⟨u, P, θ, k1, k2, k3, P0, k4, k5, k6, k7, k8⟩ := find_core hL hr h1 h2 far
  have es := hL.small
  have hθ := abs_le.1 k4
  have t1 : ε + 1 / 2 ^ 48 ≤ 1 / 4 := by norm_num at es ⊢; linarith
  have hθ4 : |θ| ≤ 1 / 2 := k4.trans (t1.trans (by norm_num))
  have uu : (0 : ℝ) < u.num := by exact_mod_cast k3
  have hθp : 0 < 1 + θ := by linarith [hθ.1]
  refine ⟨u, k1, k2, k3, ?_, fun h => ?_, fun h => ?_⟩
  · have e1 : 2 * Real.log u.num = 2 * Real.log P + Real.log (1 + θ) := by
      have h3 : Real.log ((u.num : ℝ) ^ 2) = Real.log (P ^ 2 * (1 + θ)) := by rw [k5]
      rw [Real.log_mul (by positivity) hθp.ne', Real.log_pow, Real.log_pow] at h3
      push_cast at h3
      exact h3
    have e : ((u.num : ℝ) ^ 2 - 1 - 2 * Real.log u.num) - (4 * Real.log r.num + 4 * (1 / r.num - 1)) =
        (Parker.lhs P - Parker.rhs r.num) + (P ^ 2 * θ - Real.log (1 + θ)) := by
      rw [e1, k5, Parker.lhs, Parker.rhs]; ring
    rw [e]
    have h4 : |P ^ 2 * θ - Real.log (1 + θ)| ≤ 2 * ((u.num : ℝ) ^ 2 + 1) * (ε + 1 / 2 ^ 48) := by
      have h5 := log_one_add hθ4
      have h6 : |P ^ 2 * θ| ≤ P ^ 2 * (ε + 1 / 2 ^ 48) := by
        rw [abs_mul, abs_of_pos (by positivity : 0 < P ^ 2)]
        gcongr
      have h7 : P ^ 2 ≤ 2 * (u.num : ℝ) ^ 2 := by rw [k5]; nlinarith [sq_nonneg P, hθ.1]
      have h8 : 0 ≤ ε + 1 / 2 ^ 48 := (abs_nonneg _).trans k4
      calc |P ^ 2 * θ - Real.log (1 + θ)| ≤ |P ^ 2 * θ| + |Real.log (1 + θ)| := abs_sub _ _
        _ ≤ P ^ 2 * (ε + 1 / 2 ^ 48) + 2 * (ε + 1 / 2 ^ 48) := by linarith
        _ = (P ^ 2 + 2) * (ε + 1 / 2 ^ 48) := by ring
        _ ≤ _ := by gcongr; linarith
    have rr : (0 : ℝ) < r.num := by
      have : 0 < r.num := lt_of_lt_of_le (by norm_num) h1
      exact_mod_cast this
    have h9 : 24 / 2 ^ 52 * (|Real.log r.num| + 1 / (r.num : ℝ) + 3) ≤ (|Real.log r.num| + 1 / (r.num : ℝ) + 3) / 2 ^ 47 := by
      have : 0 ≤ |Real.log r.num| + 1 / (r.num : ℝ) + 3 := by positivity
      generalize |Real.log r.num| + 1 / (r.num : ℝ) + 3 = y at this ⊢
      norm_num
      linarith
    exact (abs_add_le _ _).trans (add_le_add (k6.trans h9) h4)
  · have hP := k7 h
    rw [k5]
    have : P ^ 2 ≤ 1 := by nlinarith
    nlinarith [hθ.2, sq_nonneg P]
  · have hP := k8 h.le
    rw [k5]
    have : 1 ≤ P ^ 2 := by nlinarith
    nlinarith [hθ.1]

/-- **C123.** And it is near the exact dimensionless speed. -/
theorem C123_speed (L : WindLib) (ε : ℝ) (hL : GoodWind L ε) (r : PyFloat) (hr : FinD r) (h1 : 1 / 2 ^ 7 ≤ r.num)
    (h2 : r.num ≤ 2 ^ 250) (far : 1 / 10 ^ 6 ≤ |(r.num : ℝ) - 1|) :
    ∃ u, find L r = .real u ∧ FinD u ∧
      |(u.num : ℝ) - Parker.find r.num| ≤ Real.sqrt ((|Real.log r.num| + 1 / r.num + 3) / 2 ^ 47) + 2 * u.num * (ε + 1 / 2 ^ 48) := by
  obtain ⟨u, P, θ, k1, k2, k3, P0, k4, k5, k6, k7, k8⟩ := find_core hL hr h1 h2 far
  have es := hL.small
  have hθ := abs_le.1 k4
  have t1 : ε + 1 / 2 ^ 48 ≤ 1 / 4 := by norm_num at es ⊢; linarith
  have uu : (0 : ℝ) < u.num := by exact_mod_cast k3
  have rr : (0 : ℝ) < r.num := by
    have : 0 < r.num := lt_of_lt_of_le (by norm_num) h1
    exact_mod_cast this
  refine ⟨u, k1, k2, ?_⟩
  obtain ⟨f0, feq, f1, f2, f3⟩ := Verif.C51_transonic r.num rr
  have feq' : Parker.lhs (Parker.find r.num) = Parker.rhs r.num := feq
  have hy : 0 ≤ |Real.log r.num| + 1 / (r.num : ℝ) + 3 := by positivity
  have hPU : |P - Parker.find r.num| ≤ Real.sqrt ((|Real.log r.num| + 1 / r.num + 3) / 2 ^ 47) := by
    have hside : P ≤ 1 ∧ Parker.find r.num ≤ 1 ∨ 1 ≤ P ∧ 1 ≤ Parker.find r.num := by
      rcases lt_trichotomy (r.num : ℝ) 1 with h | h | h
      · exact Or.inl ⟨k7 (by exact_mod_cast h), (f1 h).le⟩
      · rw [h] at far; norm_num at far
      · exact Or.inr ⟨k8 (by exact_mod_cast h.le), (f3 h).le⟩
    have h := lhs_far P0 f0 hside
    rw [feq'] at h
    apply Real.abs_le_sqrt
    refine h.trans (k6.trans ?_)
    generalize |Real.log r.num| + 1 / (r.num : ℝ) + 3 = y at hy ⊢
    norm_num
    linarith
  have huP : |(u.num : ℝ) - P| ≤ 2 * u.num * (ε + 1 / 2 ^ 48) := by
    have e : ((u.num : ℝ) - P) * (u.num + P) = P ^ 2 * θ := by linear_combination k5
    have h8 : 0 ≤ ε + 1 / 2 ^ 48 := (abs_nonneg _).trans k4
    have h7 : P ≤ 2 * u.num := by
      apply le_of_sq_le_sq _ (by positivity)
      rw [mul_pow, k5]
      nlinarith [sq_nonneg P, hθ.1]
    have h9 : |(u.num : ℝ) - P| * (u.num + P) ≤ P ^ 2 * (ε + 1 / 2 ^ 48) := by
      rw [← abs_of_pos (show (0 : ℝ) < u.num + P by positivity), ← abs_mul, e, abs_mul, abs_of_pos (by positivity : 0 < P ^ 2)]
      gcongr
    have h10 : |(u.num : ℝ) - P| * P ≤ P * (ε + 1 / 2 ^ 48) * P := by
      nlinarith [mul_nonneg (abs_nonneg ((u.num : ℝ) - P)) uu.le]
    have h11 := le_of_mul_le_mul_right h10 P0
    exact h11.trans (by gcongr)
  have e : (u.num : ℝ) - Parker.find r.num = (u.num - P) + (P - Parker.find r.num) := by ring
  rw [e]
  linarith [abs_add_le ((u.num : ℝ) - P) (P - Parker.find r.num)]

/-- **C123.** Deep inside the sonic point the exponential function underflows and the speed is zero: it is not the small positive
speed of the exact solution. -/
theorem C123_underflow (L : WindLib) (ε : ℝ) (hL : GoodWind L ε) (r : PyFloat) (hr : FinD r) (h1 : 1 / 2 ^ 250 ≤ r.num)
    (h2 : r.num ≤ 1 / 200) : (∃ s, find L r = .real (fin s 0)) ∧ 0 < Parker.find r.num := by
  have r0 : 0 < r.num := lt_of_lt_of_le (by positivity) h1
  have rr : (0 : ℝ) < r.num := by exact_mod_cast r0
  have h1' : (1 : ℝ) / 2 ^ 250 ≤ r.num := by
    have := (Rat.cast_le (K := ℝ)).2 h1
    push_cast at this
    exact this
  have h2' : (r.num : ℝ) ≤ 1 / 200 := by
    have := (Rat.cast_le (K := ℝ)).2 h2
    push_cast at this
    exact this
  refine ⟨?_, (C51_transonic r.num rr).1⟩
  have hinv : 1 / (r.num : ℝ) ≤ 2 ^ 250 := by
    rw [div_le_iff₀ rr]
    calc (1 : ℝ) = 2 ^ 250 * (1 / 2 ^ 250) := by rw [mul_one_div_cancel (by positivity)]
      _ ≤ _ := by gcongr
  have ht : 200 ≤ 1 / (r.num : ℝ) := by rw [le_div_iff₀ rr]; linarith
  have hlx : Real.log r.num = -Real.log (1 / r.num) := by rw [one_div, Real.log_inv, neg_neg]
  have l0 : 0 ≤ Real.log (1 / (r.num : ℝ)) := Real.log_nonneg (by linarith)
  have habs : |Real.log r.num| = Real.log (1 / (r.num : ℝ)) := by rw [hlx, abs_neg, abs_of_nonneg l0]
  have l175 : Real.log (1 / (r.num : ℝ)) ≤ 175 := by
    have h3 := Real.log_le_log (by positivity) hinv
    rw [Real.log_pow] at h3
    push_cast at h3
    linarith [Real.log_two_lt_d9]
  have hln : Real.log (1 / (r.num : ℝ)) ≤ 1 / r.num / 64 + 4 := by
    have h3 : Real.log (1 / (r.num : ℝ)) = Real.log (1 / r.num / 64) + 6 * Real.log 2 := by
      rw [Real.log_div (x := 1 / (r.num : ℝ)) (y := 64) (by positivity) (by norm_num), show (64 : ℝ) = 2 ^ 6 by norm_num, Real.log_pow]
      push_cast
      ring
    have h4 := Real.log_le_sub_one_of_pos (show 0 < 1 / (r.num : ℝ) / 64 by positivity)
    linarith [Real.log_two_lt_d9]
  have hap := exponent_close hL hr r0 (by rw [habs]; exact l175) hinv (by
    calc (r.num : ℝ) ≤ 1 := by linarith
      _ ≤ _ := one_le_zpow₀ (by norm_num) (by norm_num))
  obtain ⟨hfd, herr, -⟩ := hap
  have hw : w ^ 5 - 1 ≤ 1 / 2 ^ 40 := by unfold w; norm_num
  have hle : (sub (neg (rhs L r)) (ofInt 1)).num ≤ -746 := by
    have h3 : ((sub (neg (rhs L r)) (ofInt 1)).num : ℝ) ≤ -746 := by
      have h4 := (abs_le.1 herr).2
      rw [Parker.rhs, habs] at h4
      rw [hlx] at h4
      have h5 : (w ^ 5 - 1) * (4 * (1 + Real.log (1 / (r.num : ℝ))) + 4 * (1 / r.num + 1) + 1) ≤
          1 / 2 ^ 40 * (4 * (1 + Real.log (1 / (r.num : ℝ))) + 4 * (1 / r.num + 1) + 1) := by
        gcongr
      generalize Real.log (1 / (r.num : ℝ)) = l at *
      generalize 1 / (r.num : ℝ) = i at *
      norm_num at h5
      linarith
    exact_mod_cast h3
  have hexp := hL.underflow _ hfd hle
  have hb : branch r = 0 := by
    rw [branch, lt_one hr]
    have : r.num < 1 := by linarith
    simp [this]
  obtain ⟨a, b, hw0⟩ := hL.lambertwZero true
  obtain ⟨c, d, hs0⟩ := hL.sqrtZero (!a) (!b)
  refine ⟨c, ?_⟩
  have e : find L r = realIfClose (fin c 0, fin d 0) := by
    rw [find, argument, hexp, hb]
    change realIfClose (L.csqrt (cneg (L.lambertw (fin true 0) 0))) = _
    rw [hw0]
    change realIfClose (L.csqrt (fin (!a) 0, fin (!b) 0)) = _
    rw [hs0]
  rw [e, realIfClose]
  simp [fabs, FloatPfss.lt, num]

/-- **C123.** For a star that small against its sonic radius the speed at the surface is a zero, the density there is not a number and
the density at the sonic point, hence the mass loss, is a zero. -/
theorem C123_cold (L : WindLib) (ε : ℝ) (hL : GoodWind L ε) (R rs cs base : PyFloat) (q : FinD (div R rs)) (h1 : 1 / 2 ^ 250 ≤ (div R rs).num)
    (h2 : (div R rs).num ≤ 1 / 200) (hcs : FinD cs) (c0 : 0 < cs.num) (isq : PyFloat → PyFloat) :
    ∃ s, (∀ r, FloatClose.le r R = true → speed L R rs cs r = .real (fin s 0)) ∧
      density isq base R (fin s 0) (fin s 0) R = nan ∧
      (FinD (mul base (isq (div rs R))) → ∃ t, densitySonic isq base R rs cs (fin s 0) = fin t 0) := by
  obtain ⟨⟨s, hs⟩, -⟩ := C123_underflow L ε hL _ q h1 h2
  obtain ⟨t, a, rfl, ha⟩ := hcs
  have o0 : ∀ s, ofMag s 0 = fin s 0 := fun s => by
    rw [ofMag_of_le le_rfl isDouble_zero.le_max, fl0_zero]
  have a0 : a ≠ 0 := by
    rintro rfl
    simp [num] at c0
  refine ⟨s != t, fun r hr => ?_, ?_, ?_⟩
  · rw [speed, hr, if_pos rfl, hs]
    simp [Out.times, mul, o0]
  · have e : div (ofInt 1) (div (fin (s != t) 0) (fin (s != t) 0)) = nan := by simp [PyFloat.div, ofInt_one]
    rw [density, e]
    cases mul base (isq (R.div R)) <;> rfl
  · rintro ⟨u, b, hb, -⟩
    simp only [densitySonic, PyFloat.div, if_true, ofInt_one, if_neg a0]
    exact ⟨_, by
      change mul (mul base (isq (div rs R))) _ = _
      rw [hb]
      simp only [mul, mul_zero, o0]
      rfl⟩

/-- The exponential function is correctly rounded at -1 and the logarithm of 1 is 0. -/
structure Spec.GoodSonic (L : WindLib) : Prop where
  log : ∃ s, L.log (fin false 1) = fin s 0
  exp : ∃ d, IsDouble d ∧ (∀ y, IsDouble y → |(d : ℝ) - Real.exp (-1)| ≤ |(y : ℝ) - Real.exp (-1)|) ∧ L.exp (fin true 1) = fin false d

theorem FloatParker.grid {d : ℚ} (hd : IsDouble d) (h : 1 / 4 < d) : ∃ m : ℕ, d = m / 2 ^ 54 := by
  obtain ⟨n, e, h1, -, -, rfl⟩ := hd
  have he : -54 ≤ e := by
    by_contra hlt
    have h3 : (2 : ℚ) ^ e ≤ 2 ^ (-55 : ℤ) := zpow_le_zpow_right₀ (by norm_num) (by omega)
    have h4 : (n : ℚ) < 2 ^ 53 := by exact_mod_cast h1
    have h5 : (n : ℚ) * 2 ^ e ≤ 2 ^ 53 * 2 ^ (-55 : ℤ) := by gcongr
    norm_num at h5 h
    linarith
  obtain ⟨j, hj⟩ := Int.eq_ofNat_of_zero_le (show 0 ≤ e + 54 by omega)
  refine ⟨n * 2 ^ j, ?_⟩
  have e1 : e = (j : ℤ) - 54 := by omega
  rw [e1, zpow_sub₀ (by norm_num), zpow_natCast]
  push_cast
  norm_num
  ring

theorem FloatParker.exp_bounds : ((6627126856707896 : ℝ) / 2 ^ 54 - 1 / 2 ^ 55 < Real.exp (-1)) ∧
    Real.exp (-1) < (6627126856707896 : ℝ) / 2 ^ 54 := by
  have h := Real.exp_bound (x := -1) (by norm_num) (n := 22) (by norm_num)
  norm_num [Finset.sum_range_succ, Nat.factorial] at h
  rw [abs_le] at h
  constructor <;> norm_num <;> linarith [h.1, h.2]

/-- **C123.** At the sonic point itself `lambertw` is given a number below -1/e, of which it has no real value. -/
theorem C123_sonic (L : WindLib) (hL : GoodSonic L) :
    ((argument L (fin false 1)).num : ℝ) < -Real.exp (-1) ∧ ¬∃ v : ℝ, v * Real.exp v = (argument L (fin false 1)).num := by
  obtain ⟨s, hlog⟩ := hL.log
  obtain ⟨d, d1, d2, hexp⟩ := hL.exp
  have hE : sub (neg (rhs L (fin false 1))) (ofInt 1) = fin true 1 := by
    have o1 : ∀ s, ofMag s 1 = fin s 1 := fun s => by
      rw [ofMag_of_le zero_le_one isDouble_one.le_max, fl0_of_isDouble isDouble_one]
    have o0 : ∀ s, ofMag s 0 = fin s 0 := fun s => by
      rw [ofMag_of_le le_rfl isDouble_zero.le_max, fl0_zero]
    have h4 : ofInt 4 = fin false 4 := by
      have h := FloatFactors.ofInt_double (n := 4) ⟨4, 0, by norm_num, by norm_num, by norm_num, by norm_num⟩
      push_cast at h
      exact h
    rw [rhs, hlog, ofInt_one, h4]
    cases s <;> simp [sub, neg, add, mul, PyFloat.div, num, o0, o1]
  obtain ⟨b1, b2⟩ := exp_bounds
  have hD : IsDouble (6627126856707896 / 2 ^ 54) := ⟨6627126856707896, -54, by norm_num, by norm_num, by norm_num, by norm_num⟩
  have key : Real.exp (-1) < d := by
    have h1 := d2 _ hD
    push_cast at h1
    rw [abs_of_pos (a := (6627126856707896 : ℝ) / 2 ^ 54 - Real.exp (-1)) (by linarith)] at h1
    by_contra hlt
    have h2 := not_lt.1 hlt
    rw [abs_of_nonpos (by linarith)] at h1
    have h3 : (1 / 4 : ℚ) < d := by
      have : ((1 / 4 : ℚ) : ℝ) < d := by
        push_cast
        norm_num at b1 b2 h1 ⊢
        linarith
      exact_mod_cast this
    obtain ⟨m, rfl⟩ := grid d1 h3
    push_cast at h1 h2
    have h4 : (m : ℝ) < 6627126856707896 := by
      have h4 := h2.trans_lt b2
      rwa [div_lt_div_iff_of_pos_right (by positivity)] at h4
    have h5 : m ≤ 6627126856707895 := by
      have : m < 6627126856707896 := by exact_mod_cast h4
      omega
    have h6 : (m : ℝ) ≤ 6627126856707895 := by exact_mod_cast h5
    norm_num at b1 b2 h1 h2
    linarith
  have harg : ((argument L (fin false 1)).num : ℝ) = -d := by
    rw [argument, hE, hexp]
    simp [neg, num]
  refine ⟨by rw [harg]; linarith, ?_⟩
  rintro ⟨v, hv⟩
  rw [harg] at hv
  have h1 := Real.add_one_le_exp (-v - 1)
  have h2 : Real.exp (-v - 1) * Real.exp v = Real.exp (-1) := by rw [← Real.exp_add]; ring_nf
  have h3 : -v * Real.exp v ≤ Real.exp (-v - 1) * Real.exp v := by
    have := Real.exp_pos v
    gcongr
    linarith
  linarith

/-! ### The assumptions can be met -/

namespace FloatParker

theorem round_rel {x : ℝ} (h0 : 2 ^ (-1015 : ℤ) ≤ |x|) (h1 : |x| ≤ 2 ^ (1000 : ℤ)) :
    FinD (roundReal x) ∧ |((roundReal x).num : ℝ) - x| ≤ |x| / 2 ^ 51 := by
  have key : ∀ y : ℝ, 2 ^ (-1015 : ℤ) ≤ y → y ≤ 2 ^ (1000 : ℤ) → |((nearestReal y : ℚ) : ℝ) - y| ≤ y / 2 ^ 51 := by
    intro y h2 h3
    have hy : 0 ≤ y := le_trans (by positivity) h2
    obtain ⟨d, hd, hn⟩ := near_real hy h3
    refine ((exists_nearest y).choose_spec.2 d hd).trans (hn.trans ?_)
    have h4 : (2 : ℝ) ^ (-1072 : ℤ) = 2 ^ (-1015 : ℤ) / 2 ^ 57 := by
      rw [← zpow_natCast, ← zpow_sub₀ (by norm_num)]; norm_num
    rw [h4]
    generalize (2 : ℝ) ^ (-1015 : ℤ) = t at *
    norm_num
    linarith
  unfold roundReal
  split_ifs with hx
  · rw [abs_of_neg hx] at h0 h1 ⊢
    refine ⟨⟨_, _, rfl, (exists_nearest _).choose_spec.1⟩, ?_⟩
    have h := key _ h0 h1
    have e : (((fin true (nearestReal (-x))).num : ℚ) : ℝ) - x = -(((nearestReal (-x) : ℚ) : ℝ) - -x) := by
      simp only [num]
      push_cast
      ring
    rw [e, abs_neg]
    exact h
  · rw [abs_of_nonneg (not_lt.1 hx)] at h0 h1 ⊢
    exact ⟨⟨_, _, rfl, (exists_nearest _).choose_spec.1⟩, key _ h0 h1⟩

theorem round_zero : roundReal 0 = fin false 0 := by
  rw [roundReal, if_neg (lt_irrefl _)]
  have h1 := (exists_nearest 0).choose_spec.2 0 isDouble_zero
  change |((nearestReal 0 : ℚ) : ℝ) - 0| ≤ |((0 : ℚ) : ℝ) - 0| at h1
  simp only [Rat.cast_zero, sub_zero, abs_zero] at h1
  have h2 := abs_eq_zero.1 (le_antisymm h1 (abs_nonneg _))
  have h3 : nearestReal 0 = 0 := Rat.cast_eq_zero.1 h2
  rw [h3]

/-- Rounded functions. -/
noncomputable def exWindLib : WindLib where
  log x := roundReal (Real.log x.num)
  exp x := if x.num ≤ -746 then fin false 0 else roundReal (Real.exp x.num)
  lambertw z k := (if z.num = 0 then fin false 0 else roundReal (Parker.lambertW k z.num), fin false 0)
  csqrt z := (roundReal (Real.sqrt z.1.num), fin false 0)

theorem small_zpow : (2 : ℝ) ^ (-1015 : ℤ) ≤ 1 / 2 ^ 60 := by
  calc (2 : ℝ) ^ (-1015 : ℤ) ≤ 2 ^ (-60 : ℤ) := zpow_le_zpow_right₀ (by norm_num) (by norm_num)
    _ = _ := by norm_num

theorem large_zpow : (2 : ℝ) ^ 60 ≤ 2 ^ (1000 : ℤ) := by
  calc (2 : ℝ) ^ 60 = 2 ^ (60 : ℤ) := by norm_num
    _ ≤ _ := zpow_le_zpow_right₀ (by norm_num) (by norm_num)

theorem exp_700 : (2 : ℝ) ^ (-1015 : ℤ) ≤ Real.exp (-700) := by
  rw [← Real.exp_log (show (0 : ℝ) < 2 ^ (-1015 : ℤ) by positivity)]
  apply Real.exp_le_exp.2
  rw [Real.log_zpow]
  push_cast
  linarith [Real.log_two_gt_d9]

theorem pos_double {x : PyFloat} (hx : FinD x) (h : 0 < x.num) :
    (2 : ℝ) ^ (-1074 : ℤ) ≤ x.num ∧ (x.num : ℝ) ≤ 2 ^ (1024 : ℤ) ∧ IsDouble x.num := by
  obtain ⟨s, a, rfl, ha⟩ := hx
  have hs : s = false := by
    cases s
    · rfl
    · simp only [num, if_true] at h
      linarith [ha.nonneg]
  subst hs
  have e : (fin false a).num = a := by simp [num]
  rw [e] at h ⊢
  refine ⟨?_, ?_, ha⟩
  · have h1 : (2 : ℚ) ^ (-1074 : ℤ) ≤ a := by
      by_contra h2
      exact h.ne' (double_lt_tiny ha (not_le.1 h2))
    have := (Rat.cast_le (K := ℝ)).2 h1
    rwa [Rat.cast_zpow, Rat.cast_ofNat] at this
  · have h1 : a ≤ (2 : ℚ) ^ (1024 : ℤ) := ha.le_max.trans maxDouble_lt.le
    have := (Rat.cast_le (K := ℝ)).2 h1
    rwa [Rat.cast_zpow, Rat.cast_ofNat] at this

theorem log_size {x : PyFloat} (hx : FinD x) (h : 0 < x.num) (h1 : x.num ≠ 1) :
    1 / 2 ^ 60 ≤ |Real.log x.num| ∧ |Real.log x.num| ≤ 2 ^ 60 := by
  obtain ⟨p1, p2, p3⟩ := pos_double hx h
  generalize x.num = q at *
  have hq : (0 : ℝ) < q := by exact_mod_cast h
  have l1 := Real.log_two_gt_d9
  have l2 := Real.log_two_lt_d9
  constructor
  · rcases le_or_gt q (1 / 2) with h2 | h2
    · have h3 : Real.log q ≤ Real.log (1 / 2) := Real.log_le_log hq (by
        have := (Rat.cast_le (K := ℝ)).2 h2
        push_cast at this
        exact this)
      rw [one_div, Real.log_inv] at h3
      rw [abs_of_neg (by linarith)]
      norm_num at l1 ⊢
      linarith
    · obtain ⟨m, rfl⟩ := grid p3 (by linarith)
      rcases lt_or_gt_of_ne h1 with h4 | h4
      · have h5 : (m : ℚ) < 2 ^ 54 := by rwa [div_lt_one (by positivity)] at h4
        have h6 : m + 1 ≤ 2 ^ 54 := by exact_mod_cast h5
        have h7 : (m : ℝ) + 1 ≤ 2 ^ 54 := by exact_mod_cast h6
        have h8 := Real.log_le_sub_one_of_pos hq
        push_cast at h8 hq ⊢
        rw [abs_of_neg]
        · norm_num at h7 h8 ⊢; linarith
        · norm_num at h7 h8 ⊢; linarith
      · have h5 : (2 : ℚ) ^ 54 < m := by rwa [one_lt_div (by positivity)] at h4
        have h6 : 2 ^ 54 + 1 ≤ m := by exact_mod_cast h5
        have h7 : (2 : ℝ) ^ 54 + 1 ≤ m := by exact_mod_cast h6
        have h8 : Real.log (1 + 1 / 2 ^ 54) ≤ Real.log ((m / 2 ^ 54 : ℚ) : ℝ) := by
          apply Real.log_le_log (by positivity)
          push_cast
          rw [le_div_iff₀ (by positivity)]
          norm_num at h7 ⊢
          linarith
        have h9 := Real.one_sub_inv_le_log_of_pos (show (0 : ℝ) < 1 + 1 / 2 ^ 54 by positivity)
        refine le_trans ?_ ((h9.trans h8).trans (le_abs_self _))
        norm_num
  · rw [abs_le]
    have h3 := Real.log_le_log hq p2
    have h4 := Real.log_le_log (by positivity) p1
    rw [Real.log_zpow] at h3 h4
    push_cast at h3 h4
    constructor <;> norm_num at l1 l2 ⊢ <;> linarith

theorem exWindLib_good : GoodWind exWindLib (1 / 2 ^ 51) where
  small := by norm_num
  log x hx h := by
    change FinD (roundReal _) ∧ _
    by_cases h1 : x.num = 1
    · have e : Real.log x.num = 0 := by rw [h1]; simp
      refine ⟨?_, ?_⟩
      · rw [e, round_zero]; exact ⟨_, _, rfl, isDouble_zero⟩
      · change |((roundReal (Real.log x.num)).num : ℝ) - _| ≤ _
        rw [e, round_zero]; simp [num]
    · obtain ⟨a, b⟩ := log_size hx h h1
      exact round_rel (small_zpow.trans a) (b.trans large_zpow)
  exp x hx h1 h2 := by
    have e : exWindLib.exp x = roundReal (Real.exp x.num) := by
      change (if _ then _ else _) = _
      rw [if_neg (by linarith)]
    rw [e]
    have h3 : (-700 : ℝ) ≤ x.num := by exact_mod_cast h1
    have h4 : (x.num : ℝ) ≤ 0 := by exact_mod_cast h2
    have h5 := round_rel (x := Real.exp x.num) (by
      rw [abs_of_pos (Real.exp_pos _)]
      exact exp_700.trans (Real.exp_le_exp.2 h3)) (by
      rw [abs_of_pos (Real.exp_pos _)]
      exact (Real.exp_le_one_iff.2 h4).trans (le_trans (by norm_num) large_zpow))
    rwa [abs_of_pos (Real.exp_pos _)] at h5
  underflow x hx h := if_pos h
  lambertw z k hz h1 h2 hk := by
    have hneg : (z.num : ℝ) < 0 := h2.trans_lt (neg_lt_zero.2 (Real.exp_pos _))
    have hz0 : z.num ≠ 0 := by
      intro h; rw [h] at hneg; simp at hneg
    have hs : Parker.lambertW k z.num * Real.exp (Parker.lambertW k z.num) = z.num ∧
        if k = 0 then -1 ≤ Parker.lambertW k z.num else Parker.lambertW k z.num ≤ -1 := by
      rcases hk with rfl | rfl
      · simpa using Parker.lambertW_zero h1 hneg
      · simpa using Parker.lambertW_minusOne h1 hneg
    have e : (exWindLib.lambertw z k).1 = roundReal (Parker.lambertW k z.num) := by
      change (if _ then _ else _) = _
      rw [if_neg hz0]
    refine ⟨_, hs.1, hs.2, ?_⟩
    rw [e]
    generalize Parker.lambertW k (z.num : ℝ) = v at hs ⊢
    have hv : v < 0 := by
      by_contra h
      have := mul_nonneg (not_lt.1 h) (Real.exp_pos v).le
      linarith [hs.1]
    have hr := round_rel (x := v) (by
      rw [abs_of_neg hv]
      have h3 : -v * Real.exp v ≤ -v * 1 := by
        have := Real.exp_le_one_iff.2 hv.le
        gcongr
        linarith
      exact exp_700.trans (by linarith [hs.1])) (by
      rw [abs_of_neg hv]
      have h3 : Real.exp (-700) ≤ -v * Real.exp v := by linarith [hs.1]
      have h4 := Real.log_le_log (Real.exp_pos _) h3
      rw [Real.log_exp, Real.log_mul (by linarith) (Real.exp_pos v).ne', Real.log_exp] at h4
      have h5 := Real.log_le_sub_one_of_pos (show 0 < -v / 2 by linarith)
      rw [Real.log_div (by linarith) (by norm_num)] at h5
      refine le_trans ?_ large_zpow
      norm_num
      linarith [Real.log_two_lt_d9])
    refine ⟨hr.1, ?_, false, rfl⟩
    have := hr.2
    rw [div_eq_mul_one_div] at this
    linarith
  lambertwZero s := ⟨false, false, by
    change ((if (fin s 0).num = 0 then fin false 0 else _), fin false 0) = _
    rw [if_pos (by simp [num])]⟩
  sqrt x s hx h := by
    obtain ⟨p1, p2, p3⟩ := pos_double hx h
    refine ⟨_, false, rfl, ?_⟩
    change FinD (roundReal (Real.sqrt x.num)) ∧ 0 < (roundReal (Real.sqrt x.num)).num ∧ |(roundReal (Real.sqrt x.num)).num ^ 2 - x.num| ≤ _
    have hq : (0 : ℝ) < x.num := by exact_mod_cast h
    have hs := Real.sqrt_pos.2 hq
    have hr := round_rel (x := Real.sqrt x.num) (by
      rw [abs_of_pos hs]
      apply Real.le_sqrt_of_sq_le
      refine le_trans ?_ p1
      rw [← zpow_natCast, ← zpow_mul]
      exact zpow_le_zpow_right₀ (by norm_num) (by norm_num)) (by
      rw [abs_of_pos hs]
      apply Real.sqrt_le_iff.2 ⟨by positivity, p2.trans ?_⟩
      rw [← zpow_natCast, ← zpow_mul]
      exact zpow_le_zpow_right₀ (by norm_num) (by norm_num))
    rw [abs_of_pos hs] at hr
    refine ⟨hr.1, ?_, ?_⟩
    · have h3 := (abs_le.1 hr.2).1
      have : (0 : ℝ) < (roundReal (Real.sqrt x.num)).num := by
        norm_num at h3
        linarith
      exact_mod_cast this
    · have h4 := hr.2
      have h5 := Real.sq_sqrt hq.le
      have : |((roundReal (Real.sqrt x.num)).num : ℝ) ^ 2 - x.num| ≤ (x.num : ℝ) / 2 ^ 49 := by
        generalize ((roundReal (Real.sqrt x.num)).num : ℝ) = y at h4
        generalize Real.sqrt (x.num : ℝ) = a at *
        rw [← h5, show y ^ 2 - a ^ 2 = (y - a) * (y + a) by ring, abs_mul]
        have h6 : |y + a| ≤ 3 * a := by
          rw [abs_le] at h4 ⊢
          norm_num at h4
          constructor <;> linarith [h4.1, h4.2]
        calc |y - a| * |y + a| ≤ a / 2 ^ 51 * (3 * a) := by gcongr
          _ ≤ _ := by rw [div_mul_eq_mul_div, div_le_div_iff₀ (by positivity) (by positivity)]; nlinarith [sq_nonneg a]
      have e : (((x.num / 2 ^ 49 : ℚ)) : ℝ) = (x.num : ℝ) / 2 ^ 49 := by push_cast; rfl
      rw [← e] at this
      exact_mod_cast this
  sqrtZero s t := ⟨false, false, by
    change (roundReal (Real.sqrt ((fin s 0).num : ℚ)), fin false 0) = _
    rw [show (((fin s 0).num : ℚ) : ℝ) = 0 by simp [num], Real.sqrt_zero, round_zero]⟩

theorem exWindLib_sonic : GoodSonic exWindLib where
  log := ⟨false, by
    change roundReal (Real.log ((fin false 1).num : ℚ)) = _
    rw [show (((fin false 1).num : ℚ) : ℝ) = 1 by simp [num], Real.log_one, round_zero]⟩
  exp := ⟨nearestReal (Real.exp (-1)), (exists_nearest _).choose_spec.1, (exists_nearest _).choose_spec.2, by
    change (if (fin true 1).num ≤ -746 then fin false 0 else roundReal (Real.exp ((fin true 1).num : ℚ))) = _
    rw [if_neg (by simp [num]), show (((fin true 1).num : ℚ) : ℝ) = -1 by simp [num], roundReal, if_neg (not_lt.2 (Real.exp_pos _).le)]⟩

end FloatParker

/-- Ten sonic radii. -/
example : ∃ u, find exWindLib (fin false 10) = .real u ∧ FinD u ∧ 1 - (1 / 2 ^ 51 + 1 / 2 ^ 48) ≤ (u.num : ℝ) ^ 2 := by
  have e : (fin false (10 : ℚ)).num = 10 := by simp [num]
  obtain ⟨u, h1, h2, h3, h4, h5, h6⟩ := C123_equation exWindLib _ exWindLib_good (fin false 10)
    ⟨_, _, rfl, 10, 0, by norm_num, by norm_num, by norm_num, by norm_num⟩ (by rw [e]; norm_num) (by rw [e]; norm_num)
    (by rw [e]; norm_num)
  exact ⟨u, h1, h2, h6 (by rw [e]; norm_num)⟩

/-- And the speed there. -/
example : ∃ u, find exWindLib (fin false 10) = .real u ∧
    |(u.num : ℝ) - Parker.find 10| ≤ Real.sqrt ((|Real.log 10| + 1 / 10 + 3) / 2 ^ 47) + 2 * u.num * (1 / 2 ^ 51 + 1 / 2 ^ 48) := by
  have e : (fin false (10 : ℚ)).num = 10 := by simp [num]
  obtain ⟨u, h1, h2, h3⟩ := C123_speed exWindLib _ exWindLib_good (fin false 10)
    ⟨_, _, rfl, 10, 0, by norm_num, by norm_num, by norm_num, by norm_num⟩ (by rw [e]; norm_num) (by rw [e]; norm_num)
    (by rw [e]; norm_num)
  rw [e] at h3
  push_cast at h3
  exact ⟨u, h1, h3⟩

/-- A star of 1/256 of the sonic radius. -/
example : (∃ s, find exWindLib (fin false (1 / 256)) = .real (fin s 0)) ∧ 0 < Parker.find (1 / 256) := by
  have e : (fin false (1 / 256 : ℚ)).num = 1 / 256 := by simp [num]
  have h := C123_underflow exWindLib _ exWindLib_good (fin false (1 / 256))
    ⟨_, _, rfl, 1, -8, by norm_num, by norm_num, by norm_num, by norm_num⟩ (by rw [e]; norm_num) (by rw [e]; norm_num)
  rw [e] at h
  push_cast at h
  exact h

/-- A star of one metre whose sonic radius is 256 metres, with a sonic speed of 1. -/
example : ∃ s, speed exWindLib (fin false 1) (fin false 256) (fin false 1) (fin false 1) = .real (fin s 0) := by
  have e : div (fin false 1) (fin false 256) = fin false (1 / 256) := by
    have hd : IsDouble (1 / 256) := ⟨1, -8, by norm_num, by norm_num, by norm_num, by norm_num⟩
    simp only [PyFloat.div]
    rw [if_neg (by norm_num), ofMag_of_le hd.nonneg hd.le_max, fl0_of_isDouble hd]
    rfl
  have e1 : (fin false (1 / 256 : ℚ)).num = 1 / 256 := by simp [num]
  obtain ⟨s, h, -⟩ := C123_cold exWindLib _ exWindLib_good (fin false 1) (fin false 256) (fin false 1) (fin false 1)
    (by rw [e]; exact ⟨_, _, rfl, 1, -8, by norm_num, by norm_num, by norm_num, by norm_num⟩) (by rw [e, e1]; norm_num)
    (by rw [e, e1]; norm_num) ⟨_, _, rfl, isDouble_one⟩ (by simp [num]) id
  exact ⟨s, h _ (by simp [FloatClose.le])⟩

example := C123_sonic exWindLib exWindLib_sonic

end Verif
