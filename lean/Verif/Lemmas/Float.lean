import Verif.Py.Float
import Mathlib.Tactic.FieldSimp
import Mathlib.Tactic.IntervalCases
import Mathlib.Tactic.Ring
import Mathlib.Tactic.Positivity
import Mathlib.Algebra.Order.Field.Power


/-!
# Rounding lemmas
-/

set_option exponentiation.threshold 4000

namespace Verif

/-! ### Round half even -/

theorem rhe_abs_le (q : ℚ) : |q - rhe q| ≤ 1 / 2 := by
  have h1 := Int.floor_le q
  have h2 := Int.lt_floor_add_one q
  unfold rhe
  split_ifs <;> rw [abs_le] <;> constructor <;> push_cast <;> linarith

theorem rhe_nearest (q : ℚ) (n : ℤ) : |q - rhe q| ≤ |q - n| := by
  have h := rhe_abs_le q
  by_cases hn : n = rhe q
  · rw [hn]
  · have h1 : (1 : ℚ) ≤ |(n : ℚ) - rhe q| := by
      have : (1 : ℤ) ≤ |n - rhe q| := Int.one_le_abs (sub_ne_zero.2 hn)
      exact_mod_cast this
    have h2 : |(n : ℚ) - rhe q| ≤ |q - n| + |q - rhe q| := by
      have := abs_sub_le (n : ℚ) q (rhe q)
      rwa [abs_sub_comm (n : ℚ) q] at this
    linarith

theorem rhe_eq_of_lt (q : ℚ) (n : ℤ) (h : |q - n| < 1 / 2) : rhe q = n := by
  by_contra hn
  have h0 := rhe_nearest q n
  have h1 : (1 : ℚ) ≤ |(n : ℚ) - rhe q| := by
    have : (1 : ℤ) ≤ |n - rhe q| := Int.one_le_abs (sub_ne_zero.2 (Ne.symm hn))
    exact_mod_cast this
  have h2 : |(n : ℚ) - rhe q| ≤ |q - n| + |q - rhe q| := by
    have := abs_sub_le (n : ℚ) q (rhe q)
    rwa [abs_sub_comm (n : ℚ) q] at this
  linarith

/-- At a tie the result is even. -/
theorem rhe_even_of_tie (q : ℚ) (h : |q - rhe q| = 1 / 2) : rhe q % 2 = 0 := by
  have h1 := Int.floor_le q
  have h2 := Int.lt_floor_add_one q
  unfold rhe at h ⊢
  split_ifs at h ⊢ with ha hb hc
  · rw [abs_of_nonneg (by linarith)] at h; linarith
  · rw [abs_of_nonpos (by push_cast; linarith)] at h; push_cast at h; linarith
  · exact hc
  · omega

theorem rhe_eq_of_even (q : ℚ) (n : ℤ) (h : |q - n| ≤ 1 / 2) (hn : n % 2 = 0) : rhe q = n := by
  rcases lt_or_eq_of_le h with h | h
  · exact rhe_eq_of_lt q n h
  · have h0 : |q - rhe q| = 1 / 2 := by
      by_contra hne
      have hlt : |q - rhe q| < 1 / 2 := lt_of_le_of_ne (rhe_abs_le q) hne
      have hne' : n ≠ rhe q := by rintro rfl; exact hne h
      have h1 : (1 : ℚ) ≤ |(n : ℚ) - rhe q| := by
        have : (1 : ℤ) ≤ |n - rhe q| := Int.one_le_abs (sub_ne_zero.2 hne')
        exact_mod_cast this
      have h2 : |(n : ℚ) - rhe q| ≤ |q - n| + |q - rhe q| := by
        have := abs_sub_le (n : ℚ) q (rhe q)
        rwa [abs_sub_comm (n : ℚ) q] at this
      linarith
    have he := rhe_even_of_tie q h0
    have h3 : |(n : ℚ) - rhe q| ≤ |q - n| + |q - rhe q| := by
      have := abs_sub_le (n : ℚ) q (rhe q)
      rwa [abs_sub_comm (n : ℚ) q] at this
    rw [h, h0] at h3
    have h4 : |n - rhe q| ≤ 1 := by
      have : |(n : ℚ) - rhe q| ≤ 1 := by linarith
      exact_mod_cast this
    rw [abs_le] at h4
    omega

theorem rhe_intCast (n : ℤ) : rhe (n : ℚ) = n := rhe_eq_of_lt _ _ (by simp)

theorem rhe_mono {p q : ℚ} (h : p ≤ q) : rhe p ≤ rhe q := by
  by_contra hlt
  rw [not_le] at hlt
  have h1 := abs_le.1 (rhe_abs_le p)
  have h2 := abs_le.1 (rhe_abs_le q)
  have h3 : (rhe q : ℚ) + 1 ≤ rhe p := by exact_mod_cast hlt
  have ep : p = rhe p - 1 / 2 := by linarith [h1.1, h2.2]
  have eq' : q = rhe q + 1 / 2 := by linarith [h1.1, h2.2]
  have hp := rhe_even_of_tie p (by rw [show p - (rhe p : ℚ) = -(1/2) by linarith]; norm_num)
  have hq := rhe_even_of_tie q (by rw [show q - (rhe q : ℚ) = 1/2 by linarith]; norm_num)
  have : (rhe p : ℚ) = rhe q + 1 := by linarith
  have : rhe p = rhe q + 1 := by exact_mod_cast this
  omega

theorem rhe_nonneg {q : ℚ} (h : 0 ≤ q) : 0 ≤ rhe q := by
  have := rhe_mono h
  rwa [show rhe 0 = 0 by simpa using rhe_intCast 0] at this

/-! ### Logarithms -/

theorem log_le {b : ℕ} (hb : 1 < b) {q : ℚ} (hq : 0 < q) : (b : ℚ) ^ Int.log b q ≤ q :=
  Int.zpow_log_le_self hb hq

theorem lt_log {b : ℕ} (hb : 1 < b) (q : ℚ) : q < (b : ℚ) ^ (Int.log b q + 1) :=
  Int.lt_zpow_succ_log_self hb q

theorem log_eq {b : ℕ} (hb : 1 < b) {q : ℚ} {k : ℤ} (h1 : (b : ℚ) ^ k ≤ q) (h2 : q < (b : ℚ) ^ (k + 1)) :
    Int.log b q = k := by
  have hb' : (1 : ℚ) < b := by exact_mod_cast hb
  have hq : 0 < q := lt_of_lt_of_le (zpow_pos (by linarith) k) h1
  have a1 := log_le hb hq
  have a2 := lt_log hb q
  have b1 : k < Int.log b q + 1 := (zpow_lt_zpow_iff_right₀ hb').1 (lt_of_le_of_lt h1 a2)
  have b2 : Int.log b q < k + 1 := (zpow_lt_zpow_iff_right₀ hb').1 (lt_of_le_of_lt a1 h2)
  omega

/-! ### Rounding to a grid -/

/-- Rounding `q` to multiples of `b ^ e` gives a point at least as near as any `n * b ^ e'` with `n < b ^ p`,
provided the grid is that of the `p`-digit numbers near `q`. -/
theorem grid_nearest {b : ℕ} (hb : 1 < b) {q : ℚ} (hq : 0 < q) {p : ℕ} {e e' : ℤ} {n : ℕ}
    (hn : n < b ^ p) (he : e ≤ e' ∨ (e' < e ∧ e = Int.log b q - (p - 1))) (hp : 0 < p) :
    |(rhe (q / (b : ℚ) ^ e) : ℚ) * (b : ℚ) ^ e - q| ≤ |(n : ℚ) * (b : ℚ) ^ e' - q| := by
  have hb' : (1 : ℚ) < b := by exact_mod_cast hb
  have hb0 : (b : ℚ) ≠ 0 := by linarith
  have hpos : (0 : ℚ) < (b : ℚ) ^ e := zpow_pos (by linarith) e
  have key : ∀ j : ℤ, |(rhe (q / (b : ℚ) ^ e) : ℚ) * (b : ℚ) ^ e - q| ≤ |(j : ℚ) * (b : ℚ) ^ e - q| := by
    intro j
    have h := rhe_nearest (q / (b : ℚ) ^ e) j
    have s : ∀ x : ℚ, |x * (b : ℚ) ^ e - q| = |q / (b : ℚ) ^ e - x| * (b : ℚ) ^ e := by
      intro x
      rw [abs_sub_comm, ← abs_of_pos hpos, ← abs_mul, abs_of_pos hpos]
      congr 1
      field_simp
    rw [s, s]
    exact mul_le_mul_of_nonneg_right h hpos.le
  rcases he with he | ⟨h1, h2⟩
  · obtain ⟨i, rfl⟩ : ∃ i : ℕ, e' = e + i := ⟨(e' - e).toNat, by omega⟩
    have := key (n * b ^ i)
    rwa [show (((n : ℤ) * (b : ℤ) ^ i : ℤ) : ℚ) * (b : ℚ) ^ e = (n : ℚ) * (b : ℚ) ^ (e + (i : ℤ)) by
      rw [zpow_add₀ hb0, zpow_natCast]; push_cast; ring] at this
  · have hk := key (b ^ (p - 1))
    have e1 : (((b : ℤ) ^ (p - 1) : ℤ) : ℚ) * (b : ℚ) ^ e = (b : ℚ) ^ Int.log b q := by
      push_cast
      rw [← zpow_natCast, ← zpow_add₀ hb0]
      congr 1
      omega
    rw [e1] at hk
    have hl := log_le hb hq
    have hx : (n : ℚ) * (b : ℚ) ^ e' ≤ (b : ℚ) ^ Int.log b q := by
      have : (n : ℚ) ≤ (b : ℚ) ^ p := by exact_mod_cast hn.le
      calc (n : ℚ) * (b : ℚ) ^ e' ≤ (b : ℚ) ^ p * (b : ℚ) ^ e' :=
            mul_le_mul_of_nonneg_right this (zpow_pos (by linarith) e').le
        _ = (b : ℚ) ^ ((p : ℤ) + e') := by rw [zpow_add₀ hb0, zpow_natCast]
        _ ≤ _ := zpow_le_zpow_right₀ hb'.le (by omega)
    rw [abs_of_nonpos (by linarith : (b : ℚ) ^ Int.log b q - q ≤ 0)] at hk
    rw [abs_of_nonpos (by linarith : (n : ℚ) * (b : ℚ) ^ e' - q ≤ 0)]
    linarith

/-- Distance to the rounded value. -/
theorem grid_abs_le {b : ℕ} (hb : 1 < b) (q : ℚ) (e : ℤ) :
    |(rhe (q / (b : ℚ) ^ e) : ℚ) * (b : ℚ) ^ e - q| ≤ (b : ℚ) ^ e / 2 := by
  have hb' : (1 : ℚ) < b := by exact_mod_cast hb
  have hpos : (0 : ℚ) < (b : ℚ) ^ e := zpow_pos (by linarith) e
  have h := rhe_abs_le (q / (b : ℚ) ^ e)
  have s : |(rhe (q / (b : ℚ) ^ e) : ℚ) * (b : ℚ) ^ e - q|
      = |q / (b : ℚ) ^ e - rhe (q / (b : ℚ) ^ e)| * (b : ℚ) ^ e := by
    rw [abs_sub_comm, ← abs_of_pos hpos, ← abs_mul, abs_of_pos hpos]
    congr 1
    field_simp
  rw [s]
  nlinarith

/-! ### Doubles -/

/-- Magnitudes of finite binary64 numbers. -/
def IsDouble (x : ℚ) : Prop :=
  ∃ (n : ℕ) (e : ℤ), n < 2 ^ 53 ∧ -1074 ≤ e ∧ e ≤ 971 ∧ x = n * 2 ^ e

theorem IsDouble.nonneg {x : ℚ} (h : IsDouble x) : 0 ≤ x := by
  obtain ⟨n, e, _, _, _, rfl⟩ := h; positivity

theorem fl0_zero : fl0 0 = 0 := by
  unfold fl0
  rw [zero_div, show rhe 0 = 0 by simpa using rhe_intCast 0]; simp

/-- No double is nearer to `q` than `fl0 q`. -/
theorem fl0_nearest {q x : ℚ} (hq : 0 < q) (hx : IsDouble x) : |fl0 q - q| ≤ |x - q| := by
  obtain ⟨n, e', hn, he, _, rfl⟩ := hx
  have := grid_nearest (b := 2) (by norm_num) hq (p := 53) (e := flExp q) (e' := e') (n := n) hn
    (by unfold flExp; rcases le_total (Int.log 2 q - 52) (-1074) with h | h
        · left; rw [max_eq_right h]; exact he
        · rw [max_eq_left h]
          by_cases h2 : Int.log 2 q - 52 ≤ e'
          · left; exact h2
          · right; exact ⟨by omega, by norm_num⟩) (by norm_num)
  simpa [fl0] using this

theorem fl0_nonneg {q : ℚ} (hq : 0 ≤ q) : 0 ≤ fl0 q := by
  unfold fl0
  have : (0 : ℚ) ≤ rhe (q / 2 ^ flExp q) := by
    exact_mod_cast rhe_nonneg (div_nonneg hq (by positivity))
  positivity

/-- `fl0` returns the numbers of the binary64 format, up to the upper limit. -/
theorem fl0_form (q : ℚ) (hq : 0 ≤ q) : ∃ (n : ℕ) (e : ℤ), n < 2 ^ 53 ∧ -1074 ≤ e ∧ fl0 q = n * 2 ^ e := by
  rcases hq.eq_or_lt with rfl | hq
  · exact ⟨0, 0, by norm_num, by norm_num, by rw [fl0_zero]; simp⟩
  have h0 : 0 ≤ rhe (q / 2 ^ flExp q) := rhe_nonneg (by positivity)
  have hle : -1074 ≤ flExp q := le_max_right _ _
  have hup : q / 2 ^ flExp q ≤ ((2 ^ 53 : ℤ) : ℚ) := by
    rw [div_le_iff₀ (by positivity)]
    have h1 := lt_log (b := 2) (by norm_num) q
    have h2 : Int.log 2 q + 1 ≤ 53 + flExp q := by
      have : Int.log 2 q - 52 ≤ flExp q := le_max_left _ _
      omega
    calc q ≤ (2 : ℚ) ^ (Int.log 2 q + 1) := by exact_mod_cast h1.le
      _ ≤ 2 ^ (53 + flExp q) := zpow_le_zpow_right₀ (by norm_num) h2
      _ = _ := by rw [zpow_add₀ (by norm_num)]; norm_num
  have hn : rhe (q / 2 ^ flExp q) ≤ 2 ^ 53 := by
    have := rhe_mono hup
    rwa [rhe_intCast] at this
  obtain ⟨n, hn'⟩ := Int.eq_ofNat_of_zero_le h0
  rcases lt_or_eq_of_le hn with hlt | heq
  · refine ⟨n, flExp q, by omega, hle, ?_⟩
    rw [fl0, hn']; simp
  · refine ⟨2 ^ 52, flExp q + 1, by norm_num, by omega, ?_⟩
    rw [fl0, heq, zpow_add₀ (by norm_num)]; norm_num; ring

/-- Below the overflow limit the result is a double. -/
theorem fl0_isDouble (q : ℚ) (hq : 0 ≤ q) (h : fl0 q < 2 ^ (1024 : ℤ)) : IsDouble (fl0 q) := by
  obtain ⟨n, e, hn, he, hx⟩ := fl0_form q hq
  by_cases hee : e ≤ 971
  · exact ⟨n, e, hn, he, hee, hx⟩
  · rw [not_le] at hee
    obtain ⟨i, rfl⟩ : ∃ i : ℕ, e = 971 + i := ⟨(e - 971).toNat, by omega⟩
    rw [hx] at h
    have h2 : (n : ℚ) * 2 ^ i < 2 ^ 53 := by
      rw [zpow_add₀ (by norm_num), zpow_natCast, show (1024 : ℤ) = 53 + 971 by norm_num,
        zpow_add₀ (by norm_num)] at h
      have hp : (0 : ℚ) < 2 ^ (971 : ℤ) := by positivity
      have h' : ((n : ℚ) * 2 ^ i) * 2 ^ (971 : ℤ) < 2 ^ (53 : ℤ) * 2 ^ (971 : ℤ) := by linarith [h]
      have := lt_of_mul_lt_mul_right h' hp.le
      exact_mod_cast this
    refine ⟨n * 2 ^ i, 971, by exact_mod_cast h2, by norm_num, le_refl _, ?_⟩
    rw [hx, zpow_add₀ (by norm_num), zpow_natCast]; push_cast; ring

/-- The largest double. -/
def maxDouble : ℚ := (2 ^ 53 - 1) * 2 ^ (971 : ℤ)

theorem maxDouble_isDouble : IsDouble maxDouble :=
  ⟨2 ^ 53 - 1, 971, by norm_num, by norm_num, le_refl _, by unfold maxDouble; norm_num⟩

theorem IsDouble.le_max {x : ℚ} (h : IsDouble x) : x ≤ maxDouble := by
  obtain ⟨n, e, hn, _, he, rfl⟩ := h
  unfold maxDouble
  have h1 : (n : ℚ) ≤ 2 ^ 53 - 1 := by
    have : n + 1 ≤ 2 ^ 53 := hn
    have : ((n : ℚ) + 1) ≤ 2 ^ 53 := by exact_mod_cast this
    linarith
  have h2 : (2 : ℚ) ^ e ≤ 2 ^ (971 : ℤ) := zpow_le_zpow_right₀ (by norm_num) he
  exact mul_le_mul h1 h2 (by positivity) (by norm_num)

theorem fl0_le_max {q : ℚ} (hq : 0 < q) (h : q ≤ maxDouble) : fl0 q ≤ maxDouble := by
  by_contra hlt
  rw [not_le] at hlt
  have := fl0_nearest hq maxDouble_isDouble
  rw [abs_of_nonneg (by linarith), abs_of_nonneg (by linarith)] at this
  linarith

theorem maxDouble_lt : maxDouble < 2 ^ (1024 : ℤ) := by
  unfold maxDouble
  rw [show (1024 : ℤ) = 53 + 971 by norm_num, zpow_add₀ (by norm_num)]
  have hp : (0 : ℚ) < 2 ^ (971 : ℤ) := by positivity
  exact mul_lt_mul_of_pos_right (by norm_num) hp

/-- A double is its own rounding. -/
theorem fl0_of_isDouble {x : ℚ} (hx : IsDouble x) : fl0 x = x := by
  rcases hx.nonneg.eq_or_lt with h | h
  · rw [← h, fl0_zero]
  · have := fl0_nearest h hx
    rw [sub_self, abs_zero] at this
    linarith [abs_nonpos_iff.1 this]

theorem ofMag_of_le {neg : Bool} {q : ℚ} (hq : 0 ≤ q) (h : q ≤ maxDouble) :
    PyFloat.ofMag neg q = .fin neg (fl0 q) := by
  unfold PyFloat.ofMag
  rcases hq.eq_or_lt with rfl | hq
  · rw [fl0_zero, if_neg]; norm_num
  · rw [if_neg (not_le.2 (lt_of_le_of_lt (fl0_le_max hq h) maxDouble_lt))]

/-! ### Seven significant decimals -/

/-- Non-negative decimals with at most seven significant digits. -/
def IsDec7 (d : ℚ) : Prop := ∃ (n : ℕ) (k : ℤ), n < 10 ^ 7 ∧ d = n * 10 ^ k

theorem dec7_zero : dec7 0 = (0, 0) := by
  unfold dec7
  simp only [zero_div, show rhe 0 = 0 by simpa using rhe_intCast 0, Int.log_zero_right]; norm_num

/-- Facts about the first rounding step. -/
theorem dec7_core {x : ℚ} (hx : 0 < x) :
    (10 : ℚ) ^ 6 ≤ x / 10 ^ (Int.log 10 x - 6) ∧ x / 10 ^ (Int.log 10 x - 6) < 10 ^ 7 ∧
    10 ^ 6 ≤ rhe (x / 10 ^ (Int.log 10 x - 6)) ∧ rhe (x / 10 ^ (Int.log 10 x - 6)) ≤ 10 ^ 7 := by
  have hU : (0 : ℚ) < 10 ^ (Int.log 10 x - 6) := by positivity
  have h1 : (10 : ℚ) ^ 6 ≤ x / 10 ^ (Int.log 10 x - 6) := by
    rw [le_div_iff₀ hU, ← zpow_natCast, ← zpow_add₀ (by norm_num)]
    have := log_le (b := 10) (by norm_num) hx
    norm_num at this ⊢
    exact this
  have h2 : x / 10 ^ (Int.log 10 x - 6) < 10 ^ 7 := by
    rw [div_lt_iff₀ hU, ← zpow_natCast, ← zpow_add₀ (by norm_num)]
    have := lt_log (b := 10) (by norm_num) x
    norm_num at this ⊢
    rwa [show (7 : ℤ) + (Int.log 10 x - 6) = Int.log 10 x + 1 by ring]
  refine ⟨h1, h2, ?_, ?_⟩
  · have := rhe_mono (show ((10 ^ 6 : ℤ) : ℚ) ≤ x / 10 ^ (Int.log 10 x - 6) by exact_mod_cast h1)
    rwa [rhe_intCast] at this
  · have := rhe_mono (show x / 10 ^ (Int.log 10 x - 6) ≤ ((10 ^ 7 : ℤ) : ℚ) by exact_mod_cast h2.le)
    rwa [rhe_intCast] at this

/-- The normalisation of the carry does not change the value. -/
theorem decVal_dec7 (x : ℚ) :
    decVal (dec7 x) = rhe (x / 10 ^ (Int.log 10 x - 6)) * 10 ^ (Int.log 10 x - 6) := by
  unfold dec7 decVal
  simp only
  split_ifs with h
  · rw [h, show Int.log 10 x + 1 - 6 = (Int.log 10 x - 6) + 1 by ring, zpow_add₀ (by norm_num)]
    norm_num; ring
  · rfl

/-- Range of the significand. -/
theorem dec7_range {x : ℚ} (hx : 0 < x) : 10 ^ 6 ≤ (dec7 x).1 ∧ (dec7 x).1 < 10 ^ 7 := by
  obtain ⟨_, _, h3, h4⟩ := dec7_core hx
  unfold dec7
  simp only
  split_ifs with h
  · norm_num
  · exact ⟨h3, lt_of_le_of_ne h4 h⟩

theorem dec7_range' {x : ℚ} (hx : 0 ≤ x) : 0 ≤ (dec7 x).1 ∧ (dec7 x).1 < 10 ^ 7 := by
  rcases hx.eq_or_lt with rfl | hx
  · rw [dec7_zero]; norm_num
  · have := dec7_range hx; omega

theorem decVal_isDec7 {x : ℚ} (hx : 0 ≤ x) : IsDec7 (decVal (dec7 x)) := by
  obtain ⟨h1, h2⟩ := dec7_range' hx
  obtain ⟨n, hn⟩ := Int.eq_ofNat_of_zero_le h1
  exact ⟨n, (dec7 x).2 - 6, by omega, by unfold decVal; rw [hn]; simp⟩

theorem decVal_nonneg {x : ℚ} (hx : 0 ≤ x) : 0 ≤ decVal (dec7 x) := by
  obtain ⟨n, k, _, h⟩ := decVal_isDec7 hx
  rw [h]; positivity

theorem decVal_pos {x : ℚ} (hx : 0 < x) : 0 < decVal (dec7 x) := by
  unfold decVal
  have : (0 : ℚ) < (dec7 x).1 := by
    have := (dec7_range hx).1
    exact_mod_cast (by omega : (0 : ℤ) < (dec7 x).1)
  positivity

/-- No seven-digit decimal is nearer to `x`. -/
theorem dec7_nearest {x d : ℚ} (hx : 0 ≤ x) (hd : IsDec7 d) : |decVal (dec7 x) - x| ≤ |d - x| := by
  rcases hx.eq_or_lt with rfl | hx
  · rw [dec7_zero]; simp [decVal]
  obtain ⟨n, k, hn, rfl⟩ := hd
  rw [decVal_dec7]
  have := grid_nearest (b := 10) (by norm_num) hx (p := 7) (e := Int.log 10 x - 6) (e' := k) (n := n) hn
    (by by_cases h : Int.log 10 x - 6 ≤ k
        · exact Or.inl h
        · exact Or.inr ⟨by omega, by norm_num⟩) (by norm_num)
  exact_mod_cast this

/-- Rounding error: half a unit in the last place, hence relative error 5e-7. -/
theorem dec7_half_ulp (x : ℚ) : |decVal (dec7 x) - x| ≤ 10 ^ (Int.log 10 x - 6) / 2 := by
  rw [decVal_dec7]
  exact_mod_cast grid_abs_le (b := 10) (by norm_num) x (Int.log 10 x - 6)

theorem dec7_rel {x : ℚ} (hx : 0 ≤ x) : |decVal (dec7 x) - x| ≤ 5 / 10 ^ 7 * x := by
  rcases hx.eq_or_lt with rfl | hx
  · rw [dec7_zero]; simp [decVal]
  refine (dec7_half_ulp x).trans ?_
  obtain ⟨h1, _, _, _⟩ := dec7_core hx
  have hU : (0 : ℚ) < 10 ^ (Int.log 10 x - 6) := by positivity
  rw [le_div_iff₀ hU] at h1
  linarith

theorem log10_double_le {x : ℚ} (hx : 0 < x) (hd : IsDouble x) : Int.log 10 x ≤ 308 := by
  have h1 : (10 : ℚ) ^ Int.log 10 x ≤ x := by exact_mod_cast log_le (b := 10) (by norm_num) hx
  have h2 : x < 10 ^ (309 : ℤ) := lt_of_le_of_lt hd.le_max (by unfold maxDouble; norm_num)
  have := (zpow_lt_zpow_iff_right₀ (by norm_num : (1 : ℚ) < 10)).1 (lt_of_le_of_lt h1 h2)
  omega

/-- The decimal rounding of a double does not exceed the largest double. -/
theorem decVal_le_max {x : ℚ} (hd : IsDouble x) : decVal (dec7 x) ≤ maxDouble := by
  rcases hd.nonneg.eq_or_lt with h0 | hx
  · rw [← h0, dec7_zero]; unfold decVal maxDouble; norm_num
  by_contra hlt
  rw [not_le] at hlt
  have hk := log10_double_le hx hd
  have herr := dec7_half_ulp x
  obtain ⟨c1, c2, c3, c4⟩ := dec7_core hx
  have hv := decVal_dec7 x
  generalize hn : rhe (x / 10 ^ (Int.log 10 x - 6)) = n at *
  have hmax := hd.le_max
  rcases lt_or_eq_of_le hk with hk | hk
  · have : decVal (dec7 x) ≤ 10 ^ (308 : ℤ) := by
      rw [hv]
      calc (n : ℚ) * 10 ^ (Int.log 10 x - 6) ≤ 10 ^ 7 * 10 ^ (Int.log 10 x - 6) := by
            apply mul_le_mul_of_nonneg_right _ (by positivity); exact_mod_cast c4
        _ = 10 ^ (7 + (Int.log 10 x - 6)) := by rw [zpow_add₀ (by norm_num)]; norm_num
        _ ≤ _ := zpow_le_zpow_right₀ (by norm_num) (by omega)
    have h3 : (10 : ℚ) ^ (308 : ℤ) < maxDouble := by unfold maxDouble; norm_num
    linarith
  · rw [hk] at hv herr
    norm_num at hv herr
    have hn' : 1797694 ≤ n := by
      by_contra hc
      have : n ≤ 1797693 := by omega
      have h5 : (n : ℚ) ≤ 1797693 := by exact_mod_cast this
      rw [hv] at hlt
      unfold maxDouble at hlt
      norm_num at hlt
      linarith
    have h5 : (1797694 : ℚ) ≤ n := by exact_mod_cast hn'
    rw [hv] at herr
    have := (abs_le.1 herr).2
    unfold maxDouble at hmax
    norm_num at hmax
    linarith

/-! ### Decimal → binary → decimal -/

/-- A positive double is a positive multiple of the smallest one. -/
theorem IsDouble.multiple {x : ℚ} (h : IsDouble x) : ∃ N : ℕ, x = N * 2 ^ (-1074 : ℤ) := by
  obtain ⟨n, e, _, he, _, rfl⟩ := h
  obtain ⟨i, rfl⟩ : ∃ i : ℕ, e = -1074 + i := ⟨(e + 1074).toNat, by omega⟩
  refine ⟨n * 2 ^ i, ?_⟩
  rw [zpow_add₀ (by norm_num), zpow_natCast]; push_cast; ring

/-- The distance from a power of ten in the normal range (or close below it) to its double. -/
theorem fl0_pow10_close {k : ℤ} (hk : -316 ≤ k) :
    |fl0 ((10 : ℚ) ^ k) - 10 ^ k| ≤ 10 ^ (k - 6) / 20 := by
  have hpos : (0 : ℚ) < 10 ^ k := by positivity
  have h := grid_abs_le (b := 2) (by norm_num) ((10 : ℚ) ^ k) (flExp (10 ^ k))
  have e6 : (10 : ℚ) ^ (k - 6) = 10 ^ k / 10 ^ 6 := by rw [zpow_sub₀ (by norm_num)]; norm_num
  have h' : |fl0 ((10 : ℚ) ^ k) - 10 ^ k| ≤ 2 ^ flExp ((10 : ℚ) ^ k) / 2 := by
    unfold fl0; exact_mod_cast h
  refine h'.trans ?_
  unfold flExp
  rcases le_total (Int.log 2 ((10 : ℚ) ^ k) - 52) (-1074) with hc | hc
  · rw [max_eq_right hc]
    have : (10 : ℚ) ^ (-316 : ℤ) ≤ 10 ^ k := zpow_le_zpow_right₀ (by norm_num) hk
    rw [e6]
    norm_num at this ⊢
    linarith
  · rw [max_eq_left hc, zpow_sub₀ (by norm_num), e6]
    have := log_le (b := 2) (by norm_num) hpos
    push_cast at this
    norm_num at this ⊢
    linarith

/-- A tiny power of ten that has a double just above it rounds up. -/
theorem small_pow10 {k : ℤ} (hk : k ≤ -317) {x : ℚ} (hx : IsDouble x) (h1 : (10 : ℚ) ^ k ≤ x)
    (h2 : x ≤ 10 ^ k + 10 ^ (k - 6) / 2) : (10 : ℚ) ^ k ≤ fl0 (10 ^ k) := by
  obtain ⟨N, rfl⟩ := hx.multiple
  have e6 : (10 : ℚ) ^ (k - 6) = 10 ^ k / 10 ^ 6 := by rw [zpow_sub₀ (by norm_num)]; norm_num
  rw [e6] at h2
  by_cases hlow : k ≤ -324
  · exfalso
    have h3 : (10 : ℚ) ^ k ≤ 10 ^ (-324 : ℤ) := zpow_le_zpow_right₀ (by norm_num) hlow
    have h4 : (0 : ℚ) < 10 ^ k := by positivity
    have hN : 1 ≤ N := by
      rcases Nat.eq_zero_or_pos N with rfl | h
      · norm_num at h1; linarith
      · exact h
    have hN' : (1 : ℚ) ≤ N := by exact_mod_cast hN
    have h5 : (1 : ℚ) * 2 ^ (-1074 : ℤ) ≤ N * 2 ^ (-1074 : ℤ) :=
      mul_le_mul_of_nonneg_right hN' (by positivity)
    have h6 : (10 : ℚ) ^ (-324 : ℤ) * (1 + 1 / 10 ^ 6 / 2) < 2 ^ (-1074 : ℤ) := by norm_num
    generalize (2 : ℚ) ^ (-1074 : ℤ) = u at *
    generalize (10 : ℚ) ^ (-324 : ℤ) = w at *
    generalize (10 : ℚ) ^ k = t at *
    nlinarith
  by_cases h317 : k = -317
  · subst h317
    by_contra hlt
    rw [not_le] at hlt
    have hd : IsDouble (2024023 * 2 ^ (-1074 : ℤ)) :=
      ⟨2024023, -1074, by norm_num, le_refl _, by norm_num, by norm_num⟩
    have hn := fl0_nearest (q := (10 : ℚ) ^ (-317 : ℤ)) (by positivity) hd
    obtain ⟨M, hM⟩ : ∃ M : ℤ, fl0 ((10 : ℚ) ^ (-317 : ℤ)) = M * 2 ^ (-1074 : ℤ) := by
      obtain ⟨n, e, _, he, hx⟩ := fl0_form ((10 : ℚ) ^ (-317 : ℤ)) (by positivity)
      obtain ⟨i, rfl⟩ : ∃ i : ℕ, e = -1074 + i := ⟨(e + 1074).toNat, by omega⟩
      refine ⟨n * 2 ^ i, ?_⟩
      rw [hx, zpow_add₀ (by norm_num), zpow_natCast]; push_cast; ring
    rw [hM] at hlt hn
    have hM1 : M ≤ 2024022 := by
      by_contra hc
      have : 2024023 ≤ M := by omega
      have : (2024023 : ℚ) ≤ M := by exact_mod_cast this
      norm_num at hlt
      linarith
    have hM2 : (M : ℚ) ≤ 2024022 := by exact_mod_cast hM1
    rw [abs_of_nonpos (by linarith), abs_of_nonneg (by norm_num)] at hn
    norm_num at hn
    linarith
  · exfalso
    have hlo : -323 ≤ k := by omega
    have hhi : k ≤ -318 := by omega
    interval_cases k
    all_goals norm_num at h1 h2
    · have a : 2 < N := by
        by_contra hc
        have : (N : ℚ) ≤ 2 := by exact_mod_cast not_lt.1 hc
        linarith
      have b : (3 : ℚ) ≤ N := by exact_mod_cast a
      linarith
    · have a : 20 < N := by
        by_contra hc
        have : (N : ℚ) ≤ 20 := by exact_mod_cast not_lt.1 hc
        linarith
      have b : (21 : ℚ) ≤ N := by exact_mod_cast a
      linarith
    · have a : 202 < N := by
        by_contra hc
        have : (N : ℚ) ≤ 202 := by exact_mod_cast not_lt.1 hc
        linarith
      have b : (203 : ℚ) ≤ N := by exact_mod_cast a
      linarith
    · have a : 2024 < N := by
        by_contra hc
        have : (N : ℚ) ≤ 2024 := by exact_mod_cast not_lt.1 hc
        linarith
      have b : (2025 : ℚ) ≤ N := by exact_mod_cast a
      linarith
    · have a : 20240 < N := by
        by_contra hc
        have : (N : ℚ) ≤ 20240 := by exact_mod_cast not_lt.1 hc
        linarith
      have b : (20241 : ℚ) ≤ N := by exact_mod_cast a
      linarith
    · have a : 202402 < N := by
        by_contra hc
        have : (N : ℚ) ≤ 202402 := by exact_mod_cast not_lt.1 hc
        linarith
      have b : (202403 : ℚ) ≤ N := by exact_mod_cast a
      linarith

/-- `dec7` from bounds on the argument. -/
theorem dec7_eq {y : ℚ} {k m : ℤ} (h1 : (10 : ℚ) ^ k ≤ y) (h2 : y < 10 ^ (k + 1))
    (hm : rhe (y / 10 ^ (k - 6)) = m) : dec7 y = if m = 10 ^ 7 then (10 ^ 6, k + 1) else (m, k) := by
  have hk : Int.log 10 y = k := log_eq (b := 10) (by norm_num) (by exact_mod_cast h1) (by exact_mod_cast h2)
  unfold dec7
  simp only [hk, hm]

/-- Printing with seven digits, reading back and printing again gives the same digits, for every double. -/
theorem dec7_fl0_dec7 {x : ℚ} (hx : IsDouble x) : dec7 (fl0 (decVal (dec7 x))) = dec7 x := by
  rcases hx.nonneg.eq_or_lt with h0 | hpos
  · rw [← h0, dec7_zero, show decVal (0, 0) = 0 by simp [decVal], fl0_zero, dec7_zero]
  have hd0 := decVal_pos hpos
  have hv := decVal_dec7 x
  have hhalf := dec7_half_ulp x
  have hnear := fl0_nearest hd0 hx
  obtain ⟨c1, c2, c3, c4⟩ := dec7_core hpos
  have htie := rhe_even_of_tie (x / 10 ^ (Int.log 10 x - 6))
  have hd7 : dec7 x = if rhe (x / 10 ^ (Int.log 10 x - 6)) = 10 ^ 7 then (10 ^ 6, Int.log 10 x + 1)
      else (rhe (x / 10 ^ (Int.log 10 x - 6)), Int.log 10 x) := rfl
  generalize hk : Int.log 10 x = k at *
  have hU : (0 : ℚ) < 10 ^ (k - 6) := by positivity
  have eU : (10 : ℚ) ^ k = 10 ^ 6 * 10 ^ (k - 6) := by
    rw [zpow_sub₀ (by norm_num)]; norm_num; ring
  have eU1 : (10 : ℚ) ^ (k + 1) = 10 ^ 7 * 10 ^ (k - 6) := by
    rw [zpow_sub₀ (by norm_num), zpow_add₀ (by norm_num)]; norm_num; ring
  generalize hn : rhe (x / 10 ^ (k - 6)) = n at *
  generalize hd : decVal (dec7 x) = d at *
  generalize hy : fl0 d = y at *
  rw [abs_sub_comm x d] at hnear
  have hyd : |y - d| ≤ 10 ^ (k - 6) / 2 := hnear.trans hhalf
  have c3' : (10 : ℚ) ^ 6 ≤ n := by exact_mod_cast c3
  have c4' : (n : ℚ) ≤ 10 ^ 7 := by exact_mod_cast c4
  obtain ⟨hyd1, hyd2⟩ := abs_le.1 hyd
  -- distances in units of the last place
  have hyU : |y / 10 ^ (k - 6) - n| = |y - d| / 10 ^ (k - 6) := by
    rw [hv, ← abs_of_pos hU, ← abs_div, abs_of_pos hU]; congr 1; field_simp
  have hxU : |x / 10 ^ (k - 6) - n| = |d - x| / 10 ^ (k - 6) := by
    rw [abs_sub_comm d x, hv, ← abs_of_pos hU, ← abs_div, abs_of_pos hU]; congr 1; field_simp
  rcases lt_or_ge y (10 ^ k) with hlow | hlow
  · -- below the decade: only possible when d is the power of ten itself
    have hn6 : n = 10 ^ 6 := by
      have : (n : ℚ) < 10 ^ 6 + 1 := by
        rw [hv] at hyd1
        rw [eU] at hlow
        nlinarith
      have : n < 10 ^ 6 + 1 := by exact_mod_cast this
      omega
    have hdk : d = 10 ^ k := by rw [hv, hn6, eU]; norm_num
    have hxk : (10 : ℚ) ^ k ≤ x := by
      rw [← hk]; exact_mod_cast log_le (b := 10) (by norm_num) hpos
    have hclose : |y - d| ≤ 10 ^ (k - 6) / 20 := by
      by_cases hk2 : -316 ≤ k
      · rw [← hy, hdk]; exact fl0_pow10_close hk2
      · exfalso
        have := small_pow10 (k := k) (by omega) hx hxk (by
          have := (abs_le.1 hhalf).1
          rw [hdk] at this; linarith)
        rw [← hdk, hy, hdk] at this
        linarith
    have hy1 : (10 : ℚ) ^ (k - 1) ≤ y := by
      have e1 : (10 : ℚ) ^ (k - 1) = 10 ^ 5 * 10 ^ (k - 6) := by
        rw [zpow_sub₀ (by norm_num), zpow_sub₀ (by norm_num)]; norm_num; ring
      rw [e1]
      have := (abs_le.1 hclose).1
      rw [hdk, eU] at this
      nlinarith
    have e7 : (10 : ℚ) ^ (k - 1 - 6) = 10 ^ (k - 6) / 10 := by
      rw [show k - 1 - 6 = (k - 6) - 1 by ring, zpow_sub_one₀ (by norm_num)]; ring
    have hr : rhe (y / 10 ^ (k - 1 - 6)) = 10 ^ 7 := by
      apply rhe_eq_of_even _ _ _ (by norm_num)
      rw [e7]
      have : |y / (10 ^ (k - 6) / 10) - ((10 ^ 7 : ℤ) : ℚ)| = |y - d| / 10 ^ (k - 6) * 10 := by
        rw [hdk, eU, ← abs_of_pos hU, ← abs_div, abs_of_pos hU,
          show (10 : ℚ) = |10| by norm_num, ← abs_mul, show |(10 : ℚ)| = 10 by norm_num]
        congr 1
        push_cast
        field_simp
        ring
      rw [this, div_mul_eq_mul_div, div_le_iff₀ hU]
      linarith
    rw [dec7_eq hy1 (by rw [sub_add_cancel]; exact hlow) hr, hd7, hn6]
    norm_num
  rcases lt_or_ge y (10 ^ (k + 1)) with hup | hup
  · -- same decade
    have hr : rhe (y / 10 ^ (k - 6)) = n := by
      have hle : |y / 10 ^ (k - 6) - n| ≤ |x / 10 ^ (k - 6) - n| := by
        rw [hyU, hxU]; exact div_le_div_of_nonneg_right hnear hU.le
      have hx2 : |x / 10 ^ (k - 6) - n| ≤ 1 / 2 := by
        rw [hxU, div_le_iff₀ hU]; linarith
      rcases lt_or_eq_of_le hx2 with h | h
      · exact rhe_eq_of_lt _ _ (lt_of_le_of_lt hle h)
      · exact rhe_eq_of_even _ _ (hle.trans hx2) (htie h)
    rw [dec7_eq hlow hup hr, hd7]
  · -- above: d is the next power of ten
    have hn7 : n = 10 ^ 7 := by
      have : (10 : ℚ) ^ 7 - 1 < n := by
        rw [hv] at hyd2
        rw [eU1] at hup
        nlinarith
      have : (10 : ℤ) ^ 7 - 1 < n := by exact_mod_cast this
      omega
    have hr : rhe (y / 10 ^ (k + 1 - 6)) = 10 ^ 6 := by
      have e7 : (10 : ℚ) ^ (k + 1 - 6) = 10 ^ (k - 6) * 10 := by
        rw [show k + 1 - 6 = (k - 6) + 1 by ring, zpow_add_one₀ (by norm_num)]
      apply rhe_eq_of_even _ _ _ (by norm_num)
      have e : |y / 10 ^ (k + 1 - 6) - ((10 ^ 6 : ℤ) : ℚ)| = |y / 10 ^ (k - 6) - n| / 10 := by
        rw [e7, hn7, show (10 : ℚ) = |10| by norm_num, ← abs_div, show |(10 : ℚ)| = 10 by norm_num]
        congr 1
        push_cast
        field_simp
        ring
      rw [e, hyU, div_div, div_le_iff₀ (by positivity)]
      linarith
    have hyhi : y < 10 ^ (k + 1 + 1) := by
      have e8 : (10 : ℚ) ^ (k + 1 + 1) = 10 ^ 8 * 10 ^ (k - 6) := by
        rw [zpow_add_one₀ (by norm_num), eU1]; ring
      rw [e8]
      rw [hv] at hyd2
      nlinarith
    rw [dec7_eq hup hyhi hr, hd7, hn7]
    norm_num

/-- The value read back is within a relative error of 1e-6 of the original (5e-7 for the decimal rounding and
at most as much again for the conversion to binary). -/
theorem fl0_dec7_rel {x : ℚ} (hx : IsDouble x) : |fl0 (decVal (dec7 x)) - x| ≤ 1 / 10 ^ 6 * x := by
  rcases hx.nonneg.eq_or_lt with h0 | hpos
  · rw [← h0, dec7_zero, show decVal (0, 0) = 0 by simp [decVal], fl0_zero]; simp
  have h1 := fl0_nearest (decVal_pos hpos) hx
  have h2 := dec7_rel hx.nonneg
  rw [abs_sub_comm x] at h1
  have := abs_sub_le (fl0 (decVal (dec7 x))) (decVal (dec7 x)) x
  linarith

end Verif
