import Verif.Model.FloatCoords
import Verif.Props.FloatSets
import Verif.Props.FloatAxis
import Mathlib.Analysis.SpecialFunctions.Sqrt
import Mathlib.Analysis.SpecialFunctions.Trigonometric.Inverse
import Mathlib.Analysis.SpecialFunctions.Trigonometric.Bounds
import Mathlib.Analysis.Real.Pi.Bounds

/-!
# Property C109: spherical coordinates of points in double precision
-/

set_option exponentiation.threshold 4000

namespace Verif
open Spec PyFloat FloatRange FloatSets

/-- What is assumed of numpy: a correctly rounded square root, an arc cosine that is accurate to 2^-50 and is nan outside
[-1, 1], and an `arctan2` that is a number for finite arguments. -/
structure Spec.GoodAngles (A : AngleLib) : Prop where
  root_nearest : ∀ q, IsDouble q → ∃ r, A.root (fin false q) = fin false r ∧ IsDouble r ∧
    ∀ d, IsDouble d → |(r : ℝ) - √q| ≤ |(d : ℝ) - √q|
  root_inf : A.root (inf false) = inf false
  acos_close : ∀ s q, IsDouble q → q ≤ 1 → ∃ r, A.acos (fin s q) = fin false r ∧ IsDouble r ∧
    |(r : ℝ) - Real.arccos ((fin s q).num : ℚ)| ≤ 1 / 2 ^ 50
  acos_one : A.acos (fin false 1) = fin false 0
  acos_nan : ∀ s q, 1 < q → A.acos (fin s q) = nan
  atan2_num : ∀ s a t b, A.atan2 (fin s a) (fin t b) ≠ nan

namespace FloatCoords

/-! ### Rounding -/

theorem le_fl0 {d q : ℚ} (hd : IsDouble d) (hq : 0 < q) (h : d ≤ q) : d ≤ fl0 q := by
  have h1 := fl0_nearest hq hd
  by_contra hc
  rw [not_le] at hc
  rw [abs_of_neg (by linarith), abs_of_nonpos (by linarith)] at h1
  linarith

theorem fl0_le {d q : ℚ} (hd : IsDouble d) (hq : 0 ≤ q) (h : q ≤ d) : fl0 q ≤ d := by
  rcases hq.eq_or_lt with rfl | hq
  · rw [fl0_zero]; exact h
  have h1 := fl0_nearest hq hd
  by_contra hc
  rw [not_le] at hc
  rw [abs_of_pos (by linarith), abs_of_nonneg (by linarith)] at h1
  linarith

theorem isDouble_zpow {k : ℤ} (h1 : -1074 ≤ k) (h2 : k ≤ 971) : IsDouble ((2 : ℚ) ^ k) :=
  ⟨1, k, by norm_num, h1, h2, by simp⟩

theorem isDouble_two_zpow {k : ℤ} (h1 : -1022 ≤ k) (h2 : k ≤ 1023) : IsDouble ((2 : ℚ) ^ k) :=
  ⟨2 ^ 52, k - 52, by norm_num, by omega, by omega, by
    rw [Nat.cast_pow, Nat.cast_ofNat, ← zpow_natCast, ← zpow_add₀ (by norm_num)]
    congr 1
    push_cast
    ring⟩

theorem fl0_err {q : ℚ} (hq : 0 ≤ q) : |fl0 q - q| ≤ q / 2 ^ 53 + 2 ^ (-1075 : ℤ) := by
  by_cases h : (2 : ℚ) ^ (-1022 : ℤ) ≤ q
  · have := fl0_rel h
    have h2 : (0 : ℚ) < 2 ^ (-1075 : ℤ) := by positivity
    linarith
  · rw [not_le] at h
    rcases hq.eq_or_lt with rfl | hq
    · rw [fl0_zero, sub_zero, abs_zero]; positivity
    have h1 := grid_abs_le (b := 2) (by norm_num) q (flExp q)
    have h3 : Int.log 2 q < -1022 := by
      have := log_le (b := 2) (by norm_num) hq
      by_contra hc
      rw [not_lt] at hc
      have h4 : (2 : ℚ) ^ (-1022 : ℤ) ≤ 2 ^ Int.log 2 q := zpow_le_zpow_right₀ (by norm_num) hc
      have h5 : (2 : ℚ) ^ Int.log 2 q ≤ q := by exact_mod_cast this
      linarith
    have h4 : flExp q = -1074 := by unfold flExp; omega
    have h5 : (2 : ℚ) ^ (-1074 : ℤ) / 2 = 2 ^ (-1075 : ℤ) := by
      rw [show (-1074 : ℤ) = -1075 + 1 by norm_num, zpow_add₀ (by norm_num)]; norm_num
    have h6 : |fl0 q - q| ≤ (2 : ℚ) ^ flExp q / 2 := by unfold fl0; exact_mod_cast h1
    rw [h4, h5] at h6
    exact le_add_of_nonneg_of_le (by positivity) h6

/-- A positive double with a full significand. -/
theorem normal_form0 {z : ℚ} (hz : IsDouble z) (h : 0 < z) :
    ∃ (m : ℕ) (e : ℤ), 2 ^ 52 ≤ m ∧ m < 2 ^ 53 ∧ z = m * 2 ^ e := by
  obtain ⟨n, e, hn, he, _, rfl⟩ := hz
  have hn0 : n ≠ 0 := by
    rintro rfl
    simp at h
  have h1 := Nat.pow_log_le_self 2 hn0
  have h2 := Nat.lt_pow_succ_log_self (b := 2) (by norm_num) n
  set k := Nat.log 2 n with hk
  have hk52 : k ≤ 52 := by
    by_contra hc
    have : 2 ^ 53 ≤ 2 ^ k := Nat.pow_le_pow_right (by norm_num) (by omega)
    omega
  have hp : 2 ^ k * 2 ^ (52 - k) = 2 ^ 52 := by rw [← pow_add]; congr 1; omega
  have hp1 : 2 ^ (k + 1) * 2 ^ (52 - k) = 2 ^ 53 := by rw [← pow_add]; congr 1; omega
  have hpos : 0 < 2 ^ (52 - k) := by positivity
  have hm1 : 2 ^ 52 ≤ n * 2 ^ (52 - k) := by rw [← hp]; exact Nat.mul_le_mul_right _ h1
  have hm2 : n * 2 ^ (52 - k) < 2 ^ 53 := by rw [← hp1]; exact Nat.mul_lt_mul_of_pos_right h2 hpos
  have heq : (n : ℚ) * 2 ^ e = ((n * 2 ^ (52 - k) : ℕ) : ℚ) * 2 ^ (e - (52 - k : ℕ)) := by
    rw [zpow_sub₀ (by norm_num), zpow_natCast]
    push_cast
    field_simp
  exact ⟨n * 2 ^ (52 - k), e - (52 - k : ℕ), hm1, hm2, heq⟩

theorem normal_form {z : ℚ} (hz : IsDouble z) (h : (2 : ℚ) ^ (-511 : ℤ) ≤ z) :
    ∃ (m : ℕ) (e : ℤ), 2 ^ 52 ≤ m ∧ m < 2 ^ 53 ∧ -563 ≤ e ∧ z = m * 2 ^ e := by
  obtain ⟨m, e, h1, h2, rfl⟩ := normal_form0 hz (lt_of_lt_of_le (by positivity) h)
  refine ⟨m, e, h1, h2, ?_, rfl⟩
  by_contra hc
  rw [not_le] at hc
  have h3 : (m : ℚ) < 2 ^ 53 := by exact_mod_cast h2
  have h4 : (2 : ℚ) ^ e ≤ 2 ^ (-564 : ℤ) := zpow_le_zpow_right₀ (by norm_num) (by omega)
  have h5 : (2 : ℚ) ^ (-511 : ℤ) = 2 ^ 53 * 2 ^ (-564 : ℤ) := by
    rw [← zpow_natCast, ← zpow_add₀ (by norm_num)]; norm_num
  have h6 : (m : ℚ) * 2 ^ e < 2 ^ 53 * 2 ^ (-564 : ℤ) := by
    calc _ ≤ (m : ℚ) * 2 ^ (-564 : ℤ) := by gcongr
      _ < _ := by gcongr
  linarith

/-- The double below. -/
theorem below {m : ℕ} {e : ℤ} (hm : 2 ^ 52 < m) {r : ℚ} (hr : IsDouble r) (h : r < m * 2 ^ e) : r ≤ (m - 1) * 2 ^ e := by
  obtain ⟨n, e', hn, _, _, rfl⟩ := hr
  have hm' : (2 : ℚ) ^ 52 ≤ (m : ℚ) - 1 := by
    have : (2 ^ 52 + 1 : ℚ) ≤ m := by exact_mod_cast hm
    linarith
  rcases le_or_gt e e' with he | he
  · obtain ⟨i, rfl⟩ : ∃ i : ℕ, e' = e + i := ⟨(e' - e).toNat, by omega⟩
    rw [zpow_add₀ (by norm_num), zpow_natCast] at h ⊢
    have hp : (0 : ℚ) < 2 ^ e := by positivity
    have h1 : ((n * 2 ^ i : ℕ) : ℚ) < m := by
      push_cast
      by_contra hc
      rw [not_lt] at hc
      have := mul_le_mul_of_nonneg_right hc hp.le
      linarith
    have h2 : n * 2 ^ i + 1 ≤ m := by exact_mod_cast h1
    have h3 : ((n : ℚ) * 2 ^ i) + 1 ≤ m := by exact_mod_cast h2
    calc (n : ℚ) * (2 ^ e * 2 ^ i) = (n * 2 ^ i) * 2 ^ e := by ring
      _ ≤ _ := by gcongr; linarith
  · have h1 : (n : ℚ) ≤ 2 ^ 53 := by exact_mod_cast hn.le
    calc (n : ℚ) * 2 ^ e' ≤ 2 ^ 53 * 2 ^ (e - 1) := by
          gcongr
          · norm_num
          · omega
      _ = 2 ^ 52 * 2 ^ e := by rw [zpow_sub₀ (by norm_num)]; norm_num; ring
      _ ≤ _ := by gcongr

/-- The double above. -/
theorem above {m : ℕ} {e : ℤ} (hm : 2 ^ 52 ≤ m) {r : ℚ} (hr : IsDouble r) (h : m * 2 ^ e < r) : (m + 1) * 2 ^ e ≤ r := by
  obtain ⟨n, e', hn, _, _, rfl⟩ := hr
  have hp : (0 : ℚ) < 2 ^ e := by positivity
  have hm' : (2 : ℚ) ^ 52 ≤ m := by exact_mod_cast hm
  rcases le_or_gt e e' with he | he
  · obtain ⟨i, rfl⟩ : ∃ i : ℕ, e' = e + i := ⟨(e' - e).toNat, by omega⟩
    rw [zpow_add₀ (by norm_num), zpow_natCast] at h ⊢
    have h1 : (m : ℚ) < ((n * 2 ^ i : ℕ) : ℚ) := by
      push_cast
      by_contra hc
      rw [not_lt] at hc
      have := mul_le_mul_of_nonneg_right hc hp.le
      linarith
    have h2 : m + 1 ≤ n * 2 ^ i := by exact_mod_cast h1
    have h3 : (m : ℚ) + 1 ≤ (n : ℚ) * 2 ^ i := by exact_mod_cast h2
    calc ((m : ℚ) + 1) * 2 ^ e ≤ (n * 2 ^ i) * 2 ^ e := by gcongr
      _ = _ := by ring
  · exfalso
    have h1 : (n : ℚ) < 2 ^ 53 := by exact_mod_cast hn
    have : (n : ℚ) * 2 ^ e' ≤ m * 2 ^ e := by
      calc (n : ℚ) * 2 ^ e' ≤ 2 ^ 53 * 2 ^ (e - 1) := by
            gcongr
            · norm_num
            · omega
        _ = 2 ^ 52 * 2 ^ e := by rw [zpow_sub₀ (by norm_num)]; norm_num; ring
        _ ≤ _ := by gcongr
    linarith

/-- The rounded square of a double is close to the square. -/
theorem square_err {m : ℕ} {e : ℤ} (hm : m < 2 ^ 53) (h52 : 2 ^ 52 ≤ m) (he : -563 ≤ e) :
    |fl0 ((m * 2 ^ e) * (m * 2 ^ e)) - (m * 2 ^ e) * (m * 2 ^ e)| ≤ 2 ^ 52 * (2 ^ e * 2 ^ e) := by
  set q : ℚ := (m * 2 ^ e) * (m * 2 ^ e) with hq
  have hp : (0 : ℚ) < 2 ^ e := by positivity
  have hm0 : (0 : ℚ) < m := by
    have : 0 < m := by omega
    exact_mod_cast this
  have hq0 : 0 < q := by rw [hq]; positivity
  have h1 : |fl0 q - q| ≤ (2 : ℚ) ^ flExp q / 2 := by
    have := grid_abs_le (b := 2) (by norm_num) q (flExp q)
    unfold fl0
    exact_mod_cast this
  have h2 : q < 2 ^ (106 + 2 * e) := by
    have h3 : (m : ℚ) < 2 ^ 53 := by exact_mod_cast hm
    calc q = (m * m) * (2 ^ e * 2 ^ e) := by rw [hq]; ring
      _ < (2 ^ 53 * 2 ^ 53) * (2 ^ e * 2 ^ e) := by gcongr
      _ = 2 ^ (106 + 2 * e) := by
          rw [zpow_add₀ (by norm_num), two_mul, zpow_add₀ (by norm_num)]; norm_num
  have h3 : Int.log 2 q < 106 + 2 * e := by
    have := log_le (b := 2) (by norm_num) hq0
    have h5 : (2 : ℚ) ^ Int.log 2 q ≤ q := by exact_mod_cast this
    exact (zpow_lt_zpow_iff_right₀ (by norm_num : (1 : ℚ) < 2)).1 (lt_of_le_of_lt h5 h2)
  have h4 : flExp q ≤ 53 + 2 * e := by unfold flExp; omega
  refine h1.trans ?_
  calc (2 : ℚ) ^ flExp q / 2 ≤ 2 ^ (53 + 2 * e) / 2 := by
        gcongr
        norm_num
    _ = _ := by
        rw [zpow_add₀ (by norm_num), two_mul, zpow_add₀ (by norm_num)]
        norm_num
        ring

/-! ### The square root -/

/-- What a correctly rounded root is, without reals. -/
def IsRoot (S r : ℚ) : Prop :=
  IsDouble r ∧ (∀ d, IsDouble d → r < d → 4 * S ≤ (r + d) ^ 2) ∧ ∀ d, IsDouble d → d < r → (r + d) ^ 2 ≤ 4 * S

theorem isRoot_of {A : AngleLib} (hA : GoodAngles A) {S : ℚ} (hS : IsDouble S) :
    ∃ r, A.root (fin false S) = fin false r ∧ IsRoot S r ∧ ∀ d, IsDouble d → |(r : ℝ) - √S| ≤ |(d : ℝ) - √S| := by
  obtain ⟨r, e, hr, hn⟩ := hA.root_nearest S hS
  have hS0 : (0 : ℝ) ≤ S := by exact_mod_cast hS.nonneg
  have hsq := Real.sq_sqrt hS0
  have h0 := Real.sqrt_nonneg (S : ℝ)
  refine ⟨r, e, ⟨hr, fun d hd h => ?_, fun d hd h => ?_⟩, hn⟩
  · have h1 := hn d hd
    have h2 : (r : ℝ) < d := by exact_mod_cast h
    have h3 : 2 * √(S : ℝ) ≤ r + d := by
      by_contra hc
      rw [not_le] at hc
      rw [abs_of_neg (by linarith)] at h1
      rcases abs_cases ((d : ℝ) - √S) with ⟨e1, _⟩ | ⟨e1, _⟩ <;> rw [e1] at h1 <;> linarith
    have h4 : 4 * (S : ℝ) ≤ (r + d) ^ 2 := by
      calc 4 * (S : ℝ) = (2 * √S) ^ 2 := by rw [mul_pow, hsq]; norm_num
        _ ≤ _ := by gcongr
    exact_mod_cast h4
  · have h1 := hn d hd
    have h2 : (d : ℝ) < r := by exact_mod_cast h
    have hr0 : (0 : ℝ) ≤ r := by exact_mod_cast hr.nonneg
    have hd0 : (0 : ℝ) ≤ d := by exact_mod_cast hd.nonneg
    have h3 : r + d ≤ 2 * √(S : ℝ) := by
      by_contra hc
      rw [not_le] at hc
      rw [abs_of_pos (by linarith)] at h1
      rcases abs_cases ((d : ℝ) - √S) with ⟨e1, _⟩ | ⟨e1, _⟩ <;> rw [e1] at h1 <;> linarith
    have h4 : ((r : ℝ) + d) ^ 2 ≤ 4 * S := by
      calc ((r : ℝ) + d) ^ 2 ≤ (2 * √S) ^ 2 := by gcongr
        _ = _ := by rw [mul_pow, hsq]; norm_num
    exact_mod_cast h4

/-- The rounded root of something at least the rounded square of `z` is at least `z`. -/
theorem root_ge {z S r : ℚ} (hz : IsDouble z) (h : (2 : ℚ) ^ (-511 : ℤ) ≤ z) (h' : z ≤ 2 ^ (510 : ℤ)) (hS : fl0 (z * z) ≤ S)
    (hr : IsRoot S r) : z ≤ r := by
  obtain ⟨m, e, h52, h53, he, rfl⟩ := normal_form hz h
  by_contra hc
  rw [not_le] at hc
  have h4 := hr.2.1 _ hz hc
  have hp : (0 : ℚ) < 2 ^ e := by positivity
  have hr0 := hr.1.nonneg
  rcases h52.eq_or_lt with heq | hlt
  · subst heq
    have he2 : e ≤ 400 + 58 := by
      have h1 : ((2 ^ 52 : ℕ) : ℚ) * 2 ^ e = 2 ^ (52 + e) := by rw [zpow_add₀ (by norm_num)]; push_cast; norm_num
      rw [h1] at h'
      have := (zpow_le_zpow_iff_right₀ (by norm_num : (1 : ℚ) < 2)).1 h'
      omega
    have hex : fl0 (((2 ^ 52 : ℕ) : ℚ) * 2 ^ e * (((2 ^ 52 : ℕ) : ℚ) * 2 ^ e)) = ((2 ^ 52 : ℕ) : ℚ) * 2 ^ e * (((2 ^ 52 : ℕ) : ℚ) * 2 ^ e) := by
      have : ((2 ^ 52 : ℕ) : ℚ) * 2 ^ e * (((2 ^ 52 : ℕ) : ℚ) * 2 ^ e) = 2 ^ (104 + 2 * e) := by
        rw [zpow_add₀ (by norm_num), two_mul, zpow_add₀ (by norm_num)]
        push_cast
        norm_num
        ring
      rw [this]
      exact fl0_of_isDouble (isDouble_two_zpow (by omega) (by omega))
    rw [hex] at hS
    generalize ((2 ^ 52 : ℕ) : ℚ) * 2 ^ e = w at *
    nlinarith
  · have h5 := below hlt hr.1 hc
    have h6 := (abs_le.1 (square_err h53 h52 he)).1
    have hm1 : (2 : ℚ) ^ 52 + 1 ≤ m := by exact_mod_cast hlt
    have h7 : (r + m * 2 ^ e) ^ 2 ≤ ((2 * m - 1) * 2 ^ e) ^ 2 := by
      have : r + m * 2 ^ e ≤ (2 * m - 1) * 2 ^ e := by linarith
      gcongr
    have h9 : (4 * ((m : ℚ) - 2 ^ 52) - 1) * (2 ^ e * 2 ^ e) ≤ 0 := by linarith
    have h10 : (0 : ℚ) < 2 ^ e * 2 ^ e := by positivity
    have h11 : (4 * ((m : ℚ) - 2 ^ 52) - 1) ≤ 0 := by
      by_contra hcc
      rw [not_le] at hcc
      have := mul_pos hcc h10
      linarith
    linarith

/-- The rounded root of the rounded square of `z` is `z`. -/
theorem root_eq {z r : ℚ} (hz : IsDouble z) (h : (2 : ℚ) ^ (-511 : ℤ) ≤ z) (h' : z ≤ 2 ^ (510 : ℤ))
    (hr : IsRoot (fl0 (z * z)) r) : r = z := by
  refine le_antisymm ?_ (root_ge hz h h' le_rfl hr)
  obtain ⟨m, e, h52, h53, he, rfl⟩ := normal_form hz h
  by_contra hc
  rw [not_le] at hc
  have h4 := hr.2.2 _ hz hc
  have hp : (0 : ℚ) < 2 ^ e := by positivity
  have h5 := above h52 hr.1 hc
  have h6 := (abs_le.1 (square_err h53 h52 he)).2
  have hm1 : (2 : ℚ) ^ 52 ≤ m := by exact_mod_cast h52
  have h7 : ((2 * m + 1) * 2 ^ e) ^ 2 ≤ (r + m * 2 ^ e) ^ 2 := by
    have : (2 * m + 1) * 2 ^ e ≤ r + m * 2 ^ e := by linarith
    gcongr
  have h9 : (4 * ((m : ℚ) - 2 ^ 52) + 1) * (2 ^ e * 2 ^ e) ≤ 0 := by linarith
  have h10 : (0 : ℚ) < 2 ^ e * 2 ^ e := by positivity
  have : 0 < (4 * ((m : ℚ) - 2 ^ 52) + 1) * (2 ^ e * 2 ^ e) := mul_pos (by linarith) h10
  linarith

/-! ### The radius of a point -/

theorem zpow_le {j k : ℤ} (h : j ≤ k) : (2 : ℚ) ^ j ≤ 2 ^ k := zpow_le_zpow_right₀ (by norm_num) h

theorem big_le_max : (2 : ℚ) ^ (1023 : ℤ) ≤ maxDouble := (isDouble_two_zpow (by norm_num) (by norm_num)).le_max

theorem fl0_dbl {q : ℚ} (h0 : 0 ≤ q) (h : q ≤ maxDouble) : IsDouble (fl0 q) := by
  refine fl0_isDouble q h0 (lt_of_le_of_lt ?_ maxDouble_lt)
  exact fl0_le maxDouble_isDouble h0 h

theorem fl0_le_zpow {q : ℚ} {k : ℤ} (h1 : -1022 ≤ k) (h2 : k ≤ 1023) (h0 : 0 ≤ q) (h : q ≤ 2 ^ k) : fl0 q ≤ 2 ^ k :=
  fl0_le (isDouble_two_zpow h1 h2) h0 h

/-- The rounded sum of the rounded squares. -/
def sumSq (a b c : ℚ) : ℚ := fl0 (fl0 (fl0 (a * a) + fl0 (b * b)) + fl0 (c * c))

theorem sq_le_zpow {a : ℚ} {k : ℤ} (h0 : 0 ≤ a) (h : a ≤ 2 ^ k) : a * a ≤ 2 ^ (2 * k) := by
  rw [two_mul, zpow_add₀ (by norm_num)]
  gcongr

theorem mul_self_fin (s : Bool) {a : ℚ} (h0 : 0 ≤ a) (h : a ≤ 2 ^ (510 : ℤ)) : PyFloat.mul (fin s a) (fin s a) = fin false (fl0 (a * a)) := by
  simp only [PyFloat.mul, bne_self_eq_false]
  exact ofMag_of_le (by positivity) ((sq_le_zpow h0 h).trans ((zpow_le (by norm_num)).trans big_le_max))

theorem add_fin {p q : ℚ} (hp : 0 ≤ p) (hq : 0 ≤ q) (h : p + q ≤ maxDouble) :
    PyFloat.add (fin false p) (fin false q) = fin false (fl0 (p + q)) := by
  simp only [PyFloat.add, PyFloat.num, Bool.false_eq_true, if_false, Bool.and_false]
  split
  · next h0 => rw [h0, fl0_zero]
  · rw [abs_of_nonneg (by linarith), decide_eq_false (by linarith)]
    exact ofMag_of_le (by linarith) h

section
variable {a b c : ℚ} (ha : 0 ≤ a) (hb : 0 ≤ b) (hc : 0 ≤ c) (ha' : a ≤ 2 ^ (510 : ℤ)) (hb' : b ≤ 2 ^ (510 : ℤ))
  (hc' : c ≤ 2 ^ (510 : ℤ))
include ha hb hc ha' hb' hc'

theorem sq_steps : fl0 (a * a) ≤ 2 ^ (1020 : ℤ) ∧ fl0 (b * b) ≤ 2 ^ (1020 : ℤ) ∧ fl0 (c * c) ≤ 2 ^ (1020 : ℤ) ∧
    fl0 (fl0 (a * a) + fl0 (b * b)) ≤ 2 ^ (1021 : ℤ) ∧ sumSq a b c ≤ 2 ^ (1022 : ℤ) := by
  have k : ∀ {x : ℚ}, 0 ≤ x → x ≤ 2 ^ (510 : ℤ) → fl0 (x * x) ≤ 2 ^ (1020 : ℤ) := fun h0 h =>
    fl0_le_zpow (by norm_num) (by norm_num) (by positivity) (sq_le_zpow h0 h)
  have e1 : (2 : ℚ) ^ (1021 : ℤ) = 2 ^ (1020 : ℤ) + 2 ^ (1020 : ℤ) := by
    rw [show (1021 : ℤ) = 1020 + 1 by norm_num, zpow_add₀ (by norm_num), zpow_one, mul_two]
  have e2 : (2 : ℚ) ^ (1022 : ℤ) = 2 ^ (1021 : ℤ) + 2 ^ (1021 : ℤ) := by
    rw [show (1022 : ℤ) = 1021 + 1 by norm_num, zpow_add₀ (by norm_num), zpow_one, mul_two]
  have ka := k ha ha'
  have kb := k hb hb'
  have kc := k hc hc'
  have na : 0 ≤ fl0 (a * a) := fl0_nonneg (by positivity)
  have nb : 0 ≤ fl0 (b * b) := fl0_nonneg (by positivity)
  have nc : 0 ≤ fl0 (c * c) := fl0_nonneg (by positivity)
  have h1 : fl0 (fl0 (a * a) + fl0 (b * b)) ≤ 2 ^ (1021 : ℤ) :=
    fl0_le_zpow (by norm_num) (by norm_num) (by positivity) (by rw [e1]; exact add_le_add ka kb)
  have n1 : 0 ≤ fl0 (fl0 (a * a) + fl0 (b * b)) := fl0_nonneg (by positivity)
  exact ⟨ka, kb, kc, h1, fl0_le_zpow (by norm_num) (by norm_num) (by positivity)
    (by rw [e2]; exact add_le_add h1 (kc.trans (zpow_le (by norm_num))))⟩

theorem sum_fin (s t u : Bool) :
    PyFloat.add (PyFloat.add (PyFloat.mul (fin s a) (fin s a)) (PyFloat.mul (fin t b) (fin t b))) (PyFloat.mul (fin u c) (fin u c)) =
      fin false (sumSq a b c) ∧ IsDouble (sumSq a b c) := by
  obtain ⟨ka, kb, kc, k1, k2⟩ := sq_steps ha hb hc ha' hb' hc'
  have na : 0 ≤ fl0 (a * a) := fl0_nonneg (by positivity)
  have nb : 0 ≤ fl0 (b * b) := fl0_nonneg (by positivity)
  have nc : 0 ≤ fl0 (c * c) := fl0_nonneg (by positivity)
  have n1 : 0 ≤ fl0 (fl0 (a * a) + fl0 (b * b)) := fl0_nonneg (by positivity)
  have e1 : (2 : ℚ) ^ (1021 : ℤ) = 2 ^ (1020 : ℤ) + 2 ^ (1020 : ℤ) := by
    rw [show (1021 : ℤ) = 1020 + 1 by norm_num, zpow_add₀ (by norm_num), zpow_one, mul_two]
  have e2 : (2 : ℚ) ^ (1022 : ℤ) = 2 ^ (1021 : ℤ) + 2 ^ (1021 : ℤ) := by
    rw [show (1022 : ℤ) = 1021 + 1 by norm_num, zpow_add₀ (by norm_num), zpow_one, mul_two]
  have m1 : fl0 (a * a) + fl0 (b * b) ≤ maxDouble :=
    (add_le_add ka kb).trans (by rw [← e1]; exact (zpow_le (by norm_num)).trans big_le_max)
  have m2 : fl0 (fl0 (a * a) + fl0 (b * b)) + fl0 (c * c) ≤ maxDouble :=
    (add_le_add k1 (kc.trans (zpow_le (k := 1021) (by norm_num)))).trans
      (by rw [← e2]; exact (zpow_le (by norm_num)).trans big_le_max)
  rw [mul_self_fin s ha ha', mul_self_fin t hb hb', mul_self_fin u hc hc', add_fin na nb m1, add_fin n1 nc m2]
  exact ⟨rfl, fl0_dbl (by positivity) m2⟩

theorem sq_ge : fl0 (a * a) ≤ sumSq a b c ∧ fl0 (b * b) ≤ sumSq a b c ∧ fl0 (c * c) ≤ sumSq a b c := by
  obtain ⟨ka, kb, kc, k1, k2⟩ := sq_steps ha hb hc ha' hb' hc'
  have na : 0 ≤ fl0 (a * a) := fl0_nonneg (by positivity)
  have nb : 0 ≤ fl0 (b * b) := fl0_nonneg (by positivity)
  have nc : 0 ≤ fl0 (c * c) := fl0_nonneg (by positivity)
  have n1 : 0 ≤ fl0 (fl0 (a * a) + fl0 (b * b)) := fl0_nonneg (by positivity)
  have dbl : ∀ {x : ℚ}, 0 ≤ x → x ≤ 2 ^ (510 : ℤ) → IsDouble (fl0 (x * x)) := fun h0 h =>
    fl0_dbl (by positivity) ((sq_le_zpow h0 h).trans ((zpow_le (by norm_num)).trans big_le_max))
  have key : ∀ {d q : ℚ}, IsDouble d → 0 ≤ q → d ≤ q → d ≤ fl0 q := by
    intro d q hd h0 h
    rcases h0.eq_or_lt with rfl | h0
    · rw [fl0_zero]; exact h
    · exact le_fl0 hd h0 h
  have e1 : (2 : ℚ) ^ (1021 : ℤ) = 2 ^ (1020 : ℤ) + 2 ^ (1020 : ℤ) := by
    rw [show (1021 : ℤ) = 1020 + 1 by norm_num, zpow_add₀ (by norm_num), zpow_one, mul_two]
  have m1 : fl0 (a * a) + fl0 (b * b) ≤ maxDouble :=
    (add_le_add ka kb).trans (by rw [← e1]; exact (zpow_le (by norm_num)).trans big_le_max)
  have d1 := fl0_dbl (add_nonneg na nb) m1
  have s1 : fl0 (fl0 (a * a) + fl0 (b * b)) ≤ sumSq a b c := key d1 (add_nonneg n1 nc) (le_add_of_nonneg_right nc)
  exact ⟨(key (dbl ha ha') (add_nonneg na nb) (le_add_of_nonneg_right nb)).trans s1,
    (key (dbl hb hb') (add_nonneg na nb) (le_add_of_nonneg_left na)).trans s1,
    key (dbl hc hc') (add_nonneg n1 nc) (le_add_of_nonneg_left n1)⟩

theorem sq_err (h : (2 : ℚ) ^ (-1022 : ℤ) ≤ a * a + b * b + c * c) :
    |sumSq a b c - (a * a + b * b + c * c)| ≤ 9 * (a * a + b * b + c * c) / 2 ^ 53 := by
  have na : 0 ≤ fl0 (a * a) := fl0_nonneg (by positivity)
  have nb : 0 ≤ fl0 (b * b) := fl0_nonneg (by positivity)
  have nc : 0 ≤ fl0 (c * c) := fl0_nonneg (by positivity)
  have n1 : 0 ≤ fl0 (fl0 (a * a) + fl0 (b * b)) := fl0_nonneg (by positivity)
  have ea := abs_le.1 (fl0_err (q := a * a) (by positivity))
  have eb := abs_le.1 (fl0_err (q := b * b) (by positivity))
  have ec := abs_le.1 (fl0_err (q := c * c) (by positivity))
  have e1 := abs_le.1 (fl0_err (add_nonneg na nb))
  have e2 := abs_le.1 (fl0_err (add_nonneg n1 nc))
  have ht : (2 : ℚ) ^ (-1075 : ℤ) ≤ (a * a + b * b + c * c) / 2 ^ 53 := by
    rw [show (-1075 : ℤ) = -1022 - 53 by norm_num, zpow_sub₀ (by norm_num)]
    rw [show (2 : ℚ) ^ (53 : ℤ) = 2 ^ 53 by norm_num]
    exact div_le_div_of_nonneg_right h (by positivity)
  change _ ≤ sumSq a b c - _ ∧ sumSq a b c - _ ≤ _ at e2
  have pa : 0 ≤ a * a := by positivity
  have pb : 0 ≤ b * b := by positivity
  have pc : 0 ≤ c * c := by positivity
  generalize (2 : ℚ) ^ (-1075 : ℤ) = t at *
  generalize fl0 (fl0 (a * a) + fl0 (b * b)) = s1 at *
  generalize fl0 (a * a) = A at *
  generalize fl0 (b * b) = B at *
  generalize fl0 (c * c) = C at *
  generalize sumSq a b c = S at *
  generalize a * a = a2 at *
  generalize b * b = b2 at *
  generalize c * c = c2 at *
  rw [abs_le]
  constructor <;> linarith [ea.1, ea.2, eb.1, eb.2, ec.1, ec.2, e1.1, e1.2, e2.1, e2.2]

end

/-- A double near a real number. -/
theorem near_real {x : ℝ} (h0 : 0 ≤ x) (h : x ≤ 2 ^ (1000 : ℤ)) :
    ∃ d, IsDouble d ∧ |(d : ℝ) - x| ≤ x / 2 ^ 52 + 2 ^ (-1072 : ℤ) := by
  have he : (0 : ℝ) < 2 ^ (-1074 : ℤ) := by positivity
  obtain ⟨q, hq1, hq2⟩ := exists_rat_btwn (show x < x + 2 ^ (-1074 : ℤ) by linarith)
  have hq0 : 0 ≤ q := by
    have : (0 : ℝ) ≤ q := by linarith
    exact_mod_cast this
  have hmax : q ≤ maxDouble := by
    have h1 : (q : ℝ) ≤ ((2 ^ (1001 : ℤ) : ℚ) : ℝ) := by
      have e1 : (2 : ℝ) ^ (1001 : ℤ) = 2 ^ (1000 : ℤ) + 2 ^ (1000 : ℤ) := by
        rw [show (1001 : ℤ) = 1000 + 1 by norm_num, zpow_add₀ (by norm_num), zpow_one, mul_two]
      have e2 : (2 : ℝ) ^ (-1074 : ℤ) ≤ 2 ^ (1000 : ℤ) := zpow_le_zpow_right₀ (by norm_num) (by norm_num)
      rw [Rat.cast_zpow, Rat.cast_ofNat, e1]
      linarith
    have h2 : q ≤ 2 ^ (1001 : ℤ) := Rat.cast_le.1 h1
    exact h2.trans ((zpow_le (by norm_num)).trans big_le_max)
  refine ⟨fl0 q, fl0_dbl hq0 hmax, ?_⟩
  have h1 : ((|fl0 q - q| : ℚ) : ℝ) ≤ ((q / 2 ^ 53 + 2 ^ (-1075 : ℤ) : ℚ) : ℝ) := Rat.cast_le.2 (fl0_err hq0)
  rw [Rat.cast_abs, Rat.cast_sub, Rat.cast_add, Rat.cast_div, Rat.cast_pow, Rat.cast_zpow, Rat.cast_ofNat] at h1
  have h2 : (2 : ℝ) ^ (-1075 : ℤ) ≤ 2 ^ (-1074 : ℤ) := zpow_le_zpow_right₀ (by norm_num) (by norm_num)
  have h3 : (2 : ℝ) ^ (-1072 : ℤ) = 4 * 2 ^ (-1074 : ℤ) := by
    rw [show (-1072 : ℤ) = 2 + -1074 by norm_num, zpow_add₀ (by norm_num)]; norm_num
  rw [h3]
  generalize (2 : ℝ) ^ (-1074 : ℤ) = t at *
  generalize (2 : ℝ) ^ (-1075 : ℤ) = w at *
  rw [abs_le] at h1 ⊢
  constructor <;> linarith [h1.1, h1.2]

/-- Two angles are close when their cosines are. -/
theorem angle_close {α β : ℝ} (ha0 : 0 ≤ α) (ha : α ≤ Real.pi) (hb0 : 0 ≤ β) (hb : β ≤ Real.pi) :
    2 * ((α - β) / Real.pi) ^ 2 ≤ |Real.cos α - Real.cos β| := by
  wlog h : β ≤ α with H
  · have := H hb0 hb ha0 ha (by linarith)
    rw [abs_sub_comm, show (α - β) / Real.pi = -((β - α) / Real.pi) by ring, neg_sq]
    exact this
  have h1 : Real.sin ((α - β) / 2) ≤ Real.sin ((α + β) / 2) := by
    rw [← sub_nonneg, Real.sin_sub_sin]
    have e1 : ((α + β) / 2 - (α - β) / 2) / 2 = β / 2 := by ring
    have e2 : ((α + β) / 2 + (α - β) / 2) / 2 = α / 2 := by ring
    rw [e1, e2]
    have := Real.sin_nonneg_of_nonneg_of_le_pi (x := β / 2) (by linarith) (by linarith)
    have := Real.cos_nonneg_of_neg_pi_div_two_le_of_le (x := α / 2) (by linarith) (by linarith)
    positivity
  have h2 := Real.mul_le_sin (x := (α - β) / 2) (by linarith) (by linarith)
  have h3 : 2 / Real.pi * ((α - β) / 2) = (α - β) / Real.pi := by ring
  rw [h3] at h2
  have h4 : 0 ≤ (α - β) / Real.pi := div_nonneg (by linarith) Real.pi_pos.le
  have h5 : ((α - β) / Real.pi) ^ 2 ≤ Real.sin ((α + β) / 2) * Real.sin ((α - β) / 2) := by
    rw [pow_two]
    exact mul_le_mul (h2.trans h1) h2 h4 (h4.trans (h2.trans h1))
  rw [Real.cos_sub_cos, show -2 * Real.sin ((α + β) / 2) * Real.sin ((α - β) / 2) =
    -(2 * (Real.sin ((α + β) / 2) * Real.sin ((α - β) / 2))) by ring, abs_neg]
  exact le_trans (by linarith) (le_abs_self _)

/-- The relative error of the radius. -/
theorem radius_close {P S r : ℚ} (hP : (2 : ℚ) ^ (-1022 : ℤ) ≤ P) (hS : |S - P| ≤ 9 * P / 2 ^ 53) (hS' : S ≤ 2 ^ (1022 : ℤ))
    (hS0 : 0 ≤ S) (hr : ∀ d, IsDouble d → |(r : ℝ) - √S| ≤ |(d : ℝ) - √S|) : |(r : ℝ) - √P| ≤ √P / 2 ^ 49 := by
  have hP0 : (0 : ℚ) < P := lt_of_lt_of_le (by positivity) hP
  have hP0' : (0 : ℝ) < P := by exact_mod_cast hP0
  have hS0' : (0 : ℝ) ≤ S := by exact_mod_cast hS0
  have hd : |(S : ℝ) - P| ≤ 9 * P / 2 ^ 53 := by exact_mod_cast hS
  have hρ := Real.sqrt_pos.2 hP0'
  have hρ2 := Real.mul_self_sqrt hP0'.le
  have hσ := Real.sqrt_nonneg (S : ℝ)
  have hσ2 := Real.mul_self_sqrt hS0'
  have h1 : |√(S : ℝ) - √P| ≤ 9 * √P / 2 ^ 53 := by
    have h2 : |√(S : ℝ) - √P| * √P ≤ 9 * √P / 2 ^ 53 * √P := by
      calc |√(S : ℝ) - √P| * √P ≤ |√(S : ℝ) - √P| * |√(S : ℝ) + √P| := by
            rw [abs_of_pos (show 0 < √(S : ℝ) + √P by linarith)]
            exact mul_le_mul_of_nonneg_left (by linarith) (abs_nonneg _)
        _ = |(S : ℝ) - P| := by
            rw [← abs_mul]
            congr 1
            linear_combination hσ2 - hρ2
        _ ≤ _ := hd
        _ = _ := by linear_combination (-9 / 2 ^ 53) * hρ2
    exact le_of_mul_le_mul_right h2 hρ
  have hup : √(S : ℝ) ≤ 2 ^ (1000 : ℤ) := by
    rw [Real.sqrt_le_left (by positivity)]
    have h3 : (S : ℝ) ≤ ((2 ^ (1022 : ℤ) : ℚ) : ℝ) := Rat.cast_le.2 hS'
    rw [Rat.cast_zpow, Rat.cast_ofNat] at h3
    refine h3.trans ?_
    rw [← zpow_natCast, ← zpow_mul]
    exact zpow_le_zpow_right₀ (by norm_num) (by norm_num)
  obtain ⟨d, hd1, hd2⟩ := near_real hσ hup
  have h4 := (hr d hd1).trans hd2
  have hη : (2 : ℝ) ^ (-1072 : ℤ) ≤ √P / 2 ^ 53 := by
    have h5 : (2 : ℝ) ^ (-511 : ℤ) ≤ √P := by
      apply Real.le_sqrt_of_sq_le
      have h6 : ((2 ^ (-1022 : ℤ) : ℚ) : ℝ) ≤ P := Rat.cast_le.2 hP
      rw [Rat.cast_zpow, Rat.cast_ofNat] at h6
      rw [← zpow_natCast, ← zpow_mul]
      exact h6
    calc (2 : ℝ) ^ (-1072 : ℤ) ≤ 2 ^ (-511 - 53 : ℤ) := zpow_le_zpow_right₀ (by norm_num) (by norm_num)
      _ = 2 ^ (-511 : ℤ) / 2 ^ 53 := by rw [zpow_sub₀ (by norm_num), show (2 : ℝ) ^ (53 : ℤ) = 2 ^ 53 by norm_num]
      _ ≤ _ := div_le_div_of_nonneg_right h5 (by positivity)
  generalize (2 : ℝ) ^ (-1072 : ℤ) = η at *
  rw [abs_le] at h1 h4 ⊢
  constructor <;> linarith [h1.1, h1.2, h4.1, h4.2]

/-- The error of the polar angle. -/
theorem polar_close {c r k : ℚ} {ρ : ℝ} (hc : 0 ≤ c) (hcr : c ≤ r) (hr0 : 0 < r) (hρ : 0 < ρ) (hr : |(r : ℝ) - ρ| ≤ ρ / 2 ^ 49)
    (hk : k = fl0 (c / r)) : |(k : ℝ) - c / ρ| ≤ 18 / 2 ^ 53 := by
  have h1 : 0 ≤ c / r := div_nonneg hc hr0.le
  have h2 : c / r ≤ 1 := (div_le_one hr0).2 hcr
  have h3 : |k - c / r| ≤ 2 / 2 ^ 53 := by
    rw [hk]
    refine (fl0_err h1).trans ?_
    have h4 : (2 : ℚ) ^ (-1075 : ℤ) ≤ 1 / 2 ^ 53 := by
      calc (2 : ℚ) ^ (-1075 : ℤ) ≤ 2 ^ (-53 : ℤ) := zpow_le (by norm_num)
        _ = _ := by norm_num
    generalize (2 : ℚ) ^ (-1075 : ℤ) = t at *
    linarith
  have h4 : |(k : ℝ) - c / r| ≤ 2 / 2 ^ 53 := by
    have := (Rat.cast_le (K := ℝ)).2 h3
    rw [Rat.cast_abs, Rat.cast_sub, Rat.cast_div] at this
    refine this.trans (le_of_eq ?_)
    norm_num
  have hr' : (0 : ℝ) < r := by exact_mod_cast hr0
  have hc' : (0 : ℝ) ≤ c := by exact_mod_cast hc
  have hcr' : (c : ℝ) ≤ r := by exact_mod_cast hcr
  have h5 : |(c : ℝ) / r - c / ρ| ≤ 16 / 2 ^ 53 := by
    have e : (c : ℝ) / r - c / ρ = c / r * ((ρ - r) / ρ) := by field_simp
    rw [e, abs_mul, abs_div (ρ - r), abs_of_pos hρ, abs_sub_comm, abs_of_nonneg (div_nonneg hc' hr'.le)]
    have h6 : (c : ℝ) / r ≤ 1 := (div_le_one hr').2 hcr'
    have h7 : |(r : ℝ) - ρ| / ρ ≤ 16 / 2 ^ 53 := by
      rw [div_le_iff₀ hρ]
      linarith
    calc (c : ℝ) / r * (|(r : ℝ) - ρ| / ρ) ≤ 1 * (16 / 2 ^ 53) :=
          mul_le_mul h6 h7 (by positivity) (by norm_num)
      _ = _ := one_mul _
  rw [abs_le] at h4 h5 ⊢
  constructor <;> linarith [h4.1, h4.2, h5.1, h5.2]

theorem angle_bound {k w θ : ℝ} (hk : |k - w| ≤ 18 / 2 ^ 53) (hk1 : |k| ≤ 1) (hw : |w| ≤ 1)
    (h : |θ - Real.arccos k| ≤ 1 / 2 ^ 50) : |Real.cos θ - w| ≤ 1 / 2 ^ 48 ∧ |θ - Real.arccos w| ≤ 1 / 2 ^ 22 := by
  have e1 : Real.cos (Real.arccos k) = k := Real.cos_arccos (abs_le.1 hk1).1 (abs_le.1 hk1).2
  have e2 : Real.cos (Real.arccos w) = w := Real.cos_arccos (abs_le.1 hw).1 (abs_le.1 hw).2
  constructor
  · have h1 := Real.abs_cos_sub_cos_le θ (Real.arccos k)
    rw [e1] at h1
    have h2 := h1.trans h
    rw [abs_le] at h2 hk ⊢
    constructor <;> linarith [h2.1, h2.2, hk.1, hk.2]
  · have h1 := angle_close (Real.arccos_nonneg k) (Real.arccos_le_pi k) (Real.arccos_nonneg w) (Real.arccos_le_pi w)
    rw [e1, e2] at h1
    have h2 : |Real.arccos k - Real.arccos w| ≤ 9 / 10 / 2 ^ 22 := by
      by_contra hc
      rw [not_le] at hc
      have h3 : (9 / 10 / 2 ^ 22) ^ 2 < (Real.arccos k - Real.arccos w) ^ 2 := by
        rw [← sq_abs (Real.arccos k - Real.arccos w)]
        gcongr
      have hp := Real.pi_lt_d2
      have hp0 := Real.pi_pos
      rw [div_pow] at h1
      have h4 : Real.pi ^ 2 < 10 := by nlinarith
      have h5 : (Real.arccos k - Real.arccos w) ^ 2 / 10 ≤ (Real.arccos k - Real.arccos w) ^ 2 / Real.pi ^ 2 := by
        gcongr
      linarith
    rw [abs_le] at h2 h ⊢
    constructor <;> linarith [h2.1, h2.2, h.1, h.2]

/-- A small addend is lost. -/
theorem absorb {C t : ℚ} (hC : IsDouble C) (hC0 : 0 < C) (hC' : C ≤ 2 ^ (1021 : ℤ)) (ht0 : 0 ≤ t) (ht : t < C / 2 ^ 54) :
    fl0 (t + C) = C := by
  have hpos : 0 < t + C := by linarith
  have hge : C ≤ fl0 (t + C) := le_fl0 hC hpos (by linarith)
  refine le_antisymm ?_ hge
  by_contra hc
  rw [not_le] at hc
  have hmax : t + C ≤ maxDouble := by
    have e2 : (2 : ℚ) ^ (1022 : ℤ) = 2 ^ (1021 : ℤ) + 2 ^ (1021 : ℤ) := by
      rw [show (1022 : ℤ) = 1021 + 1 by norm_num, zpow_add₀ (by norm_num), zpow_one, mul_two]
    have h1 : t ≤ C := ht.le.trans (div_le_self hC0.le (by norm_num))
    have h2 : t + C ≤ 2 ^ (1022 : ℤ) := by rw [e2]; exact add_le_add (h1.trans hC') hC'
    exact h2.trans ((zpow_le (by norm_num)).trans big_le_max)
  have hd := fl0_dbl hpos.le hmax
  have hn := fl0_nearest hpos hC
  obtain ⟨m, e, h52, h53, heq⟩ := normal_form0 hC hC0
  have h1 := above h52 hd (by rw [← heq]; exact hc)
  have h53' : (m : ℚ) < 2 ^ 53 := by exact_mod_cast h53
  have hp : (0 : ℚ) < 2 ^ e := by positivity
  have h2 : C < 2 ^ 53 * 2 ^ e := by rw [heq]; exact mul_lt_mul_of_pos_right h53' hp
  rw [show C - (t + C) = -t by ring, abs_neg, abs_of_nonneg ht0, abs_le] at hn
  have h3 : ((m : ℚ) + 1) * 2 ^ e = C + 2 ^ e := by rw [heq]; ring
  rw [h3] at h1
  linarith [hn.2]

theorem sq_axis {a b c : ℚ} (ha : 0 ≤ a) (hb : 0 ≤ b) (hc : (2 : ℚ) ^ (-500 : ℤ) ≤ c) (hc' : c ≤ 2 ^ (510 : ℤ))
    (hac : a ≤ c / 2 ^ 28) (hbc : b ≤ c / 2 ^ 28) : sumSq a b c = fl0 (c * c) := by
  have hc0 : 0 < c := lt_of_lt_of_le (by positivity) hc
  have na : 0 ≤ fl0 (a * a) := fl0_nonneg (by positivity)
  have nb : 0 ≤ fl0 (b * b) := fl0_nonneg (by positivity)
  have n1 : 0 ≤ fl0 (fl0 (a * a) + fl0 (b * b)) := fl0_nonneg (by positivity)
  have ea := abs_le.1 (fl0_err (q := a * a) (by positivity))
  have eb := abs_le.1 (fl0_err (q := b * b) (by positivity))
  have ec := abs_le.1 (fl0_err (q := c * c) (by positivity))
  have e1 := abs_le.1 (fl0_err (add_nonneg na nb))
  have ha2 : a * a ≤ c * c / 2 ^ 56 := by
    calc a * a ≤ (c / 2 ^ 28) * (c / 2 ^ 28) := by gcongr
      _ = _ := by ring
  have hb2 : b * b ≤ c * c / 2 ^ 56 := by
    calc b * b ≤ (c / 2 ^ 28) * (c / 2 ^ 28) := by gcongr
      _ = _ := by ring
  have hw : (2 : ℚ) ^ (-1075 : ℤ) ≤ c * c / 2 ^ 70 := by
    calc (2 : ℚ) ^ (-1075 : ℤ) ≤ 2 ^ (-500 + -500 - 70 : ℤ) := zpow_le (by norm_num)
      _ = 2 ^ (-500 : ℤ) * 2 ^ (-500 : ℤ) / 2 ^ 70 := by
          rw [zpow_sub₀ (by norm_num), zpow_add₀ (by norm_num), show (2 : ℚ) ^ (70 : ℤ) = 2 ^ 70 by norm_num]
      _ ≤ _ := by gcongr
  have pc : 0 < c * c := by positivity
  have pa : 0 ≤ a * a := by positivity
  have pb : 0 ≤ b * b := by positivity
  have kc : c * c ≤ 2 ^ (1020 : ℤ) := sq_le_zpow hc0.le hc'
  have dC : IsDouble (fl0 (c * c)) := fl0_dbl pc.le (kc.trans ((zpow_le (by norm_num)).trans big_le_max))
  have kC : fl0 (c * c) ≤ 2 ^ (1021 : ℤ) := (fl0_le_zpow (by norm_num) (by norm_num) pc.le kc).trans (zpow_le (by norm_num))
  have key : 0 < fl0 (c * c) ∧ fl0 (fl0 (a * a) + fl0 (b * b)) < fl0 (c * c) / 2 ^ 54 := by
    clear kC dC kc hc hc' hac hbc
    generalize (2 : ℚ) ^ (-1075 : ℤ) = t at *
    generalize fl0 (fl0 (a * a) + fl0 (b * b)) = s1 at *
    generalize fl0 (a * a) = A at *
    generalize fl0 (b * b) = B at *
    generalize fl0 (c * c) = C at *
    generalize a * a = a2 at *
    generalize b * b = b2 at *
    generalize c * c = c2 at *
    constructor <;> linarith [ea.1, ea.2, eb.1, eb.2, ec.1, ec.2, e1.1, e1.2]
  exact absorb dC key.1 kC n1 key.2

theorem double_lt_tiny {d : ℚ} (hd : IsDouble d) (h : d < 2 ^ (-1074 : ℤ)) : d = 0 := by
  obtain ⟨N, rfl⟩ := hd.multiple
  have hp : (0 : ℚ) < 2 ^ (-1074 : ℤ) := by positivity
  rcases Nat.eq_zero_or_pos N with rfl | hN
  · simp
  · exfalso
    have : (1 : ℚ) ≤ N := by exact_mod_cast hN
    have := mul_le_mul_of_nonneg_right this hp.le
    linarith

theorem sq_tiny {a : ℚ} (ha : 0 ≤ a) (h : a ≤ 2 ^ (-538 : ℤ)) : fl0 (a * a) = 0 := by
  have h1 : a * a ≤ 2 ^ (-1076 : ℤ) := sq_le_zpow ha h
  rcases (mul_nonneg ha ha).eq_or_lt with h0 | h0
  · rw [← h0, fl0_zero]
  have hmax : a * a ≤ maxDouble := h1.trans ((zpow_le (by norm_num)).trans big_le_max)
  refine double_lt_tiny (fl0_dbl h0.le hmax) ?_
  have hn := fl0_nearest h0 isDouble_zero
  rw [zero_sub, abs_neg, abs_of_pos h0, abs_le] at hn
  have e : (2 : ℚ) ^ (-1074 : ℤ) = 4 * 2 ^ (-1076 : ℤ) := by
    rw [show (-1074 : ℤ) = 2 + -1076 by norm_num, zpow_add₀ (by norm_num)]; norm_num
  have hp : (0 : ℚ) < 2 ^ (-1076 : ℤ) := by positivity
  rw [e]
  generalize (2 : ℚ) ^ (-1076 : ℤ) = t at *
  linarith [hn.2]

theorem sq_unit {c : ℚ} (h : (2 : ℚ) ^ (-537 : ℤ) < c) (h' : c ≤ 6 / 5 * 2 ^ (-537 : ℤ)) : fl0 (c * c) = 2 ^ (-1074 : ℤ) := by
  have hp : (0 : ℚ) < 2 ^ (-537 : ℤ) := by positivity
  have e : (2 : ℚ) ^ (-1074 : ℤ) = 2 ^ (-537 : ℤ) * 2 ^ (-537 : ℤ) := by rw [← zpow_add₀ (by norm_num)]; norm_num
  have hc : 0 < c := hp.trans h
  have h1 : (2 : ℚ) ^ (-1074 : ℤ) < c * c := by rw [e]; exact mul_self_lt_mul_self hp.le h
  have h2 : c * c ≤ 36 / 25 * 2 ^ (-1074 : ℤ) := by
    rw [e]
    calc c * c ≤ (6 / 5 * 2 ^ (-537 : ℤ)) * (6 / 5 * 2 ^ (-537 : ℤ)) := by gcongr
      _ = _ := by ring
  have hpos : 0 < c * c := by positivity
  have hτ : IsDouble ((2 : ℚ) ^ (-1074 : ℤ)) := isDouble_zpow (by norm_num) (by norm_num)
  have hge := le_fl0 hτ hpos h1.le
  have hmax : c * c ≤ maxDouble := by
    have e2 : (2 : ℚ) ^ (-1073 : ℤ) = 2 ^ (-1074 : ℤ) + 2 ^ (-1074 : ℤ) := by
      rw [show (-1073 : ℤ) = -1074 + 1 by norm_num, zpow_add₀ (by norm_num), zpow_one, mul_two]
    have : (0 : ℚ) < 2 ^ (-1074 : ℤ) := by positivity
    have h3 : c * c ≤ 2 ^ (-1073 : ℤ) := by
      rw [e2]
      generalize (2 : ℚ) ^ (-1074 : ℤ) = t at *
      linarith
    exact h3.trans ((zpow_le (by norm_num)).trans big_le_max)
  obtain ⟨N, hN⟩ := (fl0_dbl hpos.le hmax).multiple
  have hn := fl0_nearest hpos hτ
  rw [abs_of_neg (by linarith : (2 : ℚ) ^ (-1074 : ℤ) - c * c < 0), abs_le] at hn
  have ht : (0 : ℚ) < 2 ^ (-1074 : ℤ) := by positivity
  rw [hN] at hge hn ⊢
  generalize (2 : ℚ) ^ (-1074 : ℤ) = t at *
  have h4 : (N : ℚ) < 2 := by
    by_contra hcc
    rw [not_lt] at hcc
    have := mul_le_mul_of_nonneg_right hcc ht.le
    linarith [hn.2]
  have h5 : 0 < (N : ℚ) := by
    by_contra hcc
    have h6 : (N : ℚ) = 0 := le_antisymm (not_lt.1 hcc) (by positivity)
    rw [h6, zero_mul] at hge
    linarith
  have h7 : N = 1 := by
    have h8 : N < 2 := by exact_mod_cast h4
    have h9 : 0 < N := by exact_mod_cast h5
    omega
  rw [h7, Nat.cast_one, one_mul]

theorem fromRect_ok {A : AngleLib} {ps : List (PyFloat × PyFloat × PyFloat)} (h1 : ∀ p ∈ ps, isNan (raw A p).2.1 = false)
    (h2 : ∀ p ∈ ps, isNan (raw A p).2.2 = false) : fromRect A ps = .ok (ps.map (raw A)) := by
  simp only [fromRect, resAssert, if_pos h1, if_pos h2]
  rfl

theorem isNan_false {x : PyFloat} (h : x ≠ nan) : isNan x = false := by
  cases x <;> simp_all [isNan]

end FloatCoords

open FloatCoords

/-! ### The property -/

/-- A point given by finite doubles, not beyond 2^510 and not within 2^-511 of the origin. -/
structure Spec.InRange (p : PyFloat × PyFloat × PyFloat) : Prop where
  fin : FinD p.1 ∧ FinD p.2.1 ∧ FinD p.2.2
  le : |p.1.num| ≤ 2 ^ (510 : ℤ) ∧ |p.2.1.num| ≤ 2 ^ (510 : ℤ) ∧ |p.2.2.num| ≤ 2 ^ (510 : ℤ)
  ge : (2 : ℚ) ^ (-511 : ℤ) ≤ |p.1.num| ∨ (2 : ℚ) ^ (-511 : ℤ) ≤ |p.2.1.num| ∨ (2 : ℚ) ^ (-511 : ℤ) ≤ |p.2.2.num|

/-- The distance of a point from the origin. -/
noncomputable def Spec.distance (p : PyFloat × PyFloat × PyFloat) : ℝ :=
  √((p.1.num : ℝ) ^ 2 + (p.2.1.num : ℝ) ^ 2 + (p.2.2.num : ℝ) ^ 2)

/-- The first two coordinates of `o` are those of the point `p`, up to rounding; the third is a number. -/
def Spec.Located (p o : PyFloat × PyFloat × PyFloat) : Prop :=
  ∃ r θ : ℚ, o.1 = fin false r ∧ o.2.1 = fin false θ ∧ o.2.2 ≠ nan ∧ IsDouble r ∧ IsDouble θ ∧
    (|p.1.num| ≤ r ∧ |p.2.1.num| ≤ r ∧ |p.2.2.num| ≤ r) ∧
    |(r : ℝ) - distance p| ≤ distance p / 2 ^ 49 ∧
    |Real.cos θ - p.2.2.num / distance p| ≤ 1 / 2 ^ 48 ∧
    |(θ : ℝ) - Real.arccos (p.2.2.num / distance p)| ≤ 1 / 2 ^ 22

theorem FloatCoords.abs_num (s : Bool) {a : ℚ} (h : 0 ≤ a) : |(fin s a).num| = a := by
  cases s <;> simp [PyFloat.num, abs_of_nonneg h]

theorem FloatCoords.sq_num (s : Bool) (a : ℚ) : ((fin s a).num : ℝ) ^ 2 = (a : ℝ) * a := by
  cases s <;> simp [PyFloat.num, pow_two]

theorem FloatCoords.located {A : AngleLib} (hA : GoodAngles A) {p : PyFloat × PyFloat × PyFloat} (h : InRange p) :
    Located p (raw A p) := by
  obtain ⟨x, y, z⟩ := p
  obtain ⟨⟨⟨s, a, hx, da⟩, ⟨t, b, hy, db⟩, ⟨u, c, hz, dc⟩⟩, ⟨ha', hb', hc'⟩, hge⟩ := h
  dsimp only at hx hy hz ha' hb' hc' hge
  subst hx hy hz
  rw [abs_num _ da.nonneg] at ha' hge
  rw [abs_num _ db.nonneg] at hb' hge
  rw [abs_num _ dc.nonneg] at hc' hge
  obtain ⟨hs, dS⟩ := sum_fin da.nonneg db.nonneg dc.nonneg ha' hb' hc' s t u
  obtain ⟨ga, gb, gc⟩ := sq_ge da.nonneg db.nonneg dc.nonneg ha' hb' hc'
  obtain ⟨-, -, -, -, kS⟩ := sq_steps da.nonneg db.nonneg dc.nonneg ha' hb' hc'
  obtain ⟨r, er, hr, hn⟩ := isRoot_of hA dS
  have hlow : (2 : ℚ) ^ (-511 : ℤ) ≤ r := by
    rcases hge with h | h | h
    · exact h.trans (root_ge da h ha' ga hr)
    · exact h.trans (root_ge db h hb' gb hr)
    · exact h.trans (root_ge dc h hc' gc hr)
  have hle : ∀ {w : ℚ}, IsDouble w → w ≤ 2 ^ (510 : ℤ) → fl0 (w * w) ≤ sumSq a b c → w ≤ r := by
    intro w hw h1 h2
    by_cases h3 : (2 : ℚ) ^ (-511 : ℤ) ≤ w
    · exact root_ge hw h3 h1 h2 hr
    · exact (not_le.1 h3).le.trans hlow
  have la := hle da ha' ga
  have lb := hle db hb' gb
  have lc := hle dc hc' gc
  have r0 : 0 < r := lt_of_lt_of_le (by positivity) hlow
  have hP : (2 : ℚ) ^ (-1022 : ℤ) ≤ a * a + b * b + c * c := by
    have e : (2 : ℚ) ^ (-1022 : ℤ) = 2 ^ (-511 : ℤ) * 2 ^ (-511 : ℤ) := by rw [← zpow_add₀ (by norm_num)]; norm_num
    have hp : (0 : ℚ) ≤ 2 ^ (-511 : ℤ) := by positivity
    have pa := mul_self_nonneg a
    have pb := mul_self_nonneg b
    have pc := mul_self_nonneg c
    rw [e]
    rcases hge with h | h | h <;> have := mul_self_le_mul_self hp h <;> linarith
  have hd : distance (fin s a, fin t b, fin u c) = √((a * a + b * b + c * c : ℚ) : ℝ) := by
    simp only [distance, sq_num]
    push_cast
    rfl
  have hrad := radius_close hP (sq_err da.nonneg db.nonneg dc.nonneg ha' hb' hc' hP) kS dS.nonneg hn
  have hρ : 0 < √((a * a + b * b + c * c : ℚ) : ℝ) := by
    apply Real.sqrt_pos.2
    have : (0 : ℚ) < a * a + b * b + c * c := lt_of_lt_of_le (by positivity) hP
    exact_mod_cast this
  have erad : radius A (fin s a) (fin t b) (fin u c) = fin false r := by rw [radius, hs, er]
  have hq1 : c / r ≤ 1 := (div_le_one r0).2 lc
  have hq0 : 0 ≤ c / r := div_nonneg dc.nonneg r0.le
  have ecos : cosine (fin u c) (fin false r) = fin u (fl0 (c / r)) := by
    simp only [cosine, neZero, ne_eq, r0.ne', not_false_eq_true, decide_true, if_true, PyFloat.div, if_false, Bool.bne_false]
    exact ofMag_of_le hq0 (hq1.trans isDouble_one.le_max)
  have dk : IsDouble (fl0 (c / r)) := fl0_dbl hq0 (hq1.trans isDouble_one.le_max)
  have hk1 : fl0 (c / r) ≤ 1 := fl0_le isDouble_one hq0 hq1
  have hkc := polar_close dc.nonneg lc r0 hρ hrad rfl
  obtain ⟨θ, eθ, dθ, hθ⟩ := hA.acos_close u _ dk hk1
  have hcρ : (c : ℝ) / √((a * a + b * b + c * c : ℚ) : ℝ) ≤ 1 := by
    rw [div_le_one hρ]
    apply Real.le_sqrt_of_sq_le
    have : c ^ 2 ≤ a * a + b * b + c * c := by nlinarith [mul_self_nonneg a, mul_self_nonneg b]
    exact_mod_cast this
  have hcρ0 : 0 ≤ (c : ℝ) / √((a * a + b * b + c * c : ℚ) : ℝ) := by
    have : (0 : ℝ) ≤ c := by exact_mod_cast dc.nonneg
    positivity
  have hk0 : (0 : ℝ) ≤ (fl0 (c / r) : ℚ) := by exact_mod_cast dk.nonneg
  have hk1' : ((fl0 (c / r) : ℚ) : ℝ) ≤ 1 := by exact_mod_cast hk1
  have hfin : |Real.cos θ - (fin u c).num / √((a * a + b * b + c * c : ℚ) : ℝ)| ≤ 1 / 2 ^ 48 ∧
      |(θ : ℝ) - Real.arccos ((fin u c).num / √((a * a + b * b + c * c : ℚ) : ℝ))| ≤ 1 / 2 ^ 22 := by
    refine angle_bound (k := ((fin u (fl0 (c / r))).num : ℚ)) ?_ ?_ ?_ hθ
    · cases u
      · simpa [PyFloat.num] using hkc
      · simp only [PyFloat.num, if_true, Rat.cast_neg, neg_div]
        rw [← neg_sub', abs_neg, ← neg_sub, abs_neg, abs_sub_comm] at *
        simpa using hkc
    · cases u
      · simpa [PyFloat.num, abs_of_nonneg hk0] using hk1'
      · simpa [PyFloat.num, abs_of_nonneg hk0] using hk1'
    · cases u
      · simp only [PyFloat.num, Bool.false_eq_true, if_false]
        rw [abs_of_nonneg hcρ0]; exact hcρ
      · simp only [PyFloat.num, if_true, Rat.cast_neg, neg_div, abs_neg]
        rw [abs_of_nonneg hcρ0]; exact hcρ
  refine ⟨r, θ, erad, ?_, hA.atan2_num t b s a, hr.1, dθ, ?_, ?_, ?_⟩
  · simp only [raw, erad, ecos, eθ]
  · simp only [abs_num _ da.nonneg, abs_num _ db.nonneg, abs_num _ dc.nonneg]
    exact ⟨la, lb, lc⟩
  · rw [hd]; exact hrad
  · rw [hd]; exact hfin

/-- **C109**: for points given by doubles that are not beyond 2^510 and not within 2^-511 of the origin no assert fails. Every
radius is a number, not smaller than any of the coordinates and right to 2^-49; every polar angle is a number, whose cosine
is right to 2^-48 and which is itself right to 2^-22. -/
theorem C109_total {A : AngleLib} (hA : GoodAngles A) (ps : List (PyFloat × PyFloat × PyFloat)) (h : ∀ p ∈ ps, InRange p) :
    ∃ out, fromRect A ps = .ok out ∧ List.Forall₂ Located ps out := by
  refine ⟨_, fromRect_ok ?_ ?_, ?_⟩
  · intro p hp
    obtain ⟨r, θ, -, h2, -⟩ := located hA (h p hp)
    rw [h2]; rfl
  · intro p hp
    obtain ⟨r, θ, -, -, h3, -⟩ := located hA (h p hp)
    exact isNan_false h3
  · rw [List.forall₂_map_right_iff, List.forall₂_same]
    exact fun p hp => located hA (h p hp)

/-- A point given by finite doubles. -/
def Spec.FinPoint (p : PyFloat × PyFloat × PyFloat) : Prop := FinD p.1 ∧ FinD p.2.1 ∧ FinD p.2.2

/-- **C109**: a point in the cone |x|, |y| ≤ 2^-28 |z| around the axis is taken to be on it: the radius is exactly |z|, and
the polar angle is that of the axis, the arc cosine of 1 or -1. -/
theorem C109_near_axis {A : AngleLib} (hA : GoodAngles A) (p : PyFloat × PyFloat × PyFloat) (hp : FinPoint p)
    (hz : (2 : ℚ) ^ (-500 : ℤ) ≤ |p.2.2.num|) (hz' : |p.2.2.num| ≤ 2 ^ (510 : ℤ)) (hx : |p.1.num| ≤ |p.2.2.num| / 2 ^ 28)
    (hy : |p.2.1.num| ≤ |p.2.2.num| / 2 ^ 28) :
    fromRect A [p] = .ok [(fin false |p.2.2.num|, A.acos (fin (decide (p.2.2.num < 0)) 1), A.atan2 p.2.1 p.1)] := by
  obtain ⟨x, y, z⟩ := p
  obtain ⟨⟨s, a, e1, da⟩, ⟨t, b, e2, db⟩, ⟨u, c, e3, dc⟩⟩ := hp
  dsimp only at *
  subst e1 e2 e3
  rw [abs_num _ dc.nonneg] at *
  rw [abs_num _ da.nonneg] at hx
  rw [abs_num _ db.nonneg] at hy
  have c0 : 0 < c := lt_of_lt_of_le (by positivity) hz
  have hdiv : c / 2 ^ 28 ≤ c := div_le_self c0.le (by norm_num)
  obtain ⟨hs, dS⟩ := sum_fin da.nonneg db.nonneg dc.nonneg (hx.trans (hdiv.trans hz')) (hy.trans (hdiv.trans hz')) hz' s t u
  obtain ⟨r, er, hr, -⟩ := isRoot_of hA dS
  rw [sq_axis da.nonneg db.nonneg hz hz' hx hy] at hs er hr
  have hrc := root_eq dc ((zpow_le (by norm_num)).trans hz) hz' hr
  subst hrc
  have erad : radius A (fin s a) (fin t b) (fin u r) = fin false r := by rw [radius, hs, er]
  have ecos : cosine (fin u r) (fin false r) = fin u 1 := by
    simp only [cosine, neZero, ne_eq, c0.ne', not_false_eq_true, decide_true, if_true, PyFloat.div, if_false, Bool.bne_false,
      div_self c0.ne']
    rw [ofMag_of_le (by norm_num) isDouble_one.le_max, fl0_of_isDouble isDouble_one]
  have hu : decide ((fin u r).num < 0) = u := by
    cases u
    · simp [PyFloat.num, c0.le]
    · simp [PyFloat.num, c0]
  have eraw : raw A (fin s a, fin t b, fin u r) =
      (fin false r, A.acos (fin (decide ((fin u r).num < 0)) 1), A.atan2 (fin t b) (fin s a)) := by
    simp only [raw, erad, ecos, hu]
  rw [fromRect_ok, List.map_singleton, eraw]
  · intro q hq
    rw [List.mem_singleton] at hq
    rw [hq, eraw]
    obtain ⟨θ, h1, -⟩ := hA.acos_close (decide ((fin u r).num < 0)) 1 isDouble_one le_rfl
    rw [h1]; rfl
  · intro q hq
    rw [List.mem_singleton] at hq
    rw [hq, eraw]
    exact isNan_false (hA.atan2_num _ _ _ _)

/-- **C109**: hence in this cone around the positive z axis the polar angle is zero and, where numpy's sine of zero is zero,
the PFSS field of a set with an order whose derivative scipy gives as infinite there is nan (C106), though the points are
not on the axis. -/
theorem C109_cone_nan {A : AngleLib} (hA : GoodAngles A) (p : PyFloat × PyFloat × PyFloat) (hp : FinPoint p)
    (hz : (2 : ℚ) ^ (-500 : ℤ) ≤ p.2.2.num) (hz' : p.2.2.num ≤ 2 ^ (510 : ℤ)) (hx : |p.1.num| ≤ p.2.2.num / 2 ^ 28)
    (hy : |p.2.1.num| ≤ p.2.2.num / 2 ^ 28) (sin : PyFloat → PyFloat) (h0 : sin (fin false 0) = fin false 0)
    (rows : List FloatAxis.PPoint) (hrows : ∃ r ∈ rows, ∃ s, r.d = inf s) :
    ∃ r θ φ, fromRect A [p] = .ok [(r, θ, φ)] ∧ θ = fin false 0 ∧ ∀ cosθ sinφ cosφ,
      FloatAxis.cartesian (sin θ) cosθ sinφ cosφ (FloatAxis.loop r (sin θ) rows) = (nan, nan, nan) := by
  have z0 : 0 < p.2.2.num := lt_of_lt_of_le (by positivity) hz
  have ea : |p.2.2.num| = p.2.2.num := abs_of_pos z0
  have h := C109_near_axis hA p hp (by rw [ea]; exact hz) (by rw [ea]; exact hz') (by rw [ea]; exact hx) (by rw [ea]; exact hy)
  rw [decide_eq_false (not_lt.2 z0.le), hA.acos_one] at h
  refine ⟨_, _, _, h, rfl, fun cosθ sinφ cosφ => ?_⟩
  rw [h0]
  exact (C106_pfss_nan _ cosθ sinφ cosφ (fin false 1) false rows hrows).2.2 _ (.inl rfl)

/-- **C109**: a coordinate of 2^512 or more overflows: the radius is infinite and the polar angle is that of the equator,
wherever the point is. -/
theorem C109_overflow {A : AngleLib} (hA : GoodAngles A) (p : PyFloat × PyFloat × PyFloat) (hp : FinPoint p)
    (h : (2 : ℚ) ^ (512 : ℤ) ≤ |p.1.num| ∨ (2 : ℚ) ^ (512 : ℤ) ≤ |p.2.1.num| ∨ (2 : ℚ) ^ (512 : ℤ) ≤ |p.2.2.num|) :
    ∃ θ : ℚ, fromRect A [p] = .ok [(inf false, fin false θ, A.atan2 p.2.1 p.1)] ∧ |(θ : ℝ) - Real.pi / 2| ≤ 1 / 2 ^ 50 := by
  obtain ⟨x, y, z⟩ := p
  obtain ⟨⟨s, a, e1, da⟩, ⟨t, b, e2, db⟩, ⟨u, c, e3, dc⟩⟩ := hp
  dsimp only at *
  subst e1 e2 e3
  rw [abs_num _ da.nonneg, abs_num _ db.nonneg, abs_num _ dc.nonneg] at h
  have big : ∀ (s : Bool) {w : ℚ}, (2 : ℚ) ^ (512 : ℤ) ≤ w → PyFloat.mul (fin s w) (fin s w) = inf false := by
    intro s w hw
    simp only [PyFloat.mul, bne_self_eq_false]
    refine ofMag_big ?_
    have e : (2 : ℚ) ^ (1024 : ℤ) = 2 ^ (512 : ℤ) * 2 ^ (512 : ℤ) := by rw [← zpow_add₀ (by norm_num)]; norm_num
    rw [e]
    exact mul_self_le_mul_self (by positivity) hw
  have pos : ∀ (s : Bool) {w : ℚ}, IsDouble w → PyFloat.mul (fin s w) (fin s w) = inf false ∨
      ∃ q, 0 ≤ q ∧ PyFloat.mul (fin s w) (fin s w) = fin false q := by
    intro s w hw
    simp only [PyFloat.mul, bne_self_eq_false, ofMag]
    split
    · exact .inl rfl
    · exact .inr ⟨_, fl0_nonneg (mul_self_nonneg w), rfl⟩
  have addpos : ∀ {v w : PyFloat}, (v = inf false ∨ ∃ q, 0 ≤ q ∧ v = fin false q) → (w = inf false ∨ ∃ q, 0 ≤ q ∧ w = fin false q) →
      (PyFloat.add v w = inf false ∨ ∃ q, 0 ≤ q ∧ PyFloat.add v w = fin false q) ∧
        (v = inf false ∨ w = inf false → PyFloat.add v w = inf false) := by
    rintro v w (rfl | ⟨q, hq, rfl⟩) (rfl | ⟨q', hq', rfl⟩)
    · exact ⟨.inl rfl, fun _ => rfl⟩
    · exact ⟨.inl rfl, fun _ => rfl⟩
    · exact ⟨.inl rfl, fun _ => rfl⟩
    · refine ⟨?_, fun h => by simp at h⟩
      simp only [PyFloat.add, PyFloat.num, Bool.false_eq_true, if_false, Bool.and_false]
      split
      · exact .inr ⟨0, le_rfl, rfl⟩
      · rw [decide_eq_false (by linarith)]
        simp only [ofMag]
        split
        · exact .inl rfl
        · exact .inr ⟨_, fl0_nonneg (abs_nonneg _), rfl⟩
  have h1 := addpos (pos s da) (pos t db)
  have h2 := addpos h1.1 (pos u dc)
  have hsum : PyFloat.add (PyFloat.add (PyFloat.mul (fin s a) (fin s a)) (PyFloat.mul (fin t b) (fin t b)))
      (PyFloat.mul (fin u c) (fin u c)) = inf false := by
    rcases h with h | h | h
    · exact h2.2 (.inl (h1.2 (.inl (big s h))))
    · exact h2.2 (.inl (h1.2 (.inr (big t h))))
    · exact h2.2 (.inr (big u h))
  have erad : radius A (fin s a) (fin t b) (fin u c) = inf false := by rw [radius, hsum, hA.root_inf]
  obtain ⟨θ, eθ, -, hθ⟩ := hA.acos_close u 0 isDouble_zero (by norm_num)
  have eraw : raw A (fin s a, fin t b, fin u c) = (inf false, fin false θ, A.atan2 (fin t b) (fin s a)) := by
    simp only [raw, erad, cosine, neZero, if_true, PyFloat.div, Bool.bne_false, eθ]
  refine ⟨θ, ?_, ?_⟩
  · rw [fromRect_ok, List.map_singleton, eraw]
    · intro q hq
      rw [List.mem_singleton] at hq
      rw [hq, eraw]; rfl
    · intro q hq
      rw [List.mem_singleton] at hq
      rw [hq, eraw]
      exact isNan_false (hA.atan2_num _ _ _ _)
  · have : ((fin u 0).num : ℝ) = 0 := by cases u <;> simp [PyFloat.num]
    rw [this, Real.arccos_zero] at hθ
    exact hθ

theorem FloatCoords.root_zero {A : AngleLib} (hA : GoodAngles A) : A.root (fin false 0) = fin false 0 := by
  obtain ⟨r, e, -, hn⟩ := hA.root_nearest 0 isDouble_zero
  have := hn 0 isDouble_zero
  simp only [Rat.cast_zero, Real.sqrt_zero, sub_zero, abs_zero] at this
  have h0 : (r : ℝ) = 0 := abs_eq_zero.1 (le_antisymm this (abs_nonneg _))
  have h1 : r = 0 := by exact_mod_cast h0
  rw [e, h1]

/-- **C109**: within 2^-538 of the origin the radius is zero and the polar angle is that of the equator, wherever the point
is. -/
theorem C109_underflow {A : AngleLib} (hA : GoodAngles A) (p : PyFloat × PyFloat × PyFloat) (hp : FinPoint p)
    (h : |p.1.num| ≤ 2 ^ (-538 : ℤ) ∧ |p.2.1.num| ≤ 2 ^ (-538 : ℤ) ∧ |p.2.2.num| ≤ 2 ^ (-538 : ℤ)) :
    ∃ θ : ℚ, fromRect A [p] = .ok [(fin false 0, fin false θ, A.atan2 p.2.1 p.1)] ∧ |(θ : ℝ) - Real.pi / 2| ≤ 1 / 2 ^ 50 := by
  obtain ⟨x, y, z⟩ := p
  obtain ⟨⟨s, a, e1, da⟩, ⟨t, b, e2, db⟩, ⟨u, c, e3, dc⟩⟩ := hp
  dsimp only at *
  subst e1 e2 e3
  rw [abs_num _ da.nonneg, abs_num _ db.nonneg, abs_num _ dc.nonneg] at h
  have up : ∀ {w : ℚ}, w ≤ 2 ^ (-538 : ℤ) → w ≤ 2 ^ (510 : ℤ) := fun h => h.trans (zpow_le (by norm_num))
  obtain ⟨hs, -⟩ := sum_fin da.nonneg db.nonneg dc.nonneg (up h.1) (up h.2.1) (up h.2.2) s t u
  have e0 : sumSq a b c = 0 := by
    simp only [sumSq, sq_tiny da.nonneg h.1, sq_tiny db.nonneg h.2.1, sq_tiny dc.nonneg h.2.2, add_zero, fl0_zero]
  rw [e0] at hs
  have erad : radius A (fin s a) (fin t b) (fin u c) = fin false 0 := by rw [radius, hs, root_zero hA]
  obtain ⟨θ, eθ, -, hθ⟩ := hA.acos_close false 0 isDouble_zero (by norm_num)
  have eraw : raw A (fin s a, fin t b, fin u c) = (fin false 0, fin false θ, A.atan2 (fin t b) (fin s a)) := by
    simp [raw, erad, cosine, neZero, eθ]
  refine ⟨θ, ?_, ?_⟩
  · rw [fromRect_ok, List.map_singleton, eraw]
    · intro q hq
      rw [List.mem_singleton] at hq
      rw [hq, eraw]; rfl
    · intro q hq
      rw [List.mem_singleton] at hq
      rw [hq, eraw]
      exact isNan_false (hA.atan2_num _ _ _ _)
  · have : ((fin false 0).num : ℝ) = 0 := by simp [PyFloat.num]
    rw [this, Real.arccos_zero] at hθ
    exact hθ

/-- **C109**: between the two, one point on or near the axis with 2^-537 < |z| ≤ 1.2 2^-537 makes the whole call fail: the
square is rounded down, the cosine is more than one, and its arc cosine nan. -/
theorem C109_raises {A : AngleLib} (hA : GoodAngles A) (ps : List (PyFloat × PyFloat × PyFloat)) (p : PyFloat × PyFloat × PyFloat)
    (hps : p ∈ ps) (hp : FinPoint p) (hx : |p.1.num| ≤ 2 ^ (-538 : ℤ)) (hy : |p.2.1.num| ≤ 2 ^ (-538 : ℤ))
    (hz : (2 : ℚ) ^ (-537 : ℤ) < |p.2.2.num|) (hz' : |p.2.2.num| ≤ 6 / 5 * 2 ^ (-537 : ℤ)) :
    fromRect A ps = .error .assertion := by
  suffices hnan : (raw A p).2.1 = nan by
    have hno : ¬ ∀ p ∈ ps, isNan (raw A p).2.1 = false := by
      intro h
      have := h p hps
      rw [hnan] at this
      simp [isNan] at this
    simp only [fromRect, resAssert, if_neg hno]
    rfl
  obtain ⟨x, y, z⟩ := p
  obtain ⟨⟨s, a, e1, da⟩, ⟨t, b, e2, db⟩, ⟨u, c, e3, dc⟩⟩ := hp
  dsimp only at e1 e2 e3 hx hy hz hz'
  subst e1 e2 e3
  rw [abs_num _ da.nonneg] at hx
  rw [abs_num _ db.nonneg] at hy
  rw [abs_num _ dc.nonneg] at hz hz'
  have hp : (0 : ℚ) < 2 ^ (-537 : ℤ) := by positivity
  have hc2 : c ≤ 2 ^ (-536 : ℤ) := by
    rw [show (-536 : ℤ) = -537 + 1 by norm_num, zpow_add₀ (by norm_num), zpow_one]
    generalize (2 : ℚ) ^ (-537 : ℤ) = w at *
    linarith
  obtain ⟨hs, dS⟩ := sum_fin da.nonneg db.nonneg dc.nonneg (hx.trans (zpow_le (by norm_num))) (hy.trans (zpow_le (by norm_num)))
    (hc2.trans (zpow_le (by norm_num))) s t u
  have hτ : IsDouble ((2 : ℚ) ^ (-1074 : ℤ)) := isDouble_zpow (by norm_num) (by norm_num)
  have e0 : sumSq a b c = 2 ^ (-1074 : ℤ) := by
    rw [sumSq, sq_tiny da.nonneg hx, sq_tiny db.nonneg hy, add_zero, fl0_zero, zero_add, sq_unit hz hz', fl0_of_isDouble hτ]
  rw [e0] at hs
  obtain ⟨r, er, -, hn⟩ := hA.root_nearest _ hτ
  have hr : r = 2 ^ (-537 : ℤ) := by
    have h1 := hn _ (isDouble_zpow (k := -537) (by norm_num) (by norm_num))
    have h2 : √(((2 : ℚ) ^ (-1074 : ℤ) : ℚ) : ℝ) = ((2 ^ (-537 : ℤ) : ℚ) : ℝ) := by
      rw [show (2 : ℚ) ^ (-1074 : ℤ) = 2 ^ (-537 : ℤ) * 2 ^ (-537 : ℤ) by rw [← zpow_add₀ (by norm_num)]; norm_num]
      rw [Rat.cast_mul, Real.sqrt_mul_self]
      exact Rat.cast_nonneg.2 hp.le
    rw [h2, sub_self, abs_zero] at h1
    have h3 := sub_eq_zero.1 (abs_eq_zero.1 (le_antisymm h1 (abs_nonneg _)))
    exact Rat.cast_injective h3
  rw [hr] at er
  have hd : IsDouble (c / 2 ^ (-537 : ℤ)) := by
    obtain ⟨n, e, hn', he, he', rfl⟩ := dc
    have hn0 : (1 : ℚ) ≤ n := by
      rcases Nat.eq_zero_or_pos n with rfl | h
      · rw [Nat.cast_zero, zero_mul] at hz
        exact absurd hz (not_lt.2 hp.le)
      · exact_mod_cast h
    have he2 : e ≤ -536 := by
      have h1 : (2 : ℚ) ^ e ≤ 2 ^ (-536 : ℤ) := le_trans (le_mul_of_one_le_left (by positivity) hn0) hc2
      exact (zpow_le_zpow_iff_right₀ (by norm_num : (1 : ℚ) < 2)).1 h1
    refine ⟨n, e + 537, hn', by omega, by omega, ?_⟩
    rw [mul_div_assoc, ← zpow_sub₀ (by norm_num)]
    norm_num
  have h1 : 1 < c / 2 ^ (-537 : ℤ) := (one_lt_div hp).2 hz
  have erad : radius A (fin s a) (fin t b) (fin u c) = fin false (2 ^ (-537 : ℤ)) := by rw [radius, hs, er]
  have ecos : cosine (fin u c) (fin false (2 ^ (-537 : ℤ))) = fin u (c / 2 ^ (-537 : ℤ)) := by
    simp only [cosine, neZero, ne_eq, hp.ne', not_false_eq_true, decide_true, if_true, PyFloat.div, if_false, Bool.bne_false]
    rw [ofMag_of_le hd.nonneg hd.le_max, fl0_of_isDouble hd]
  simp only [raw, erad, ecos, hA.acos_nan _ _ h1]

/-! ### The assumptions can be met -/

theorem FloatCoords.finite_doubles : {d : ℚ | IsDouble d}.Finite := by
  refine Set.Finite.subset (((Set.finite_Iio (2 ^ 53 : ℕ)).prod (Set.finite_Icc (-1074 : ℤ) 971)).image
    fun q : ℕ × ℤ => (q.1 : ℚ) * 2 ^ q.2) ?_
  rintro d ⟨n, e, h1, h2, h3, rfl⟩
  exact ⟨(n, e), ⟨h1, h2, h3⟩, rfl⟩

theorem FloatCoords.exists_nearest (x : ℝ) : ∃ r, IsDouble r ∧ ∀ d, IsDouble d → |(r : ℝ) - x| ≤ |(d : ℝ) - x| := by
  obtain ⟨r, h1, h2⟩ := Set.exists_min_image _ (fun d : ℚ => |(d : ℝ) - x|) finite_doubles ⟨0, isDouble_zero⟩
  exact ⟨r, h1, h2⟩

/-- The double nearest to a nonnegative real number. -/
noncomputable def FloatCoords.nearestReal (x : ℝ) : ℚ := (exists_nearest x).choose

/-- The double nearest to a real number. -/
noncomputable def FloatCoords.roundReal (x : ℝ) : PyFloat :=
  if x < 0 then fin true (nearestReal (-x)) else fin false (nearestReal x)

/-- Correctly rounded functions. -/
noncomputable def FloatCoords.exAngles : AngleLib where
  root
    | fin _ q => fin false (nearestReal √q)
    | inf s => inf s
    | nan => nan
  acos
    | fin s q => if 1 < q then nan else fin false (nearestReal (Real.arccos (fin s q).num))
    | _ => nan
  atan2 y x := roundReal (Complex.arg ⟨x.num, y.num⟩)

theorem FloatCoords.exAngles_good : GoodAngles exAngles where
  root_nearest q _ := ⟨_, rfl, (exists_nearest √q).choose_spec⟩
  root_inf := rfl
  acos_close s q _ h := by
    refine ⟨_, if_neg (not_lt.2 h), (exists_nearest _).choose_spec.1, ?_⟩
    have h0 := Real.arccos_nonneg ((fin s q).num : ℚ)
    have h1 := Real.arccos_le_pi ((fin s q).num : ℚ)
    have h3 := Real.pi_lt_d2
    obtain ⟨d, hd, hn⟩ := near_real h0 (by
      refine h1.trans (le_trans (by linarith : Real.pi ≤ (2 : ℝ) ^ (2 : ℤ)) ?_)
      exact zpow_le_zpow_right₀ (by norm_num) (by norm_num))
    refine ((exists_nearest _).choose_spec.2 d hd).trans (hn.trans ?_)
    have h4 : (2 : ℝ) ^ (-1072 : ℤ) ≤ 1 / 2 ^ 60 := by
      calc (2 : ℝ) ^ (-1072 : ℤ) ≤ 2 ^ (-60 : ℤ) := zpow_le_zpow_right₀ (by norm_num) (by norm_num)
        _ = _ := by norm_num
    generalize (2 : ℝ) ^ (-1072 : ℤ) = t at *
    linarith
  acos_one := by
    have h : nearestReal (Real.arccos ((fin false 1).num : ℚ)) = 0 := by
      have h1 := (exists_nearest (Real.arccos ((fin false 1).num : ℚ))).choose_spec.2 0 isDouble_zero
      have e : Real.arccos ((fin false 1).num : ℚ) = 0 := by simp [PyFloat.num]
      change |((nearestReal _ : ℚ) : ℝ) - _| ≤ _ at h1
      rw [e] at h1 ⊢
      simp only [Rat.cast_zero, sub_zero, abs_zero] at h1
      have h2 := abs_eq_zero.1 (le_antisymm h1 (abs_nonneg _))
      exact_mod_cast h2
    change (if (1 : ℚ) < 1 then nan else fin false (nearestReal _)) = _
    rw [if_neg (lt_irrefl _), h]
  acos_nan s q h := if_pos h
  atan2_num _ _ _ _ := by
    simp only [exAngles, roundReal]
    split <;> simp

private theorem isDouble_nat' (n : ℕ) (h : n < 2 ^ 53) : IsDouble n := ⟨n, 0, h, by norm_num, by norm_num, by simp⟩

/-- The point (3, -4, 12). -/
example : ∃ out, fromRect exAngles [(fin false 3, fin true 4, fin false 12)] = .ok out ∧
    List.Forall₂ Located [(fin false 3, fin true 4, fin false 12)] out := by
  refine C109_total exAngles_good _ fun p hp => ?_
  rw [List.mem_singleton] at hp
  subst hp
  have k : (16 : ℚ) ≤ 2 ^ (510 : ℤ) := by
    calc (16 : ℚ) = 2 ^ (4 : ℤ) := by norm_num
      _ ≤ _ := zpow_le (by norm_num)
  have k' : (2 : ℚ) ^ (-511 : ℤ) ≤ 1 := by
    calc (2 : ℚ) ^ (-511 : ℤ) ≤ 2 ^ (0 : ℤ) := zpow_le (by norm_num)
      _ = 1 := by norm_num
  refine ⟨⟨⟨_, _, rfl, ?_⟩, ⟨_, _, rfl, ?_⟩, ⟨_, _, rfl, ?_⟩⟩, ?_, ?_⟩
  · exact_mod_cast isDouble_nat' 3 (by norm_num)
  · exact_mod_cast isDouble_nat' 4 (by norm_num)
  · exact_mod_cast isDouble_nat' 12 (by norm_num)
  · simp only [abs_num _ (show (0 : ℚ) ≤ 3 by norm_num), abs_num _ (show (0 : ℚ) ≤ 4 by norm_num),
      abs_num _ (show (0 : ℚ) ≤ 12 by norm_num)]
    exact ⟨le_trans (by norm_num) k, le_trans (by norm_num) k, le_trans (by norm_num) k⟩
  · left
    dsimp only
    rw [abs_num _ (show (0 : ℚ) ≤ 3 by norm_num)]
    exact k'.trans (by norm_num)

/-- A point off the axis by 2^-28 at height 2, where a field with order 1 comes out as nan. -/
example : ∃ r θ φ, fromRect exAngles [(fin false (2 ^ (-28 : ℤ)), fin false 0, fin false 2)] = .ok [(r, θ, φ)] ∧
    θ = fin false 0 ∧ ∀ cosθ sinφ cosφ,
      FloatAxis.cartesian (id θ) cosθ sinφ cosφ (FloatAxis.loop r (id θ)
        [⟨1, fin false (1 / 4), fin true 1, fin true 0, inf false, fin true 1, fin false 3, fin false 0⟩]) = (nan, nan, nan) := by
  refine C109_cone_nan exAngles_good _ ⟨⟨_, _, rfl, isDouble_zpow (by norm_num) (by norm_num)⟩, finD_zero _,
    ⟨_, _, rfl, isDouble_two⟩⟩ ?_ ?_ ?_ ?_ id rfl _ ⟨_, List.mem_singleton_self _, false, rfl⟩
  · calc (2 : ℚ) ^ (-500 : ℤ) ≤ 2 ^ (1 : ℤ) := zpow_le (by norm_num)
      _ = _ := by norm_num [PyFloat.num]
  · calc (fin false 2).num = (2 : ℚ) ^ (1 : ℤ) := by norm_num [PyFloat.num]
      _ ≤ _ := zpow_le (by norm_num)
  · norm_num [PyFloat.num]
  · norm_num [PyFloat.num]

/-- 2^512 up the z axis. -/
example : ∃ θ : ℚ, fromRect exAngles [(fin false 0, fin false 0, fin false (2 ^ (512 : ℤ)))] =
    .ok [(inf false, fin false θ, exAngles.atan2 (fin false 0) (fin false 0))] ∧ |(θ : ℝ) - Real.pi / 2| ≤ 1 / 2 ^ 50 :=
  C109_overflow exAngles_good _ ⟨finD_zero _, finD_zero _, ⟨_, _, rfl, isDouble_zpow (by norm_num) (by norm_num)⟩⟩
    (.inr (.inr (by rw [abs_num _ (by positivity)])))

/-- 2^-538 up the z axis. -/
example : ∃ θ : ℚ, fromRect exAngles [(fin false 0, fin false 0, fin false (2 ^ (-538 : ℤ)))] =
    .ok [(fin false 0, fin false θ, exAngles.atan2 (fin false 0) (fin false 0))] ∧ |(θ : ℝ) - Real.pi / 2| ≤ 1 / 2 ^ 50 :=
  C109_underflow exAngles_good _ ⟨finD_zero _, finD_zero _, ⟨_, _, rfl, isDouble_zpow (by norm_num) (by norm_num)⟩⟩
    (by
      simp only [abs_num _ (show (0 : ℚ) ≤ 2 ^ (-538 : ℤ) by positivity), abs_num _ (le_refl (0 : ℚ))]
      exact ⟨by positivity, by positivity, le_rfl⟩)

/-- 1.125 2^-537 up the z axis, beside a harmless point. -/
example : fromRect exAngles [(fin false 3, fin true 4, fin false 12), (fin false 0, fin false 0, fin false (9 * 2 ^ (-540 : ℤ)))] =
    .error .assertion := by
  have e : (2 : ℚ) ^ (-537 : ℤ) = 8 * 2 ^ (-540 : ℤ) := by
    rw [show (-537 : ℤ) = 3 + -540 by norm_num, zpow_add₀ (by norm_num)]; norm_num
  have hp : (0 : ℚ) < 2 ^ (-540 : ℤ) := by positivity
  refine C109_raises exAngles_good _ _ (List.mem_cons_of_mem _ (List.mem_singleton_self _)) ⟨finD_zero _, finD_zero _,
    ⟨_, _, rfl, ⟨9, -540, by norm_num, by norm_num, by norm_num, by norm_num⟩⟩⟩ ?_ ?_ ?_ ?_
  · simp only [abs_num _ (le_refl (0 : ℚ))]; positivity
  · simp only [abs_num _ (le_refl (0 : ℚ))]; positivity
  · rw [abs_num _ (by positivity), e]
    exact mul_lt_mul_of_pos_right (by norm_num) hp
  · rw [abs_num _ (by positivity), e]
    generalize (2 : ℚ) ^ (-540 : ℤ) = w at *
    linarith

end Verif
