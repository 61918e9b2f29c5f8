import Verif.Model.FloatRange
import Verif.Lemmas.Float
import Mathlib.Analysis.Real.Pi.Bounds
import Mathlib.Data.Nat.Factorial.Basic
import Mathlib.Tactic.NormNum.NatFactorial

/-!
# Lemmas on ranges and relative errors of floats
-/

set_option exponentiation.threshold 4000

namespace Verif
namespace FloatRange
open PyFloat

/-- Rounding error of a normal number. -/
theorem fl0_rel {q : ℚ} (h : (2 : ℚ) ^ (-1022 : ℤ) ≤ q) : |fl0 q - q| ≤ q / 2 ^ 53 := by
  have hq : 0 < q := lt_of_lt_of_le (by positivity) h
  have hl : -1022 ≤ Int.log 2 q := by
    by_contra hc
    have h1 := lt_log (b := 2) (by norm_num) q
    have h2 : (2 : ℚ) ^ (Int.log 2 q + 1) ≤ 2 ^ (-1022 : ℤ) := zpow_le_zpow_right₀ (by norm_num) (by omega)
    push_cast at h1
    linarith
  have he : flExp q = Int.log 2 q - 52 := max_eq_left (by omega)
  have h1 := grid_abs_le (b := 2) (by norm_num) q (flExp q)
  have h2 := log_le (b := 2) (by norm_num) hq
  push_cast at h1 h2
  have h3 : (2 : ℚ) ^ flExp q / 2 = 2 ^ Int.log 2 q / 2 ^ 53 := by
    rw [he, zpow_sub₀ (by norm_num)]; norm_num; ring
  rw [h3] at h1
  refine h1.trans ?_
  gcongr

/-- Overflow. -/
theorem ofMag_big {s : Bool} {q : ℚ} (h : (2 : ℚ) ^ (1024 : ℤ) ≤ q) : ofMag s q = inf s := by
  have hq : 0 < q := lt_of_lt_of_le (by positivity) h
  have hl : 1024 ≤ Int.log 2 q := by
    by_contra hc
    have h1 := lt_log (b := 2) (by norm_num) q
    have h2 : (2 : ℚ) ^ (Int.log 2 q + 1) ≤ 2 ^ (1024 : ℤ) := zpow_le_zpow_right₀ (by norm_num) (by omega)
    push_cast at h1
    linarith
  have he : flExp q = Int.log 2 q - 52 := max_eq_left (by omega)
  have h2 := log_le (b := 2) (by norm_num) hq
  push_cast at h2
  have h3 : ((2 ^ 52 : ℤ) : ℚ) ≤ q / 2 ^ flExp q := by
    rw [le_div_iff₀ (by positivity), he]
    calc ((2 ^ 52 : ℤ) : ℚ) * 2 ^ (Int.log 2 q - 52) = 2 ^ Int.log 2 q := by
          rw [zpow_sub₀ (by norm_num)]; norm_num; ring
      _ ≤ q := h2
  have h4 := rhe_mono h3
  rw [rhe_intCast] at h4
  unfold ofMag
  rw [if_pos]
  unfold fl0
  have h5 : ((2 ^ 52 : ℤ) : ℚ) ≤ (rhe (q / 2 ^ flExp q) : ℚ) := by exact_mod_cast h4
  calc (2 : ℚ) ^ (1024 : ℤ) ≤ 2 ^ Int.log 2 q := zpow_le_zpow_right₀ (by norm_num) hl
    _ = ((2 ^ 52 : ℤ) : ℚ) * 2 ^ flExp q := by rw [he, zpow_sub₀ (by norm_num)]; norm_num; ring
    _ ≤ _ := by gcongr

/-- A positive float within relative distance `ε` of a real number. -/
def Near (x : PyFloat) (q ε : ℝ) : Prop := ∃ r : ℚ, x = fin false r ∧ IsDouble r ∧ ∃ a : ℝ, |a| ≤ ε ∧ (r : ℝ) = q * (1 + a)

theorem comb {a b ε δ : ℝ} (ha : |a| ≤ ε) (hb : |b| ≤ δ) (hε : ε ≤ 1 / 100) :
    ∃ c : ℝ, |c| ≤ ε + 1.01 * δ ∧ (1 + a) * (1 + b) = 1 + c := by
  refine ⟨a + b + a * b, ?_, by ring⟩
  have h0 := abs_nonneg a
  have h1 := abs_nonneg b
  have h2 : |a * b| ≤ 1 / 100 * δ := by rw [abs_mul]; exact mul_le_mul (ha.trans hε) hb h1 (by norm_num)
  have h3 := abs_add_le (a + b) (a * b)
  have h4 := abs_add_le a b
  linarith

theorem inv_near {b δ : ℝ} (hb : |b| ≤ δ) (hδ : δ ≤ 1 / 100) :
    ∃ c : ℝ, |c| ≤ 1.02 * δ ∧ 1 / (1 + b) = 1 + c := by
  have hb1 := abs_le.1 hb
  have hp : 0 < 1 + b := by linarith
  refine ⟨-b / (1 + b), ?_, by field_simp; ring⟩
  rw [abs_div, abs_neg, abs_of_pos hp, div_le_iff₀ hp]
  have := abs_nonneg b
  nlinarith

/-- Rounding a number in the normal range. -/
theorem near_ofMag {q : ℚ} {p ε : ℝ} {a : ℝ} (hq : (q : ℝ) = p * (1 + a)) (ha : |a| ≤ ε) (hε : ε ≤ 1 / 100)
    (h1 : (2 : ℝ) ^ (-1021 : ℤ) ≤ p) (h2 : p ≤ 2 ^ (1023 : ℤ)) :
    Near (ofMag false q) p (ε + 1 / 10 ^ 15) := by
  have ha1 := abs_le.1 (ha.trans hε)
  have hp : 0 < p := lt_of_lt_of_le (by positivity) h1
  have hlo : (2 : ℚ) ^ (-1022 : ℤ) ≤ q := by
    have : ((2 : ℝ) ^ (-1022 : ℤ)) ≤ (q : ℝ) := by
      have e : (2 : ℝ) ^ (-1021 : ℤ) = 2 * 2 ^ (-1022 : ℤ) := by
        rw [show (-1021 : ℤ) = 1 + -1022 by norm_num, zpow_add₀ (by norm_num)]; norm_num
      rw [e] at h1
      rw [hq]
      nlinarith
    have e : (((2 : ℚ) ^ (-1022 : ℤ) : ℚ) : ℝ) ≤ (q : ℝ) := by push_cast; exact this
    exact Rat.cast_le.1 e
  have hhi : q ≤ maxDouble := by
    have : (q : ℝ) ≤ (maxDouble : ℝ) := by
      have e : ((maxDouble : ℚ) : ℝ) = (2 ^ 53 - 1) / 2 ^ 52 * 2 ^ (1023 : ℤ) := by
        unfold maxDouble
        push_cast
        rw [show (1023 : ℤ) = 52 + 971 by norm_num, zpow_add₀ (by norm_num)]
        have : (0 : ℝ) < 2 ^ (971 : ℤ) := by positivity
        norm_num
      rw [e, hq]
      have hz : (0 : ℝ) < 2 ^ (1023 : ℤ) := by positivity
      calc p * (1 + a) ≤ 2 ^ (1023 : ℤ) * (1 + 1 / 100) := by exact mul_le_mul h2 (by linarith) (by linarith) hz.le
        _ ≤ _ := by rw [mul_comm]; gcongr; norm_num
    exact_mod_cast this
  have hq0 : 0 < q := lt_of_lt_of_le (by positivity) hlo
  refine ⟨fl0 q, ofMag_of_le hq0.le hhi,
    fl0_isDouble q hq0.le (lt_of_le_of_lt (fl0_le_max hq0 hhi) maxDouble_lt), ?_⟩
  have h3 := fl0_rel hlo
  have h3' : |((fl0 q : ℚ) : ℝ) - q| ≤ (q : ℝ) / 2 ^ 53 := by exact_mod_cast h3
  have hq0' : (0 : ℝ) < q := by exact_mod_cast hq0
  obtain ⟨c, hc, e⟩ := comb (a := a) (b := ((fl0 q : ℚ) : ℝ) / q - 1) (δ := 1 / 2 ^ 53) ha (by
    rw [div_sub_one hq0'.ne', abs_div, abs_of_pos hq0', div_le_iff₀ hq0']
    linarith) hε
  refine ⟨c, hc.trans ?_, ?_⟩
  · have : (1.01 : ℝ) * (1 / 2 ^ 53) ≤ 1 / 10 ^ 15 := by norm_num
    linarith
  · rw [← e, ← mul_assoc, ← hq]
    field_simp
    ring

theorem Near.mul {x y : PyFloat} {p q ε δ : ℝ} (hx : Near x p ε) (hy : Near y q δ) (hε : ε ≤ 1 / 1000)
    (hδ : δ ≤ 1 / 1000) (h1 : (2 : ℝ) ^ (-1021 : ℤ) ≤ p * q) (h2 : p * q ≤ 2 ^ (1023 : ℤ)) :
    Near (PyFloat.mul x y) (p * q) (ε + 1.01 * δ + 1 / 10 ^ 15) := by
  obtain ⟨r, rfl, -, a, ha, hr⟩ := hx
  obtain ⟨s, rfl, -, b, hb, hs⟩ := hy
  obtain ⟨c, hc, e⟩ := comb ha hb (by linarith)
  refine near_ofMag (a := c) ?_ hc (by linarith) h1 h2
  push_cast
  rw [hr, hs, ← e]; ring

theorem Near.div {x y : PyFloat} {p q ε δ : ℝ} (hx : Near x p ε) (hy : Near y q δ) (hq : 0 < q) (hε : ε ≤ 1 / 1000)
    (hδ : δ ≤ 1 / 1000) (h1 : (2 : ℝ) ^ (-1021 : ℤ) ≤ p / q) (h2 : p / q ≤ 2 ^ (1023 : ℤ)) :
    Near (PyFloat.div x y) (p / q) (ε + 1.04 * δ + 1 / 10 ^ 15) := by
  obtain ⟨r, rfl, -, a, ha, hr⟩ := hx
  obtain ⟨s, rfl, -, b, hb, hs⟩ := hy
  have hb1 := abs_le.1 (hb.trans hδ)
  obtain ⟨b', hb', eb⟩ := inv_near hb (by linarith)
  obtain ⟨c, hc, e⟩ := comb ha hb' (by linarith)
  have hδ0 : 0 ≤ δ := (abs_nonneg b).trans hb
  have hs0 : s ≠ 0 := by
    rintro rfl
    have : 0 < q * (1 + b) := mul_pos hq (by linarith)
    rw [← hs] at this
    simp at this
  have ed : PyFloat.div (fin false r) (fin false s) = ofMag false (r / s) := by
    simp only [PyFloat.div, if_neg hs0, bne_self_eq_false]
  rw [ed]
  refine near_ofMag (a := c) ?_ (hc.trans (by linarith)) (by linarith) h1 h2
  push_cast
  rw [hr, hs, ← e, ← eb]
  have : 1 + b ≠ 0 := by linarith
  field_simp

theorem Near.mono {x : PyFloat} {p ε δ : ℝ} (h : Near x p ε) (hd : ε ≤ δ) : Near x p δ := by
  obtain ⟨r, e, hd', a, ha, hr⟩ := h
  exact ⟨r, e, hd', a, ha.trans hd, hr⟩

/-- `4 * np.pi` is close to `4π`. -/
theorem near_fourPi : Near fourPi (4 * Real.pi) (1 / 10 ^ 6) := by
  refine ⟨_, rfl, ⟨884279719003555, -46, by norm_num, by norm_num, by norm_num, by norm_num⟩,
    (884279719003555 / 2 ^ 46) / (4 * Real.pi) - 1, ?_, ?_⟩
  · have h1 := Real.pi_gt_d6
    have h2 := Real.pi_lt_d6
    have hp : 0 < 4 * Real.pi := by positivity
    rw [div_sub_one hp.ne', abs_div, abs_of_pos hp, div_le_iff₀ hp, abs_le]
    constructor <;> norm_num <;> linarith
  · have hp : 4 * Real.pi ≠ 0 := by positivity
    push_cast
    field_simp
    ring

/-- Degrees are represented to within rounding. -/
theorem near_ofInt {n : ℤ} (h1 : 1 ≤ n) (h2 : n ≤ 2 ^ 63) : Near (ofInt n) n (1 / 10 ^ 15) := by
  unfold ofInt
  rw [decide_eq_false (by omega)]
  have hn : (0 : ℚ) ≤ n := by exact_mod_cast (by omega : (0 : ℤ) ≤ n)
  rw [abs_of_nonneg hn]
  have h1' : (1 : ℝ) ≤ n := by exact_mod_cast h1
  have h2' : (n : ℝ) ≤ 2 ^ 63 := by exact_mod_cast h2
  have := near_ofMag (q := (n : ℚ)) (p := (n : ℝ)) (ε := 0) (a := 0) (by push_cast; ring) (by simp) (by norm_num)
    (le_trans (by rw [zpow_neg]; exact inv_le_one_of_one_le₀ (one_le_zpow₀ (by norm_num) (by norm_num))) h1')
    (h2'.trans (by
      rw [show (2 : ℝ) ^ 63 = 2 ^ (63 : ℤ) by norm_cast]
      exact zpow_le_zpow_right₀ (by norm_num) (by norm_num)))
  exact this.mono (by norm_num)

/-- The first factor of the normalisation. -/
theorem near_first {l : ℤ} (h0 : 0 ≤ l) (h : l ≤ 2 ^ 61) :
    Near (PyFloat.div (ofInt (2 * l + 1)) fourPi) ((2 * l + 1) / (4 * Real.pi)) (2 / 10 ^ 6) := by
  have h1 := Real.pi_gt_three
  have h2 := Real.pi_lt_four
  have hn := near_ofInt (n := 2 * l + 1) (by omega) (by omega)
  push_cast at hn
  have hl0 : (0 : ℝ) ≤ l := by exact_mod_cast h0
  have hl : (l : ℝ) ≤ 2 ^ 61 := by exact_mod_cast h
  refine (hn.div near_fourPi (by positivity) (by norm_num) (by norm_num) ?_ ?_).mono (by norm_num)
  · calc (2 : ℝ) ^ (-1021 : ℤ) ≤ 2 ^ (-4 : ℤ) := zpow_le_zpow_right₀ (by norm_num) (by norm_num)
      _ ≤ _ := by
        rw [le_div_iff₀ (by positivity)]
        norm_num
        linarith
  · calc (2 * (l : ℝ) + 1) / (4 * Real.pi) ≤ 2 ^ (63 : ℤ) := by
          rw [div_le_iff₀ (by positivity)]
          norm_num
          nlinarith
      _ ≤ _ := zpow_le_zpow_right₀ (by norm_num) (by norm_num)

/-- Magnitudes are doubles. -/
def Dbl : PyFloat → Prop
  | fin _ a => IsDouble a
  | _ => True

theorem isDouble_zero : IsDouble 0 := ⟨0, 0, by norm_num, by norm_num, by norm_num, by simp⟩

theorem isDouble_one : IsDouble 1 := ⟨1, 0, by norm_num, by norm_num, by norm_num, by simp⟩

theorem isDouble_two : IsDouble 2 := ⟨2, 0, by norm_num, by norm_num, by norm_num, by simp⟩

theorem dbl_ofMag (s : Bool) {q : ℚ} (h : 0 ≤ q) : Dbl (ofMag s q) := by
  unfold ofMag
  split_ifs with hc
  · trivial
  · exact fl0_isDouble q h (not_le.1 hc)

theorem ofMag_zero (s : Bool) : ofMag s 0 = fin s 0 := by
  rw [ofMag_of_le le_rfl maxDouble_isDouble.nonneg, fl0_zero]

theorem Dbl.mul {x y : PyFloat} (hx : Dbl x) (hy : Dbl y) : Dbl (PyFloat.mul x y) := by
  cases x <;> cases y <;> simp only [PyFloat.mul] <;> try trivial
  · exact dbl_ofMag _ (mul_nonneg (IsDouble.nonneg hx) (IsDouble.nonneg hy))
  all_goals split_ifs <;> trivial

theorem Dbl.neg {x : PyFloat} (hx : Dbl x) : Dbl (PyFloat.neg x) := by
  cases x <;> first | trivial | exact hx

theorem Dbl.add {x y : PyFloat} (hx : Dbl x) (hy : Dbl y) : Dbl (PyFloat.add x y) := by
  cases x <;> cases y <;> simp only [PyFloat.add] <;> try trivial
  · split_ifs
    · exact isDouble_zero
    · exact dbl_ofMag _ (abs_nonneg _)
  all_goals split_ifs <;> trivial

/-- Numbers that are multiples of the smallest double are not rounded to zero. -/
theorem fl0_ne_zero {q : ℚ} (h : (2 : ℚ) ^ (-1074 : ℤ) ≤ q) : fl0 q ≠ 0 := by
  have hp : (0 : ℚ) < 2 ^ (-1074 : ℤ) := by positivity
  have hd : IsDouble ((2 : ℚ) ^ (-1074 : ℤ)) := ⟨1, -1074, by norm_num, by norm_num, by norm_num, by simp⟩
  have := fl0_nearest (lt_of_lt_of_le hp h) hd
  intro e
  rw [e, zero_sub, abs_neg, abs_of_pos (lt_of_lt_of_le hp h), abs_of_nonpos (by linarith)] at this
  linarith

/-- A sum is negative zero only if its first term is. -/
theorem add_ne_negZero {x y : PyFloat} (hx : Dbl x) (hy : Dbl y) (h : x ≠ fin true 0) :
    PyFloat.add x y ≠ fin true 0 := by
  cases x with
  | nan => simp [PyFloat.add]
  | inf s => cases y <;> simp only [PyFloat.add] <;> (try split_ifs) <;> simp
  | fin s a =>
    cases y with
    | nan => simp [PyFloat.add]
    | inf t => simp [PyFloat.add]
    | fin t b =>
      simp only [PyFloat.add]
      have ha := IsDouble.nonneg hx
      have hb := IsDouble.nonneg hy
      obtain ⟨i, hi⟩ := IsDouble.multiple hx
      obtain ⟨j, hj⟩ := IsDouble.multiple hy
      split_ifs with h0
      · cases s
        · simp
        · cases t
          · simp
          · exfalso
            apply h
            simp only [num, if_true] at h0
            have : a = 0 := by linarith
            rw [this]
      · have hk : ∃ k : ℤ, (fin s a).num + (fin t b).num = k * 2 ^ (-1074 : ℤ) := by
          cases s <;> cases t <;> simp only [num, if_true, Bool.false_eq_true, if_false, hi, hj]
          · exact ⟨i + j, by push_cast; ring⟩
          · exact ⟨i - j, by push_cast; ring⟩
          · exact ⟨-i + j, by push_cast; ring⟩
          · exact ⟨-i - j, by push_cast; ring⟩
        obtain ⟨k, hk⟩ := hk
        have hk0 : k ≠ 0 := by
          rintro rfl
          apply h0
          rw [hk]; simp
        have h1 : (2 : ℚ) ^ (-1074 : ℤ) ≤ |(fin s a).num + (fin t b).num| := by
          rw [hk, abs_mul, abs_of_pos (by positivity : (0 : ℚ) < 2 ^ (-1074 : ℤ))]
          have : (1 : ℚ) ≤ |(k : ℚ)| := by exact_mod_cast Int.one_le_abs hk0
          have hp : (0 : ℚ) < 2 ^ (-1074 : ℤ) := by positivity
          nlinarith
        unfold ofMag
        split_ifs
        · simp
        · intro e
          injection e with _ e
          exact fl0_ne_zero h1 e

/-- Adding a zero changes nothing but negative zero. -/
theorem add_zero_eq {x : PyFloat} (t : Bool) (hx : Dbl x) (h : x ≠ fin true 0) :
    PyFloat.add x (fin t 0) = x := by
  cases x with
  | nan => rfl
  | inf s => rfl
  | fin s a =>
    have ha := IsDouble.nonneg hx
    simp only [PyFloat.add]
    have hz : (fin t 0).num = 0 := by cases t <;> simp [num]
    rw [hz, add_zero]
    split_ifs with h0
    · have : a = 0 := by cases s <;> simpa [num] using h0
      subst this
      cases s
      · simp
      · exact absurd rfl h
    · have h1 : |(fin s a).num| = a := by cases s <;> simp [num, abs_of_nonneg ha]
      have h2 : decide ((fin s a).num < 0) = s := by
        cases s
        · simp [num, ha]
        · have : a ≠ 0 := by rintro rfl; simp [num] at h0
          have : 0 < a := lt_of_le_of_ne ha (Ne.symm this)
          simp [num, this]
      rw [h1, h2, ofMag_of_le ha (IsDouble.le_max hx), fl0_of_isDouble hx]

/-- Zero times a finite number. -/
theorem mul_finzero {x : PyFloat} (h : isFin x = true) (t : Bool) :
    (∃ s, PyFloat.mul x (fin t 0) = fin s 0) ∧ ∃ s, PyFloat.mul (fin t 0) x = fin s 0 := by
  cases x with
  | fin s a => exact ⟨⟨s != t, by simp [PyFloat.mul, ofMag_zero]⟩, ⟨t != s, by simp [PyFloat.mul, ofMag_zero]⟩⟩
  | inf s => simp [isFin] at h
  | nan => simp [isFin] at h

theorem add_zeros (s t : Bool) : PyFloat.add (fin s 0) (fin t 0) = fin (s && t) 0 := by
  simp only [PyFloat.add]
  rw [if_pos (by cases s <;> cases t <;> simp [num])]

/-- Complex zeros of either sign. -/
def IsZero (z : PyFloat × PyFloat) : Prop := ∃ s t, z = (fin s 0, fin t 0)

theorem IsZero.mul_right {z w : PyFloat × PyFloat} (hz : IsZero z) (h1 : isFin w.1 = true) (h2 : isFin w.2 = true) :
    IsZero (cmul z w) := by
  obtain ⟨s, t, rfl⟩ := hz
  unfold cmul
  obtain ⟨a, ha⟩ := (mul_finzero h1 s).2
  obtain ⟨b, hb⟩ := (mul_finzero h2 t).2
  obtain ⟨c, hc⟩ := (mul_finzero h2 s).2
  obtain ⟨d, hd⟩ := (mul_finzero h1 t).2
  simp only [ha, hb, hc, hd, PyFloat.neg, add_zeros]
  exact ⟨_, _, rfl⟩

theorem IsZero.mul_left {z w : PyFloat × PyFloat} (hz : IsZero z) (h1 : isFin w.1 = true) (h2 : isFin w.2 = true) :
    IsZero (cmul w z) := by
  obtain ⟨s, t, rfl⟩ := hz
  unfold cmul
  obtain ⟨a, ha⟩ := (mul_finzero h1 s).1
  obtain ⟨b, hb⟩ := (mul_finzero h2 t).1
  obtain ⟨c, hc⟩ := (mul_finzero h1 t).1
  obtain ⟨d, hd⟩ := (mul_finzero h2 s).1
  simp only [ha, hb, hc, hd, PyFloat.neg, add_zeros]
  exact ⟨_, _, rfl⟩

@[simp] theorem mul_nan (x : PyFloat) : PyFloat.mul x nan = nan := by cases x <;> rfl
@[simp] theorem nan_mul (x : PyFloat) : PyFloat.mul nan x = nan := by cases x <;> rfl
@[simp] theorem add_nan (x : PyFloat) : PyFloat.add x nan = nan := by cases x <;> rfl
@[simp] theorem nan_add (x : PyFloat) : PyFloat.add nan x = nan := by cases x <;> rfl

theorem cmul_nan (z : PyFloat × PyFloat) : cmul z (nan, fin false 0) = (nan, nan) := by simp [cmul]
theorem nan_cmul (z : PyFloat × PyFloat) : cmul (nan, nan) z = (nan, nan) := by simp [cmul]

/-- An infinite or undefined number. -/
def Bad (x : PyFloat) : Prop := isFin x = false

theorem Bad.mul_zero {x : PyFloat} (h : Bad x) : PyFloat.mul x (fin false 0) = nan := by
  cases x with
  | fin s a => simp [Bad, isFin] at h
  | inf s => simp [PyFloat.mul]
  | nan => rfl

theorem Bad.add {x : PyFloat} (h : Bad x) (y : PyFloat) : Bad (PyFloat.add x y) := by
  cases x with
  | fin s a => simp [Bad, isFin] at h
  | inf s => cases y <;> simp only [PyFloat.add, Bad, isFin] <;> split_ifs <;> rfl
  | nan => simp [Bad, isFin]

theorem Bad.add_right {y : PyFloat} (h : Bad y) (x : PyFloat) : Bad (PyFloat.add x y) := by
  cases y with
  | fin s a => simp [Bad, isFin] at h
  | inf s => cases x <;> simp only [PyFloat.add, Bad, isFin] <;> split_ifs <;> rfl
  | nan => simp [Bad, isFin]

theorem mul_inf_bad (x : PyFloat) : Bad (PyFloat.mul x (inf false)) := by
  cases x <;> simp only [PyFloat.mul, Bad] <;> (try split_ifs) <;> rfl

/-- A complex number times infinity times a real number: not a number. -/
theorem cmul_inf (z : PyFloat × PyFloat) (p : PyFloat) :
    cmul (cmul z (inf false, fin false 0)) (p, fin false 0) = (nan, nan) := by
  have h1 : Bad (cmul z (inf false, fin false 0)).1 := (mul_inf_bad z.1).add _
  have h2 : Bad (cmul z (inf false, fin false 0)).2 := (mul_inf_bad z.2).add_right _
  generalize cmul z (inf false, fin false 0) = w at h1 h2
  simp only [cmul, h1.mul_zero, h2.mul_zero, PyFloat.neg, add_nan, nan_add]

end FloatRange
end Verif
