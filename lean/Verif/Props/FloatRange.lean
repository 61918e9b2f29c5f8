import Verif.Lemmas.FloatRange
import Verif.Model.Zdi
import Verif.Model.Pfss

/-!
# C105: degrees for which the double precision normalisation is right
-/

set_option exponentiation.threshold 4000

namespace Verif
open PyFloat FloatRange

/-- What is assumed of numpy and scipy: the square root and the factorial are accurate to a few digits and follow IEEE on
special values; the factorial of 171 and larger does not fit a double, that of a negative number is zero. -/
structure Spec.Accurate (N : NumLib) : Prop where
  sqrt_dbl : ∀ x, Dbl (N.sqrt x)
  sqrt_nan : N.sqrt nan = nan
  sqrt_inf : N.sqrt (inf false) = inf false
  sqrt_zero : ∀ s, N.sqrt (fin s 0) = fin s 0
  sqrt_pos : ∀ q : ℚ, IsDouble q → 0 < q →
    ∃ r : ℚ, 0 < r ∧ IsDouble r ∧ N.sqrt (fin false q) = fin false r ∧ |r ^ 2 - q| ≤ q / 10 ^ 9
  fact_neg : ∀ n : ℤ, n < 0 → N.fact n = fin false 0
  fact_fin : ∀ n : ℕ, n ≤ 170 →
    ∃ q : ℚ, IsDouble q ∧ N.fact n = fin false q ∧ |q - n.factorial| ≤ n.factorial / 10 ^ 6
  fact_inf : ∀ n : ℤ, 171 ≤ n → N.fact n = inf false
  exp_zero : ∀ s, N.exp (fin s 0) = fin false 1
  sumLog_nil : N.sumLog [] = fin false 0

namespace FloatRange
variable {N : NumLib}

theorem near_fact (hN : Spec.Accurate N) {n : ℤ} (h0 : 0 ≤ n) (h : n ≤ 170) :
    Near (N.fact n) n.toNat.factorial (1 / 10 ^ 6) := by
  obtain ⟨k, rfl⟩ := Int.eq_ofNat_of_zero_le h0
  obtain ⟨q, hd, e, hq⟩ := hN.fact_fin k (by omega)
  have hf : (0 : ℝ) < (k.factorial : ℝ) := by exact_mod_cast k.factorial_pos
  have hq' : |(q : ℝ) - k.factorial| ≤ k.factorial / 10 ^ 6 := by
    have h1 : ((|q - k.factorial| : ℚ) : ℝ) ≤ ((k.factorial / 10 ^ 6 : ℚ) : ℝ) := Rat.cast_le.2 hq
    push_cast at h1
    exact h1
  refine ⟨q, e, hd, (q : ℝ) / k.factorial - 1, ?_, ?_⟩
  · rw [div_sub_one hf.ne', abs_div, abs_of_pos hf, div_le_iff₀ hf]
    linarith
  · simp only [Int.toNat_natCast]
    field_simp
    ring

/-- The square root of a float near `q` is a float near the square root of `q`. -/
theorem near_sqrt (hN : Spec.Accurate N) {x : PyFloat} {q ε : ℝ} (h : Near x q ε) (hq : 0 < q) (hε : ε ≤ 1 / 100) :
    Near (N.sqrt x) (Real.sqrt q) (ε + 2 / 10 ^ 9) := by
  obtain ⟨r, rfl, hrd, a, ha, hr⟩ := h
  have ha1 := abs_le.1 (ha.trans hε)
  have hr0 : (0 : ℝ) < r := by rw [hr]; exact mul_pos hq (by linarith)
  obtain ⟨c, hc0, hcd, e, hc⟩ := hN.sqrt_pos r hrd (by exact_mod_cast hr0)
  have hc' : |(c : ℝ) ^ 2 - r| ≤ r / 10 ^ 9 := by exact_mod_cast hc
  have hc0' : (0 : ℝ) < c := by exact_mod_cast hc0
  obtain ⟨b, hb, eb⟩ := comb (a := a) (b := (c : ℝ) ^ 2 / r - 1) (δ := 1 / 10 ^ 9) ha (by
    rw [div_sub_one hr0.ne', abs_div, abs_of_pos hr0, div_le_iff₀ hr0]
    linarith) hε
  have hs : 0 < Real.sqrt q := Real.sqrt_pos.2 hq
  refine ⟨c, e, hcd, c / Real.sqrt q - 1, ?_, by field_simp; ring⟩
  have h2 : (c : ℝ) ^ 2 = q * (1 + b) := by
    rw [← eb, ← mul_assoc, ← hr]
    field_simp
    ring
  have h3 : (c / Real.sqrt q) ^ 2 = 1 + b := by
    rw [div_pow, Real.sq_sqrt hq.le, h2]; field_simp
  have h4 : 0 < c / Real.sqrt q := by positivity
  set t := (c : ℝ) / Real.sqrt q
  have h5 : (t - 1) * (t + 1) = b := by linarith [h3]
  have h6 : |t - 1| ≤ |b| := by
    rw [← h5, abs_mul, abs_of_pos (by linarith : 0 < t + 1)]
    nlinarith [abs_nonneg (t - 1)]
  refine h6.trans (hb.trans ?_)
  norm_num

theorem spFact {n : ℤ} (h : 0 ≤ n) : spFactorial n = n.toNat.factorial := by
  unfold spFactorial
  rw [if_neg (by omega)]

theorem fact_le {n k : ℕ} (h : n ≤ k) : (n.factorial : ℝ) ≤ k.factorial := by
  exact_mod_cast Nat.factorial_le h

theorem one_le_fact (n : ℕ) : (1 : ℝ) ≤ n.factorial := by exact_mod_cast n.factorial_pos

theorem f169 : ((169).factorial : ℝ) * 1700 ≤ 2 ^ 1023 := by
  have : (169).factorial * 1700 ≤ 2 ^ 1023 := by decide +kernel
  exact_mod_cast this

theorem f170 : ((170).factorial : ℝ) ≤ 2 ^ 1020 := by
  have : (170).factorial ≤ 2 ^ 1020 := by decide +kernel
  exact_mod_cast this

theorem f170' : (2 : ℝ) ^ 1024 ≤ ((170).factorial : ℝ) * 26 := by
  have : 2 ^ 1024 ≤ (170).factorial * 26 := by decide +kernel
  exact_mod_cast this

/-- The product in the numerator of `c_lm^2` while it fits. -/
theorem near_numerator (hN : Spec.Accurate N) {l m : ℤ} (hl : 0 ≤ l) (hl2 : l ≤ 10000) (h0 : 0 ≤ l - m)
    (h : l - m ≤ 169) :
    Near (PyFloat.mul (PyFloat.div (ofInt (2 * l + 1)) fourPi) (N.fact (l - m)))
      ((2 * l + 1) / (4 * Real.pi) * (l - m).toNat.factorial) (4 / 10 ^ 6) := by
  have h1 := Real.pi_gt_three
  have h2 := Real.pi_lt_four
  have hl0 : (0 : ℝ) ≤ l := by exact_mod_cast hl
  have hl' : (l : ℝ) ≤ 10000 := by exact_mod_cast hl2
  have hf1 := one_le_fact (l - m).toNat
  have hf2 := fact_le (n := (l - m).toNat) (k := 169) (by omega)
  refine ((near_first hl (by omega)).mul (near_fact hN h0 (by omega)) (by norm_num) (by norm_num) ?_ ?_).mono
    (by norm_num)
  · calc (2 : ℝ) ^ (-1021 : ℤ) ≤ 2 ^ (-4 : ℤ) := zpow_le_zpow_right₀ (by norm_num) (by norm_num)
      _ ≤ (2 * l + 1) / (4 * Real.pi) * 1 := by
        rw [mul_one, le_div_iff₀ (by positivity)]
        norm_num
        linarith
      _ ≤ _ := by gcongr
  · calc (2 * (l : ℝ) + 1) / (4 * Real.pi) * (l - m).toNat.factorial ≤ 1700 * (169).factorial := by
          refine mul_le_mul ?_ hf2 (by positivity) (by norm_num)
          rw [div_le_iff₀ (by positivity)]
          linarith
      _ ≤ 2 ^ (1023 : ℤ) := by
          rw [mul_comm]
          exact_mod_cast f169

/-- The product in the numerator of `c_lm^2` when it does not fit. -/
theorem numerator_inf (hN : Spec.Accurate N) {l m : ℤ} (hl : l ≤ 2 ^ 61) (hm : 0 ≤ m) (h : 170 ≤ l - m) :
    PyFloat.mul (PyFloat.div (ofInt (2 * l + 1)) fourPi) (N.fact (l - m)) = inf false := by
  obtain ⟨r, er, -, a, ha, hr⟩ := near_first (l := l) (by omega) hl
  have h1 := Real.pi_gt_three
  have h2 := Real.pi_lt_d2
  have ha1 := abs_le.1 ha
  have hl0 : (170 : ℝ) ≤ l := by exact_mod_cast (by omega : (170 : ℤ) ≤ l)
  have hq : (27 : ℝ) ≤ (2 * l + 1) / (4 * Real.pi) := by
    rw [le_div_iff₀ (by positivity)]
    linarith
  have hr1 : (26.5 : ℝ) ≤ r := by rw [hr]; nlinarith
  rw [er]
  rcases Int.lt_or_le 170 (l - m) with hlt | hle
  · rw [hN.fact_inf _ (by omega)]
    have : r ≠ 0 := by
      rintro rfl
      norm_num at hr1
    simp [PyFloat.mul, this]
  · obtain ⟨q, eq, -, b, hb, hq2⟩ := near_fact hN (n := l - m) (by omega) hle
    have hb1 := abs_le.1 hb
    rw [show (l - m).toNat = 170 by omega] at hq2
    rw [eq]
    simp only [PyFloat.mul, bne_self_eq_false]
    refine ofMag_big ?_
    have hf := f170'
    have h170 : (0 : ℝ) < ((170).factorial : ℝ) := by exact_mod_cast (170).factorial_pos
    have key : ((2 : ℝ) ^ 1024) ≤ r * q := by
      rw [hq2]
      have h3 : ((170).factorial : ℝ) * (26 / 26.5) ≤ ((170).factorial : ℝ) * (1 + b) := by
        gcongr
        norm_num
        linarith
      calc (2 : ℝ) ^ 1024 ≤ 26.5 * (((170).factorial : ℝ) * (26 / 26.5)) := by
            rw [show ∀ x : ℝ, 26.5 * (x * (26 / 26.5)) = x * 26 by intro x; ring]
            exact hf
        _ ≤ _ := mul_le_mul hr1 h3 (by positivity) (by linarith)
    have : (((2 : ℚ) ^ (1024 : ℤ) : ℚ) : ℝ) ≤ ((r * q : ℚ) : ℝ) := by
      push_cast
      exact_mod_cast key
    exact Rat.cast_le.1 this

end FloatRange

variable {N : NumLib}

/-- **C105**: for `0 ≤ m ≤ l` and `l + m ≤ 170`, except for degree 170 and order 0, the factor computed in doubles is
within `1e-5` of the exact one. -/
theorem C105_accurate (hN : Spec.Accurate N) (l m : ℤ) (hm : 0 ≤ m) (hml : m ≤ l) (h : l + m ≤ 170)
    (hx : ¬(l = 170 ∧ m = 0)) :
    ∃ c : ℚ, FloatRange.cLm N l m = fin false c ∧ 0 < c ∧ |(c : ℝ) - cLm l m| ≤ 1 / 10 ^ 5 * cLm l m := by
  have h1 := Real.pi_gt_three
  have h2 := Real.pi_lt_four
  have hnum := near_numerator hN (l := l) (m := m) (by omega) (by omega) (by omega) (by omega)
  have hden := near_fact hN (n := l + m) (by omega) h
  have hl0 : (0 : ℝ) ≤ l := by exact_mod_cast (by omega : (0 : ℤ) ≤ l)
  have hl' : (l : ℝ) ≤ 170 := by exact_mod_cast (by omega : l ≤ 170)
  have hf1 := one_le_fact (l - m).toNat
  have hf2 := fact_le (n := (l - m).toNat) (k := (l + m).toNat) (by omega)
  have hg1 := one_le_fact (l + m).toNat
  have hgp : (0 : ℝ) < (l + m).toNat.factorial := by linarith
  have hlow : (2 : ℝ) ^ (-1021 : ℤ) ≤ (2 * l + 1) / (4 * Real.pi) * (l - m).toNat.factorial / (l + m).toNat.factorial := by
    rw [le_div_iff₀ hgp]
    have hle : (2 : ℝ) ^ (-1021 : ℤ) * (l + m).toNat.factorial ≤ (2 * l + 1) / 16 := by
      rcases Int.lt_or_le (l + m) 170 with hs | hs
      · have := fact_le (n := (l + m).toNat) (k := 169) (by omega)
        have h3 := f169
        rw [zpow_neg, inv_mul_le_iff₀ (by positivity)]
        have : ((l + m).toNat.factorial : ℝ) * 1700 ≤ 2 ^ 1023 := by linarith
        have e : (2 : ℝ) ^ (1021 : ℤ) * 4 = 2 ^ 1023 := by norm_cast
        have e0 : (0 : ℝ) < 2 ^ (1021 : ℤ) := by positivity
        nlinarith
      · have := fact_le (n := (l + m).toNat) (k := 170) (by omega)
        have h3 := f170
        rw [zpow_neg, inv_mul_le_iff₀ (by positivity)]
        have hl3 : (85 : ℝ) ≤ l := by exact_mod_cast (by omega : (85 : ℤ) ≤ l)
        have e : (2 : ℝ) ^ (1021 : ℤ) = 2 * 2 ^ 1020 := by norm_cast
        have e0 : (0 : ℝ) < 2 ^ 1020 := by positivity
        rw [e]
        nlinarith
    calc (2 : ℝ) ^ (-1021 : ℤ) * (l + m).toNat.factorial ≤ (2 * l + 1) / 16 := hle
      _ ≤ (2 * l + 1) / (4 * Real.pi) * 1 := by
        rw [mul_one]
        gcongr
        linarith
      _ ≤ _ := by gcongr
  have hhigh : (2 * (l : ℝ) + 1) / (4 * Real.pi) * (l - m).toNat.factorial / (l + m).toNat.factorial ≤ 2 ^ (1023 : ℤ) := by
    rw [div_le_iff₀ hgp]
    refine mul_le_mul ?_ hf2 (by positivity) (by positivity)
    rw [div_le_iff₀ (by positivity)]
    have : (400 : ℝ) ≤ 2 ^ (1023 : ℤ) :=
      le_trans (by norm_num) (zpow_le_zpow_right₀ (a := (2 : ℝ)) (m := 9) (by norm_num) (by norm_num))
    nlinarith
  have hq := hnum.div hden hgp (by norm_num) (by norm_num) hlow hhigh
  have hpos := lt_of_lt_of_le (by positivity : (0 : ℝ) < 2 ^ (-1021 : ℤ)) hlow
  obtain ⟨c, ec, -, a, ha, hc⟩ := (near_sqrt hN hq hpos (by norm_num)).mono (δ := 1 / 10 ^ 5) (by norm_num)
  have hs := Real.sqrt_pos.2 hpos
  have ha1 := abs_le.1 ha
  refine ⟨c, ec, ?_, ?_⟩
  · have : (0 : ℝ) < c := by rw [hc]; exact mul_pos hs (by linarith)
    exact_mod_cast this
  · rw [cLm, spFact (by omega), spFact (by omega), hc]
    rw [show ∀ x : ℝ, x * (1 + a) - x = a * x by intro x; ring, abs_mul, abs_of_pos hs]
    gcongr

/-- **C105**: for a negative order `-l ≤ m < 0` the factor computed in doubles is within `1e-5` of the exact one while `l - m ≤ 169`. -/
theorem C105_accurate_negative (hN : Spec.Accurate N) (l m : ℤ) (hm : m < 0) (hml : -l ≤ m) (h : l - m ≤ 169) :
    ∃ c : ℚ, FloatRange.cLm N l m = fin false c ∧ 0 < c ∧ |(c : ℝ) - cLm l m| ≤ 1 / 10 ^ 5 * cLm l m := by
  have h1 := Real.pi_gt_three
  have h2 := Real.pi_lt_four
  have hnum := near_numerator hN (l := l) (m := m) (by omega) (by omega) (by omega) h
  have hden := near_fact hN (n := l + m) (by omega) (by omega)
  have hl0 : (0 : ℝ) ≤ l := by exact_mod_cast (by omega : (0 : ℤ) ≤ l)
  have hl' : (l : ℝ) ≤ 170 := by exact_mod_cast (by omega : l ≤ 170)
  have hf2 := fact_le (n := (l + m).toNat) (k := (l - m).toNat) (by omega)
  have hf3 := fact_le (n := (l - m).toNat) (k := 169) (by omega)
  have hg1 := one_le_fact (l + m).toNat
  have hgp : (0 : ℝ) < (l + m).toNat.factorial := by linarith
  have hlow : (2 : ℝ) ^ (-1021 : ℤ) ≤ (2 * l + 1) / (4 * Real.pi) * (l - m).toNat.factorial / (l + m).toNat.factorial := by
    rw [le_div_iff₀ hgp]
    refine mul_le_mul ?_ hf2 hgp.le (by positivity)
    calc (2 : ℝ) ^ (-1021 : ℤ) ≤ 2 ^ (-4 : ℤ) := zpow_le_zpow_right₀ (by norm_num) (by norm_num)
      _ ≤ (2 * l + 1) / (4 * Real.pi) := by
        rw [le_div_iff₀ (by positivity)]
        norm_num
        linarith
  have hhigh : (2 * (l : ℝ) + 1) / (4 * Real.pi) * (l - m).toNat.factorial / (l + m).toNat.factorial ≤ 2 ^ (1023 : ℤ) := by
    refine (div_le_self (by positivity) hg1).trans ?_
    calc (2 * (l : ℝ) + 1) / (4 * Real.pi) * (l - m).toNat.factorial ≤ 1700 * (169).factorial := by
          refine mul_le_mul ?_ hf3 (by positivity) (by norm_num)
          rw [div_le_iff₀ (by positivity)]
          linarith
      _ ≤ 2 ^ (1023 : ℤ) := by
          rw [mul_comm]
          exact_mod_cast f169
  have hq := hnum.div hden hgp (by norm_num) (by norm_num) hlow hhigh
  have hpos := lt_of_lt_of_le (by positivity : (0 : ℝ) < 2 ^ (-1021 : ℤ)) hlow
  obtain ⟨c, ec, -, a, ha, hc⟩ := (near_sqrt hN hq hpos (by norm_num)).mono (δ := 1 / 10 ^ 5) (by norm_num)
  have hs := Real.sqrt_pos.2 hpos
  have ha1 := abs_le.1 ha
  refine ⟨c, ec, ?_, ?_⟩
  · have : (0 : ℝ) < c := by rw [hc]; exact mul_pos hs (by linarith)
    exact_mod_cast this
  · rw [cLm, spFact (by omega), spFact (by omega), hc]
    rw [show ∀ x : ℝ, x * (1 + a) - x = a * x by intro x; ring, abs_mul, abs_of_pos hs]
    gcongr

/-- **C105**: when `l + m ≥ 171` and `l - m ≤ 169` the computed factor is zero. -/
theorem C105_dropped (hN : Spec.Accurate N) (l m : ℤ) (hml : m ≤ l) (hl : l ≤ 10000) (h : 171 ≤ l + m)
    (h' : l - m ≤ 169) : FloatRange.cLm N l m = fin false 0 := by
  obtain ⟨r, er, _⟩ := near_numerator hN (l := l) (m := m) (by omega) hl (by omega) h'
  unfold FloatRange.cLm
  rw [er, hN.fact_inf _ h]
  exact hN.sqrt_zero false

/-- **C105**: when `l - m ≥ 170` the computed factor is infinite (degree 170, order 0) or not a number. -/
theorem C105_not_finite (hN : Spec.Accurate N) (l m : ℤ) (hl : l ≤ 2 ^ 61) (hm : 0 ≤ m) (h : 170 ≤ l - m) :
    FloatRange.cLm N l m = if l = 170 ∧ m = 0 then inf false else nan := by
  unfold FloatRange.cLm
  rw [numerator_inf hN hl hm h]
  split_ifs with hx
  · obtain ⟨r, er, _⟩ := near_fact hN (n := l + m) (by omega) (by omega)
    rw [er]
    exact hN.sqrt_inf
  · rw [hN.fact_inf _ (by omega)]
    exact hN.sqrt_nan

/-- The exact factor is positive for all of these, so the exact model loses nothing. -/
theorem C105_exact_positive (l m : ℤ) (hm : 0 ≤ m) (hml : m ≤ l) : 0 < Verif.cLm l m := by
  unfold Verif.cLm
  rw [spFact (by omega), spFact (by omega)]
  have hl0 : (0 : ℝ) ≤ l := by exact_mod_cast (by omega : (0 : ℤ) ≤ l)
  have h1 := one_le_fact (l - m).toNat
  have h2 := one_le_fact (l + m).toNat
  have := Real.pi_pos
  apply Real.sqrt_pos.2
  positivity

theorem FloatRange.radial_nan (rows : List FRow) (h : ∃ r ∈ rows, FloatRange.term N r = (nan, nan)) : FloatRange.radial N rows = nan := by
  obtain ⟨r, hr, ht⟩ := h
  have hnan : ∀ rs : List FRow, rs.foldl (fun acc r => cadd acc (FloatRange.term N r)) (nan, nan) = (nan, nan) := by
    intro rs
    induction rs with
    | nil => rfl
    | cons r rs ih => rw [List.foldl_cons]; simpa [cadd] using ih
  unfold FloatRange.radial
  generalize (fin false 0, fin false 0) = acc
  induction rows generalizing acc with
  | nil => simp at hr
  | cons r' rs ih =>
    rw [List.foldl_cons]
    rcases List.mem_cons.1 hr with rfl | hr
    · have e : cadd acc (FloatRange.term N r) = (nan, nan) := by rw [ht]; simp [cadd]
      rw [e, hnan]
    · exact ih hr _

/-- **C105**: one coefficient with `l - m ≥ 170`, whatever its value, and the radial field is not a number anywhere. -/
theorem C105_field_nan (hN : Spec.Accurate N) (rows : List FRow)
    (h : ∃ r ∈ rows, r.l ≤ 2 ^ 61 ∧ 0 ≤ r.m ∧ 170 ≤ r.l - r.m) : FloatRange.radial N rows = nan := by
  obtain ⟨r, hr, hl, hm, hlm⟩ := h
  refine FloatRange.radial_nan rows ⟨r, hr, ?_⟩
  unfold FloatRange.term
  rw [C105_not_finite hN r.l r.m hl hm hlm]
  split_ifs
  · rw [cmul_inf, nan_cmul]
  · rw [cmul_nan, nan_cmul, nan_cmul]

/-- **C105**: for a negative order with `l - m ≥ 171` the computed factor is infinite, or not a number if `l + m ≥ 171` too. -/
theorem C105_not_finite_negative (hN : Spec.Accurate N) (l m : ℤ) (hl : l ≤ 2 ^ 61) (hm : m < 0) (hml : -l ≤ m) (h : 171 ≤ l - m) :
    FloatRange.cLm N l m = if l + m ≤ 170 then inf false else nan := by
  have hnum : PyFloat.mul (PyFloat.div (ofInt (2 * l + 1)) fourPi) (N.fact (l - m)) = inf false := by
    obtain ⟨r, er, -, a, ha, hr⟩ := near_first (l := l) (by omega) hl
    have ha1 := abs_le.1 ha
    have hl0 : (0 : ℝ) ≤ l := by exact_mod_cast (by omega : (0 : ℤ) ≤ l)
    have hp : (0 : ℝ) < (2 * l + 1) / (4 * Real.pi) := div_pos (by linarith) (by linarith [Real.pi_pos])
    have h0 : (0 : ℝ) < r := by rw [hr]; exact mul_pos hp (by linarith)
    have : r ≠ 0 := by
      rintro rfl
      norm_num at h0
    rw [er, hN.fact_inf _ h]
    simp [PyFloat.mul, this]
  unfold FloatRange.cLm
  rw [hnum]
  split_ifs with hx
  · obtain ⟨r, er, _⟩ := near_fact hN (n := l + m) (by omega) hx
    rw [er]
    exact hN.sqrt_inf
  · rw [hN.fact_inf _ (by omega)]
    exact hN.sqrt_nan

/-- **C105**: one coefficient of negative order with `l - m ≥ 171`, whatever its value, and the radial field is not a number anywhere. -/
theorem C105_field_nan_negative (hN : Spec.Accurate N) (rows : List FRow)
    (h : ∃ r ∈ rows, r.l ≤ 2 ^ 61 ∧ r.m < 0 ∧ -r.l ≤ r.m ∧ 171 ≤ r.l - r.m) : FloatRange.radial N rows = nan := by
  obtain ⟨r, hr, hl, hm, hml, hlm⟩ := h
  refine FloatRange.radial_nan rows ⟨r, hr, ?_⟩
  unfold FloatRange.term
  rw [C105_not_finite_negative hN r.l r.m hl hm hml hlm]
  split_ifs
  · rw [cmul_inf, nan_cmul]
  · rw [cmul_nan, nan_cmul, nan_cmul]

/-- The orders and degrees that double precision loses. -/
def Spec.lost (l m : ℤ) : Bool := decide (m ≤ l ∧ l ≤ 10000 ∧ 171 ≤ l + m ∧ l - m ≤ 169)

/-- The entries of a row are numbers of double precision. -/
def Spec.DblRow (r : FRow) : Prop := Dbl r.a.1 ∧ Dbl r.a.2 ∧ Dbl r.p ∧ Dbl r.e.1 ∧ Dbl r.e.2

/-- The entries of a row are finite. -/
def Spec.FinRow (r : FRow) : Prop :=
  isFin r.a.1 = true ∧ isFin r.a.2 = true ∧ isFin r.p = true ∧ isFin r.e.1 = true ∧ isFin r.e.2 = true

theorem FloatRange.dbl_cmul {z w : PyFloat × PyFloat} (h1 : Dbl z.1) (h2 : Dbl z.2) (h3 : Dbl w.1) (h4 : Dbl w.2) :
    Dbl (cmul z w).1 ∧ Dbl (cmul z w).2 :=
  ⟨(h1.mul h3).add (h2.mul h4).neg, (h1.mul h4).add (h2.mul h3)⟩

theorem FloatRange.dbl_term (hN : Spec.Accurate N) {r : FRow} (h : Spec.DblRow r) :
    Dbl (FloatRange.term N r).1 ∧ Dbl (FloatRange.term N r).2 := by
  obtain ⟨h1, h2, h3, h4, h5⟩ := h
  have hz : Dbl (fin false 0) := isDouble_zero
  have ha := dbl_cmul (z := r.a) (w := (FloatRange.cLm N r.l r.m, fin false 0)) h1 h2 (hN.sqrt_dbl _) hz
  have hb := dbl_cmul (w := (r.p, fin false 0)) ha.1 ha.2 h3 hz
  exact dbl_cmul hb.1 hb.2 h4 h5

/-- **C105**: the coefficients with `l + m ≥ 171` and `l - m ≤ 169` are ignored: the radial field is bit for bit that of the
magnetogram without them. -/
theorem C105_field_dropped (hN : Spec.Accurate N) (rows : List FRow) (hd : ∀ r ∈ rows, Spec.DblRow r)
    (hf : ∀ r ∈ rows, Spec.lost r.l r.m = true → Spec.FinRow r) :
    FloatRange.radial N rows = FloatRange.radial N (rows.filter fun r => !Spec.lost r.l r.m) := by
  unfold FloatRange.radial
  have key : ∀ (rs : List FRow) (acc : PyFloat × PyFloat), (∀ r ∈ rs, Spec.DblRow r) →
      (∀ r ∈ rs, Spec.lost r.l r.m = true → Spec.FinRow r) → Dbl acc.1 → Dbl acc.2 → acc.1 ≠ fin true 0 →
      acc.2 ≠ fin true 0 → rs.foldl (fun acc r => cadd acc (FloatRange.term N r)) acc
        = (rs.filter fun r => !Spec.lost r.l r.m).foldl (fun acc r => cadd acc (FloatRange.term N r)) acc := by
    intro rs
    induction rs with
    | nil => intros; rfl
    | cons r rs ih =>
      intro acc hd hf h1 h2 h3 h4
      have hd' : ∀ r ∈ rs, Spec.DblRow r := fun r hr => hd r (List.mem_cons_of_mem _ hr)
      have hf' : ∀ r ∈ rs, Spec.lost r.l r.m = true → Spec.FinRow r := fun r hr => hf r (List.mem_cons_of_mem _ hr)
      have ht := dbl_term hN (hd r List.mem_cons_self)
      by_cases hl : Spec.lost r.l r.m = true
      · rw [List.filter_cons_of_neg (by simp [hl]), List.foldl_cons]
        obtain ⟨f1, f2, f3, f4, f5⟩ := hf r List.mem_cons_self hl
        have hl' := of_decide_eq_true hl
        have hz : IsZero (FloatRange.term N r) := by
          unfold FloatRange.term
          rw [C105_dropped hN r.l r.m hl'.1 hl'.2.1 hl'.2.2.1 hl'.2.2.2]
          exact ((IsZero.mul_left ⟨false, false, rfl⟩ f1 f2).mul_right f3 rfl).mul_right f4 f5
        obtain ⟨s, t, hz⟩ := hz
        have e : cadd acc (FloatRange.term N r) = acc := by
          rw [hz]
          unfold cadd
          rw [add_zero_eq s h1 h3, add_zero_eq t h2 h4]
        rw [e]
        exact ih acc hd' hf' h1 h2 h3 h4
      · rw [List.filter_cons_of_pos (by simpa using hl), List.foldl_cons, List.foldl_cons]
        exact ih _ hd' hf' (h1.add ht.1) (h2.add ht.2) (add_ne_negZero h1 ht.1 h3) (add_ne_negZero h2 ht.2 h4)
  rw [key rows (fin false 0, fin false 0) hd hf isDouble_zero isDouble_zero (by simp) (by simp)]

/-- **C105**: the same coefficients are fitted as zero, whatever the map and in whatever order numpy adds. -/
theorem C105_analysis_zero (hN : Spec.Accurate N) (l m : ℤ) (h : Spec.lost l m = true) (ts : SumTree)
    (hf : ∀ t ∈ ts.terms, isFin t = true) : ∃ s, alphaPart N l m ts = fin s 0 := by
  have h' := of_decide_eq_true h
  have hw : weightW N l m = inf false := by
    unfold weightW
    rw [C105_dropped hN l m h'.1 h'.2.1 h'.2.2.1 h'.2.2.2]
    simp [PyFloat.mul, ofMag_zero, PyFloat.div]
  unfold alphaPart
  rw [hw]
  induction ts with
  | leaf t =>
    have := hf t (by simp [SumTree.terms])
    cases t with
    | fin s a => exact ⟨s != false, rfl⟩
    | inf s => simp [isFin] at this
    | nan => simp [isFin] at this
  | node a b iha ihb =>
    obtain ⟨s, hs⟩ := iha fun t ht => hf t (by simp [SumTree.terms, ht])
    obtain ⟨t, ht⟩ := ihb fun t ht => hf t (by simp [SumTree.terms, ht])
    exact ⟨s && t, by simp only [SumTree.sum, hs, ht, add_zeros]⟩

/-- **C105**: the other method of `get_c_lm`, which no caller asks for, is right for order zero at every degree. -/
theorem C105_other_method (hN : Spec.Accurate N) (l : ℤ) (h0 : 0 ≤ l) (hl : l ≤ 2 ^ 61) :
    ∃ c : ℚ, cLmOther N l 0 = fin false c ∧ 0 < c ∧ |(c : ℝ) - Verif.cLm l 0| ≤ 1 / 10 ^ 5 * Verif.cLm l 0 := by
  have hlr : (0 : ℝ) ≤ l := by exact_mod_cast h0
  have hl' : (l : ℝ) ≤ 2 ^ 61 := by exact_mod_cast hl
  have h3 := Real.pi_gt_three
  have h4 := Real.pi_lt_four
  have he : N.exp (PyFloat.neg (N.sumLog (pyRange (l - 0 + 1) (l + 0 + 1)))) = fin false 1 := by
    have : pyRange (l - 0 + 1) (l + 0 + 1) = [] := by simp [pyRange]
    rw [this, hN.sumLog_nil]
    exact hN.exp_zero _
  have hone : Near (fin false 1) 1 0 := ⟨1, rfl, isDouble_one, 0, by simp, by norm_num⟩
  have hpos : 0 < (2 * (l : ℝ) + 1) / (4 * Real.pi) * 1 := by positivity
  have hq := (near_first h0 hl).mul hone (by norm_num) (by norm_num) (by
    calc (2 : ℝ) ^ (-1021 : ℤ) ≤ 2 ^ (-4 : ℤ) := zpow_le_zpow_right₀ (by norm_num) (by norm_num)
      _ ≤ _ := by
        rw [mul_one, le_div_iff₀ (by positivity)]
        norm_num
        linarith) (by
    calc (2 * (l : ℝ) + 1) / (4 * Real.pi) * 1 ≤ 2 ^ (63 : ℤ) := by
          rw [mul_one, div_le_iff₀ (by positivity)]
          norm_num
          nlinarith
      _ ≤ _ := zpow_le_zpow_right₀ (by norm_num) (by norm_num))
  obtain ⟨c, ec, -, a, ha, hc⟩ := (near_sqrt hN hq hpos (by norm_num)).mono (δ := 1 / 10 ^ 5) (by norm_num)
  have hs := Real.sqrt_pos.2 hpos
  have ha1 := abs_le.1 ha
  refine ⟨c, by unfold cLmOther; rw [he]; exact ec, ?_, ?_⟩
  · have : (0 : ℝ) < c := by rw [hc]; exact mul_pos hs (by linarith)
    exact_mod_cast this
  · have hf := one_le_fact l.toNat
    have e : Verif.cLm l 0 = Real.sqrt ((2 * (l : ℝ) + 1) / (4 * Real.pi) * 1) := by
      rw [Verif.cLm, spFact (by omega), spFact (by omega), sub_zero, add_zero, mul_div_assoc, div_self (by linarith)]
    rw [e, hc, show ∀ x : ℝ, x * (1 + a) - x = a * x by intro x; ring, abs_mul, abs_of_pos hs]
    gcongr

/-- **C105**: for `0 ≤ m ≤ l` and `l + m ≤ 170` the scaling of the PFSS functions computed in doubles is within `1e-5` of
the exact one. -/
theorem C105_pfss_accurate (hN : Spec.Accurate N) (l m : ℤ) (hm : 0 ≤ m) (hml : m ≤ l) (h : l + m ≤ 170) :
    isFin (FloatRange.thetaScale N l m) = true ∧
      |((FloatRange.thetaScale N l m).num : ℝ) - Pfss.thetaScale l m| ≤ 1 / 10 ^ 5 * |Pfss.thetaScale l m| := by
  have hf1 := one_le_fact (l - m).toNat
  have hf2 := fact_le (n := (l - m).toNat) (k := (l + m).toNat) (by omega)
  have hg1 := one_le_fact (l + m).toNat
  have hg2 := fact_le (n := (l + m).toNat) (k := 170) (by omega)
  have hgp : (0 : ℝ) < (l + m).toNat.factorial := by linarith
  have h170 := f170
  set q : ℝ := (l - m).toNat.factorial / (l + m).toNat.factorial with hq
  have hlow : (2 : ℝ) ^ (-1020 : ℤ) ≤ q := by
    rw [hq, le_div_iff₀ hgp, zpow_neg, inv_mul_le_iff₀ (by positivity)]
    have e : (2 : ℝ) ^ (1020 : ℤ) = 2 ^ 1020 := by norm_cast
    have e0 : (0 : ℝ) < 2 ^ 1020 := by positivity
    rw [e]
    nlinarith
  have hhigh : q ≤ 1 := by rw [hq]; exact div_le_one_of_le₀ hf2 hgp.le
  have hbig : (4 : ℝ) ≤ 2 ^ (1023 : ℤ) :=
    le_trans (by norm_num) (zpow_le_zpow_right₀ (a := (2 : ℝ)) (m := 2) (by norm_num) (by norm_num))
  have hsm : (2 : ℝ) ^ (-1021 : ℤ) ≤ 2 ^ (-1020 : ℤ) := zpow_le_zpow_right₀ (by norm_num) (by norm_num)
  have hpos : 0 < q := lt_of_lt_of_le (by positivity) hlow
  have hd := (near_fact hN (n := l - m) (by omega) (by omega)).div (near_fact hN (n := l + m) (by omega) h) hgp
    (by norm_num) (by norm_num) (hsm.trans hlow) (by linarith)
  rw [← hq] at hd
  have hs := near_sqrt hN hd hpos (by norm_num)
  have hs0 := Real.sqrt_pos.2 hpos
  have hs1 : Real.sqrt q ≤ 1 := Real.sqrt_le_one.2 hhigh
  have hqs : q ≤ Real.sqrt q := Real.le_sqrt_of_sq_le (by nlinarith)
  obtain ⟨r, er, hrd, a, ha, hr⟩ := hs
  obtain ⟨r1, er1, hr1d, a1, ha1, hr1⟩ := near_ofMag hr ha (by norm_num) (by linarith) (by linarith)
  have hw : Near (N.sqrt (fin false (if m = 0 then 1 else 2))) (Real.sqrt (2 - if m = 0 then 1 else 0)) (3 / 10 ^ 9) := by
    split_ifs
    · have := near_sqrt hN (x := fin false 1) (q := 1) (ε := 0) ⟨1, rfl, isDouble_one, 0, by simp, by norm_num⟩
        (by norm_num) (by norm_num)
      rw [show (2 : ℝ) - 1 = 1 by norm_num]
      exact this.mono (by norm_num)
    · have := near_sqrt hN (x := fin false 2) (q := 2) (ε := 0) ⟨2, rfl, isDouble_two, 0, by simp, by norm_num⟩
        (by norm_num) (by norm_num)
      rw [show (2 : ℝ) - 0 = 2 by norm_num]
      exact this.mono (by norm_num)
  have hw1 : 1 ≤ Real.sqrt (2 - if m = 0 then 1 else 0) := by
    rw [Real.one_le_sqrt]; split_ifs <;> norm_num
  have hw2 : Real.sqrt (2 - if m = 0 then 1 else 0) ≤ 2 := by
    rw [Real.sqrt_le_left (by norm_num)]; split_ifs <;> norm_num
  set w : ℝ := Real.sqrt (2 - if m = 0 then 1 else 0) with hwd
  have hn1 : Near (fin false r1) (Real.sqrt q) _ := ⟨r1, rfl, hr1d, a1, ha1, hr1⟩
  obtain ⟨c, ec, -, b, hb, hc⟩ := (hn1.mul hw (by norm_num) (by norm_num) (by nlinarith) (by nlinarith)).mono
    (δ := 1 / 10 ^ 5) (by norm_num)
  obtain ⟨w0, ew, -⟩ := hw
  rw [ew] at ec
  have sgn : ∀ (s : Bool) {x y : ℚ}, ofMag false x = fin false y → ofMag s x = fin s y := by
    intro s x y hxy
    unfold ofMag at hxy ⊢
    split_ifs at hxy ⊢
    injection hxy with _ hxy
    rw [hxy]
  have et : FloatRange.thetaScale N l m = fin (decide (m % 2 = 1)) c := by
    unfold FloatRange.thetaScale
    rw [er, ew]
    have e1 : PyFloat.mul (fin (decide (m % 2 = 1)) 1) (fin false r) = fin (decide (m % 2 = 1)) r1 := by
      simp only [PyFloat.mul, one_mul, Bool.bne_false]
      exact sgn _ er1
    rw [e1]
    simp only [PyFloat.mul, Bool.bne_false] at ec ⊢
    exact sgn _ ec
  have ex : Pfss.thetaScale l m = (if m % 2 = 1 then -1 else 1) * (Real.sqrt q * w) := by
    unfold Pfss.thetaScale
    rw [spFact (by omega), spFact (by omega), ← hq, mul_assoc]
    congr 1
    split_ifs with hodd
    · exact Odd.neg_one_zpow (Int.odd_iff.2 hodd)
    · exact Even.neg_one_zpow (Int.even_iff.2 (by omega))
  have hw0 : 0 < Real.sqrt q * w := mul_pos hs0 (by linarith)
  rw [et, ex]
  refine ⟨rfl, ?_⟩
  have e2 : ∀ x : ℝ, x * (1 + b) - x = b * x := by intro x; ring
  by_cases hodd : m % 2 = 1
  · simp only [num, hodd, decide_true, if_true, Rat.cast_neg]
    rw [hc, show -(Real.sqrt q * w * (1 + b)) - -1 * (Real.sqrt q * w) = -(b * (Real.sqrt q * w)) by ring, abs_neg, abs_mul,
      neg_one_mul, abs_neg, abs_of_pos hw0]
    exact mul_le_mul_of_nonneg_right hb hw0.le
  · simp only [num, hodd, decide_false, Bool.false_eq_true, if_false]
    rw [hc, one_mul, e2, abs_mul, abs_of_pos hw0]
    exact mul_le_mul_of_nonneg_right hb hw0.le

/-- **C105**: in the PFSS functions the scaling of the terms with `l + m ≥ 171` and `l - m ≤ 170` is zero. -/
theorem C105_pfss_dropped (hN : Spec.Accurate N) (l m : ℤ) (hml : m ≤ l) (h : 171 ≤ l + m) (h' : l - m ≤ 170) :
    FloatRange.thetaScale N l m = fin (decide (m % 2 = 1)) 0 := by
  obtain ⟨r, er, _⟩ := near_fact hN (n := l - m) (by omega) h'
  unfold FloatRange.thetaScale
  rw [er, hN.fact_inf _ h]
  have e1 : PyFloat.div (fin false r) (inf false) = fin false 0 := rfl
  have h2 : ∃ r : ℚ, N.sqrt (fin false (if m = 0 then 1 else 2)) = fin false r := by
    split_ifs
    · obtain ⟨r, -, -, e, -⟩ := hN.sqrt_pos 1 isDouble_one (by norm_num)
      exact ⟨r, e⟩
    · obtain ⟨r, -, -, e, -⟩ := hN.sqrt_pos 2 isDouble_two (by norm_num)
      exact ⟨r, e⟩
  obtain ⟨c, hc⟩ := h2
  rw [e1, hN.sqrt_zero, hc]
  simp [PyFloat.mul, ofMag_zero]

/-- **C105**: one coefficient with `l - m ≥ 171` and the assert of `calculate_all_theta` fails, at every point. -/
theorem C105_pfss_raises (hN : Spec.Accurate N) (rows : List (ℤ × ℤ × PyFloat × PyFloat))
    (h : ∃ r ∈ rows, 0 ≤ r.2.1 ∧ 171 ≤ r.1 - r.2.1) : allTheta N rows = .error .assertion := by
  obtain ⟨r, hr, hm, hlm⟩ := h
  have hs : FloatRange.thetaScale N r.1 r.2.1 = nan := by
    unfold FloatRange.thetaScale
    rw [hN.fact_inf _ hlm, hN.fact_inf _ (by omega)]
    have e1 : PyFloat.div (inf false) (inf false) = nan := rfl
    rw [e1, hN.sqrt_nan, mul_nan, nan_mul]
  unfold allTheta
  have hc : ¬ ∀ r ∈ rows, isClose (PyFloat.mul r.2.2.1 (FloatRange.thetaScale N r.1 r.2.1))
      (PyFloat.mul (FloatRange.thetaScale N r.1 r.2.1) r.2.2.2) = true := by
    intro hall
    have := hall r hr
    rw [hs, mul_nan, nan_mul] at this
    simp [isClose] at this
  simp only [resAssert, if_neg hc]
  rfl

/-! ### Non-vacuity -/

theorem FloatRange.sqrt_exists {q : ℚ} (hd : IsDouble q) (h : 0 < q) :
    ∃ r : ℚ, 0 < r ∧ IsDouble r ∧ |r ^ 2 - q| ≤ q / 10 ^ 9 := by
  have hq : (0 : ℝ) < q := by exact_mod_cast h
  have hs := Real.sqrt_pos.2 hq
  have hsq := Real.sq_sqrt hq.le
  set t := Real.sqrt (q : ℝ) with ht
  obtain ⟨u, hu1, hu2⟩ := exists_rat_btwn (show t < t * (1 + 1 / 10 ^ 11) by nlinarith)
  obtain ⟨k, hk⟩ := IsDouble.multiple hd
  have hlow : (2 : ℝ) ^ (-537 : ℤ) ≤ t := by
    apply Real.le_sqrt_of_sq_le
    have hk0 : 1 ≤ k := by
      rcases Nat.eq_zero_or_pos k with rfl | hk0
      · simp at hk; linarith
      · exact hk0
    have hk1 : (1 : ℝ) ≤ k := by exact_mod_cast hk0
    have e : (q : ℝ) = k * 2 ^ (-1074 : ℤ) := by rw [hk]; push_cast; rfl
    have e2 : ((2 : ℝ) ^ (-537 : ℤ)) ^ 2 = 2 ^ (-1074 : ℤ) := by rw [← zpow_natCast, ← zpow_mul]; norm_num
    rw [e, e2]
    have : (0 : ℝ) < 2 ^ (-1074 : ℤ) := by positivity
    nlinarith
  have hhigh : t ≤ 2 ^ (512 : ℤ) := by
    rw [ht, Real.sqrt_le_left (by positivity)]
    have h1 := lt_of_le_of_lt (IsDouble.le_max hd) maxDouble_lt
    have h2 : (q : ℝ) < (((2 : ℚ) ^ (1024 : ℤ) : ℚ) : ℝ) := Rat.cast_lt.2 h1
    rw [Rat.cast_zpow, Rat.cast_ofNat] at h2
    have e2 : ((2 : ℝ) ^ (512 : ℤ)) ^ 2 = 2 ^ (1024 : ℤ) := by rw [← zpow_natCast, ← zpow_mul]; norm_num
    rw [e2]
    exact h2.le
  obtain ⟨r, er, hrd, a, ha, hr⟩ := near_ofMag (q := u) (p := t) (a := u / t - 1) (ε := 1 / 10 ^ 11) (by field_simp; ring)
    (by
      rw [div_sub_one hs.ne', abs_div, abs_of_pos hs, div_le_iff₀ hs, abs_of_pos (by linarith)]
      linarith) (by norm_num)
    (le_trans (zpow_le_zpow_right₀ (by norm_num) (by norm_num)) hlow)
    (hhigh.trans (zpow_le_zpow_right₀ (by norm_num) (by norm_num)))
  have ha1 := abs_le.1 ha
  norm_num at ha1
  have hr0 : (0 : ℝ) < r := by rw [hr]; exact mul_pos hs (by linarith)
  refine ⟨r, by exact_mod_cast hr0, hrd, ?_⟩
  have key : |(r : ℝ) ^ 2 - q| ≤ q / 10 ^ 9 := by
    rw [hr, mul_pow, hsq, show (q : ℝ) * (1 + a) ^ 2 - q = q * (2 * a + a ^ 2) by ring, abs_mul, abs_of_pos hq,
      div_eq_mul_inv]
    gcongr
    rw [abs_le]
    constructor <;> nlinarith
  have : ((|r ^ 2 - q| : ℚ) : ℝ) ≤ ((q / 10 ^ 9 : ℚ) : ℝ) := by push_cast; exact key
  exact Rat.cast_le.1 this

open Classical in
/-- A square root and a factorial as assumed. -/
noncomputable def FloatRange.exLib : NumLib where
  sqrt
    | fin s q => if q = 0 then fin s 0 else
        if h : ∃ r : ℚ, 0 < r ∧ IsDouble r ∧ |r ^ 2 - q| ≤ q / 10 ^ 9 then fin false h.choose else nan
    | inf false => inf false
    | _ => nan
  fact n := if n < 0 then fin false 0 else if n ≤ 170 then fin false (fl0 n.toNat.factorial) else inf false
  exp _ := fin false 1
  sumLog _ := fin false 0

theorem FloatRange.exLib_accurate : Spec.Accurate exLib where
  sqrt_dbl x := by
    cases x with
    | fin s q =>
      simp only [exLib]
      split_ifs with h1 h2
      · exact isDouble_zero
      · exact h2.choose_spec.2.1
      · trivial
    | inf s => cases s <;> trivial
    | nan => trivial
  sqrt_nan := rfl
  sqrt_inf := rfl
  sqrt_zero s := by simp [exLib]
  sqrt_pos q hd hq := by
    have h := sqrt_exists hd hq
    refine ⟨h.choose, h.choose_spec.1, h.choose_spec.2.1, ?_, h.choose_spec.2.2⟩
    simp only [exLib]
    rw [if_neg hq.ne', dif_pos h]
  fact_neg n h := by simp only [exLib]; rw [if_pos h]
  fact_fin n h := by
    have h1 : (1 : ℚ) ≤ n.factorial := by exact_mod_cast n.factorial_pos
    have h2 : (n.factorial : ℚ) ≤ maxDouble := by
      have h3 : n.factorial ≤ (170).factorial := Nat.factorial_le h
      have h4 : (170).factorial ≤ (2 ^ 53 - 1) * 2 ^ 971 := by decide +kernel
      have h5 : (n.factorial : ℚ) ≤ (((2 ^ 53 - 1) * 2 ^ 971 : ℕ) : ℚ) := by exact_mod_cast h3.trans h4
      refine h5.trans (le_of_eq ?_)
      unfold maxDouble
      norm_cast
    refine ⟨fl0 n.factorial, fl0_isDouble _ (by linarith)
      (lt_of_le_of_lt (fl0_le_max (by linarith) h2) maxDouble_lt), ?_, ?_⟩
    · simp only [exLib]
      rw [if_neg (by omega), if_pos (by omega)]
      simp
    · refine (fl0_rel (le_trans ?_ h1)).trans ?_
      · rw [zpow_neg]; exact inv_le_one_of_one_le₀ (one_le_zpow₀ (by norm_num) (by norm_num))
      · gcongr; norm_num
  fact_inf n h := by simp only [exLib]; rw [if_neg (by omega), if_neg (by omega)]
  exp_zero _ := rfl
  sumLog_nil := rfl

example : FloatRange.cLm exLib 86 85 = fin false 0 :=
  C105_dropped exLib_accurate 86 85 (by norm_num) (by norm_num) (by norm_num) (by norm_num)

example : FloatRange.cLm exLib 170 0 = inf false := by
  simpa using C105_not_finite exLib_accurate 170 0 (by norm_num) le_rfl (by norm_num)

example := C105_accurate_negative exLib_accurate 84 (-84) (by norm_num) (by norm_num) (by norm_num)

example : FloatRange.cLm exLib 86 (-86) = inf false := by
  simpa using C105_not_finite_negative exLib_accurate 86 (-86) (by norm_num) (by norm_num) (by norm_num) (by norm_num)

example : FloatRange.radial exLib [⟨1, 0, (fin false 1, fin false 0), fin false 1, (fin false 1, fin false 0)⟩,
    ⟨100, -90, (fin false 0, fin false 0), fin false 1, (fin false 1, fin false 0)⟩] = nan :=
  C105_field_nan_negative exLib_accurate _ ⟨_, List.mem_cons_of_mem _ List.mem_cons_self, by norm_num, by norm_num, by norm_num, by norm_num⟩

example : FloatRange.cLm exLib 171 0 = nan := by
  simpa using C105_not_finite exLib_accurate 171 0 (by norm_num) le_rfl (by norm_num)

/-- A magnetogram with the rows (1, 0) and (90, 90) at a point. -/
private def exHigh : List FRow :=
  [⟨1, 0, (fin false 1, fin false 0), fin false 1, (fin false 1, fin false 0)⟩,
   ⟨90, 90, (fin false 3, fin false 1), fin false (2 ^ 600), (fin false 0, fin false 1)⟩]

private theorem exHigh_dbl : ∀ r ∈ exHigh, Spec.DblRow r := by
  have h3 : IsDouble 3 := ⟨3, 0, by norm_num, by norm_num, by norm_num, by simp⟩
  have h6 : IsDouble (2 ^ 600) := ⟨1, 600, by norm_num, by norm_num, by norm_num, by norm_cast⟩
  intro r hr
  simp only [exHigh, List.mem_cons, List.not_mem_nil, or_false] at hr
  rcases hr with rfl | rfl
  · exact ⟨isDouble_one, isDouble_zero, isDouble_one, isDouble_one, isDouble_zero⟩
  · exact ⟨h3, isDouble_one, h6, isDouble_zero, isDouble_one⟩

example : FloatRange.radial exLib exHigh = FloatRange.radial exLib (exHigh.take 1) := by
  have := C105_field_dropped exLib_accurate exHigh exHigh_dbl (by
    intro r hr _
    simp only [exHigh, List.mem_cons, List.not_mem_nil, or_false] at hr
    rcases hr with rfl | rfl <;> exact ⟨rfl, rfl, rfl, rfl, rfl⟩)
  rw [this]
  rfl

example : FloatRange.allTheta exLib [(1, 0, fin false 1, fin false 1), (180, 0, fin false 1, fin false 1)]
    = .error .assertion :=
  C105_pfss_raises exLib_accurate _ ⟨(180, 0, fin false 1, fin false 1), by simp, by norm_num, by norm_num⟩

end Verif
