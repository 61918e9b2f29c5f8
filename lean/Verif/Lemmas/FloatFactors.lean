import Verif.Model.FloatFactors
import Verif.Props.FloatPfss
import Verif.Props.FloatEnergy
import Mathlib.Analysis.Real.Pi.Bounds

/-!
# Rounding errors of the conversion factors
-/

set_option exponentiation.threshold 4000

namespace Verif
open Spec PyFloat FloatRange FloatError FloatField FloatPfss FloatFactors

/-- What is assumed of the functions the factors are computed with: square roots and reciprocals are within two units in the last
place, powers of numbers up to one half within a few, apart from an error far below the smallest part of one that counts. -/
structure Spec.GoodFactorLib (L : FactorLib) : Prop where
  sqrt : ∀ q : ℚ, IsDouble q → 0 < q → ∃ r : ℚ, 0 < r ∧ IsDouble r ∧ L.sqrt (fin false q) = fin false r ∧ |r ^ 2 - q| ≤ q / 2 ^ 51
  recip : ∀ (s : Bool) (q : ℚ), IsDouble q → 1 / 2 ^ 100 ≤ q → q ≤ 2 ^ 100 →
    ∃ r : ℚ, IsDouble r ∧ L.recip (fin s q) = fin s r ∧ |r * q - 1| ≤ 1 / 2 ^ 52
  pow_one : ∀ n : ℤ, 0 < n → L.pow (fin false 1) n = fin false 1
  pow_small : ∀ (q : ℚ) (n : ℕ), IsDouble q → 0 ≤ q → q ≤ 1 / 2 → 0 < n →
    ∃ r : ℚ, IsDouble r ∧ L.pow (fin false q) n = fin false r ∧ |r - q ^ n| ≤ q ^ n / 2 ^ 50 + 1 / 2 ^ 100

/-- The factor from a radial ZDI coefficient to the PFSS coefficient. -/
noncomputable def Spec.toPfss (l m : ℤ) : ℝ :=
  (if m % 2 = 0 then 1 else -1) * Real.sqrt ((2 * l + 1) / ((if m = 0 then 1 else 2) * (4 * Real.pi)))

/-- The tangential over the radial coefficient of the potential field with the source surface at three radii. -/
noncomputable def Spec.tangential (l : ℤ) : ℝ :=
  (l + 1) * (1 - (1 / 3) ^ (2 * l + 1)) / (l + 1 + l * (1 / 3) ^ (2 * l + 1))

namespace FloatFactors
variable {L : FactorLib}

theorem ap_sqrt (hL : GoodFactorLib L) {x : PyFloat} {v g : ℝ} (hx : Ap x v v g) (hv : 0 < v) (hg : g ≤ 3 / 2) :
    Ap (L.sqrt x) (Real.sqrt v) (Real.sqrt v) (g * w ^ 2) := by
  have hg1 := hx.one_le hv
  obtain ⟨⟨s, a, rfl, ha⟩, h1, h2⟩ := hx
  have hpos : (0 : ℝ) < ((fin s a).num : ℝ) := by
    have := (abs_le.1 h1).1
    nlinarith
  have hpos' : 0 < (fin s a).num := by exact_mod_cast hpos
  have ha0 := ha.nonneg
  have hs : s = false := by
    cases s
    · rfl
    · simp only [num, if_true] at hpos'; linarith
  subst hs
  simp only [num, Bool.false_eq_true, if_false] at h1 hpos'
  obtain ⟨r, hr0, hrd, er, hr⟩ := hL.sqrt a ha hpos'
  have hr' : |(r : ℝ) ^ 2 - a| ≤ a / 2 ^ 51 := by
    have := (Rat.cast_le (K := ℝ)).2 hr
    push_cast at this
    exact this
  have hs := Real.sqrt_pos.2 hv
  have hsq := Real.sq_sqrt hv.le
  set t := Real.sqrt v
  have hrp : (0 : ℝ) < r := by exact_mod_cast hr0
  rw [er]
  refine ⟨⟨false, r, rfl, hrd⟩, ?_, by rw [abs_of_pos hs]⟩
  simp only [num, Bool.false_eq_true, if_false]
  have hw2 : 1 + 1 / 2 ^ 51 ≤ w ^ 2 := by unfold w; norm_num
  have h3 : |(r : ℝ) ^ 2 - t ^ 2| ≤ (g * w ^ 2 - 1) * t ^ 2 := by
    rw [hsq]
    have h4 := abs_sub_le ((r : ℝ) ^ 2) a v
    have h5 : (a : ℝ) ≤ g * v := by have := (abs_le.1 h1).2; linarith
    have h6 : (a : ℝ) / 2 ^ 51 ≤ g * v / 2 ^ 51 := by gcongr
    have h7 : g * (1 + 1 / 2 ^ 51) * v ≤ g * w ^ 2 * v := by
      have : 0 ≤ g := by linarith
      gcongr
    nlinarith
  have e : (r : ℝ) ^ 2 - t ^ 2 = (r - t) * (r + t) := by ring
  rw [e, abs_mul, abs_of_pos (by linarith : (0 : ℝ) < r + t)] at h3
  have h8 : |(r : ℝ) - t| * t ≤ (g * w ^ 2 - 1) * t * t := by
    have : |(r : ℝ) - t| * t ≤ |(r : ℝ) - t| * (r + t) := mul_le_mul_of_nonneg_left (by linarith) (abs_nonneg _)
    nlinarith
  exact le_of_mul_le_mul_right h8 hs

theorem ap_nat {n : ℤ} (h0 : 0 ≤ n) (h : n ≤ 2 ^ 63) {M : ℝ} (hn : (n : ℝ) ≤ M) (hM : 1 ≤ M) (hM' : M ≤ 2 ^ 64) :
    Ap (ofInt n) n M w := by
  have hn0 : (0 : ℝ) ≤ n := by exact_mod_cast h0
  have := ap_ofMag (s := decide (n < 0)) (q := |(n : ℚ)|) (v := n) (M := M) (g := 1) (abs_nonneg _) (by
    have e : |(n : ℚ)| = n := abs_of_nonneg (by exact_mod_cast h0)
    rw [decide_eq_false (by omega), e]
    simp [num]) (by rwa [abs_of_nonneg hn0]) (low_le (i := 0) (by simpa using hM) (by norm_num))
    (le_high (by norm_num) (i := 64) (by exact_mod_cast hM') (by linarith) (by norm_num))
  rw [one_mul] at this
  exact this

theorem ap_fourPi : Ap fourPi (4 * Real.pi) (4 * Real.pi) w := by
  have h1 := Real.pi_gt_d20
  have h2 := Real.pi_lt_d20
  refine ⟨⟨_, _, rfl, 884279719003555, -46, by norm_num, by norm_num, by norm_num, by norm_num⟩, ?_,
    by rw [abs_of_pos (by positivity)]⟩
  simp only [fourPi, num, Bool.false_eq_true, if_false, w]
  push_cast
  rw [abs_le]
  norm_num at h1 h2 ⊢
  constructor <;> linarith

theorem w_pow_le {n : ℕ} (h : n ≤ 100) : w ^ n ≤ 1 + n / 2 ^ 51 ∧ w ^ n ≤ 11 / 10 := by
  have h1 := FloatEnergy.pow_w_err n (by omega)
  have hn : (n : ℝ) ≤ 100 := by exact_mod_cast h
  refine ⟨h1, h1.trans ?_⟩
  norm_num
  linarith

/-- The sign of the factor. -/
theorem ap_phase (m : ℤ) : Ap (ofInt (if m % 2 = 0 then 1 else -1)) (if m % 2 = 0 then 1 else -1) 1 1 := by
  have key : ∀ s : Bool, Ap (fin s 1) (if s then -1 else 1) 1 1 := by
    intro s
    have := Ap.exact (x := fin s 1) ⟨_, _, rfl, isDouble_one⟩ (M := 1) (by cases s <;> simp [num])
    cases s <;> simpa [num] using this
  have e : ∀ n : ℤ, |(n : ℚ)| = 1 → ofInt n = fin (decide (n < 0)) 1 := by
    intro n hn
    unfold ofInt
    rw [hn, ofMag_of_le zero_le_one isDouble_one.le_max, fl0_of_isDouble isDouble_one]
  split_ifs
  · rw [e 1 (by simp)]; exact key false
  · rw [e (-1) (by simp)]; exact key true

theorem ap_forward (hL : GoodFactorLib L) {l m : ℤ} (h0 : 0 ≤ l) (hl : l ≤ 2 ^ 62 - 1) :
    ∃ x, forward L l m = .ok x ∧ Ap x (toPfss l m) |toPfss l m| (w ^ 20) ∧ 1 / 2 ^ 6 ≤ |toPfss l m| ∧ |toPfss l m| ≤ 2 ^ 62 := by
  have hl0 : (0 : ℝ) ≤ l := by exact_mod_cast h0
  have hl' : (l : ℝ) ≤ 2 ^ 62 - 1 := by exact_mod_cast hl
  have hw := w_le
  have hw0 := w_pos
  have hw1 := one_le_w
  have hpi := Real.pi_gt_three
  have hpi' := Real.pi_lt_four
  refine ⟨_, by
    have e : sqrtInt L (2 * l + 1) = .ok (L.sqrt (ofInt (2 * l + 1))) := if_pos (by omega)
    unfold forward
    rw [e]
    rfl, ?_⟩
  -- the square roots
  set c : ℝ := if m = 0 then 1 else 2 with hc
  have hc1 : 1 ≤ c ∧ c ≤ 2 := by rw [hc]; split_ifs <;> norm_num
  have a1 := ap_nat (n := 2 * l + 1) (by omega) (by omega) (M := 2 * l + 1) (by push_cast; exact le_rfl) (by linarith) (by linarith)
  have a1' : Ap (L.sqrt (ofInt (2 * l + 1))) (Real.sqrt (2 * l + 1)) (Real.sqrt (2 * l + 1)) (w * w ^ 2) := by
    refine ap_sqrt hL ?_ (by positivity) (by linarith)
    convert a1 using 1
    push_cast; ring
  have a2 : Ap (L.sqrt (ofInt (-(if m = 0 then 1 else 0) + 2))) (Real.sqrt c) (Real.sqrt c) (w * w ^ 2) := by
    have ec : ((-(if m = 0 then 1 else 0) + 2 : ℤ) : ℝ) = c := by rw [hc]; split_ifs <;> norm_num
    refine ap_sqrt hL ?_ (by linarith) (by linarith)
    rw [← ec]
    refine ap_nat ?_ ?_ le_rfl ?_ ?_
    · split_ifs <;> norm_num
    · split_ifs <;> norm_num
    · rw [ec]; exact hc1.1
    · rw [ec]; linarith [hc1.2]
  have a3 := ap_sqrt hL ap_fourPi (by positivity) (by linarith)
  have sc1 : 1 ≤ Real.sqrt c := by rw [Real.one_le_sqrt]; exact hc1.1
  have sc2 : Real.sqrt c ≤ 2 := by rw [Real.sqrt_le_left (by norm_num)]; linarith [hc1.2]
  have sp1 : 1 ≤ Real.sqrt (4 * Real.pi) := by rw [Real.one_le_sqrt]; linarith
  have sp2 : Real.sqrt (4 * Real.pi) ≤ 4 := by rw [Real.sqrt_le_left (by norm_num)]; linarith
  have sl1 : 1 ≤ Real.sqrt (2 * l + 1) := by rw [Real.one_le_sqrt]; linarith
  have sl2 : Real.sqrt (2 * l + 1) ≤ 2 ^ 62 := by
    rw [Real.sqrt_le_left (by norm_num)]
    have : (2 : ℝ) * l + 1 ≤ 2 ^ 63 := by linarith
    refine this.trans (by norm_num)
  set S := Real.sqrt (2 * l + 1) with hS
  set C := Real.sqrt c with hC
  set P := Real.sqrt (4 * Real.pi) with hP
  set p : ℝ := if m % 2 = 0 then 1 else -1 with hp
  have hp1 : |p| = 1 := by rw [hp]; split_ifs <;> simp
  -- the denominator
  have b1 := (ap_phase m).mul a2 (low_le (i := 0) (by simpa using sc1) (by norm_num)) (by
    refine le_high ?_ (i := 1) (by rw [one_mul]; simpa using sc2) (by positivity) (by norm_num)
    have := (w_pow_le (n := 3) (by norm_num)).2
    calc 1 * (w * w ^ 2) = w ^ 3 := by ring
      _ ≤ 64 := by linarith)
  rw [one_mul, one_mul] at b1
  have b2 := b1.mul a3 (low_le (i := 0) (by
      rw [zpow_zero]; nlinarith) (by norm_num)) (by
    refine le_high ?_ (i := 3) (by
      have : C * P ≤ 2 * 4 := by gcongr
      refine this.trans (by norm_num)) (by positivity) (by norm_num)
    have := (w_pow_le (n := 7) (by norm_num)).2
    calc w * w ^ 2 * w * (w * w ^ 2) = w ^ 7 := by ring
      _ ≤ 64 := by linarith)
  have eD : |p * C * P| = C * P := by
    rw [abs_mul, abs_mul, hp1, one_mul, abs_of_pos (by linarith), abs_of_pos (by linarith)]
  have hD1 : 1 ≤ C * P := by nlinarith
  have hD2 : C * P ≤ 8 := by
    have : C * P ≤ 2 * 4 := by gcongr
    linarith
  have b3 : Ap (PyFloat.mul (PyFloat.mul (ofInt (if m % 2 = 0 then 1 else -1)) (L.sqrt (ofInt (-(if m = 0 then 1 else 0) + 2))))
      (L.sqrt fourPi)) (p * C * P) |p * C * P| (w ^ 8) := by
    rw [eD]
    convert b2 using 1
    ring
  have hDne : p * C * P ≠ 0 := by
    intro h; rw [h, abs_zero] at eD; linarith
  have eF : S / (p * C * P) = toPfss l m := by
    have hpp : p * p = 1 := by rw [hp]; split_ifs <;> norm_num
    have hp0 : p ≠ 0 := by intro h; rw [h] at hpp; norm_num at hpp
    have hpi : (1 : ℝ) / p = p := by field_simp; nlinarith
    unfold toPfss
    rw [Real.sqrt_div (by positivity), Real.sqrt_mul (by linarith), ← hS, ← hC, ← hP, ← hp]
    rw [show S / (p * C * P) = 1 / p * (S / (C * P)) by field_simp, hpi]
  have eA : |toPfss l m| = S / (C * P) := by rw [← eF, abs_div, eD, abs_of_pos (by linarith)]
  have q1 : 1 / 8 ≤ S / (C * P) := by
    rw [le_div_iff₀ (by linarith)]; linarith
  have q2 : S / (C * P) ≤ 2 ^ 62 := (div_le_self (by linarith) hD1).trans sl2
  have d := a1'.div b3 hDne (by
      have := one_le_pow_w 3
      calc (1 : ℝ) ≤ w ^ 3 := this
        _ = _ := by ring) (by linarith [(w_pow_le (n := 8) (by norm_num)).2]) (by
      rw [eD]; exact low_le (i := -3) (le_trans (by norm_num) q1) (by norm_num)) (by
      rw [eD]
      refine le_high ?_ (i := 62) (by exact_mod_cast q2) (by linarith) (by norm_num)
      have := (w_pow_le (n := 19) (by norm_num)).2
      calc w * w ^ 2 * (w ^ 8) ^ 2 = w ^ 19 := by ring
        _ ≤ 64 := by linarith)
  rw [eF, eD] at d
  rw [eA]
  refine ⟨?_, by linarith, q2⟩
  convert d using 1
  ring

theorem ap_recip (hL : GoodFactorLib L) {x : PyFloat} {v g : ℝ} (hx : Ap x v |v| g) (hv1 : 1 / 2 ^ 90 ≤ |v|) (hv2 : |v| ≤ 2 ^ 90)
    (hg : g ≤ 11 / 10) : Ap (L.recip x) (1 / v) |1 / v| (g ^ 2 * w) := by
  have hv0 : 0 < |v| := lt_of_lt_of_le (by norm_num) hv1
  have hv : v ≠ 0 := abs_pos.1 hv0
  have hg1 := hx.one_le hv0
  have key := quot_err (x := 1) (v := 1) (M := 1) (g := 1) (by norm_num) hx.err (by norm_num) hv hg1 (by linarith) le_rfl
  obtain ⟨⟨s, a, rfl, ha⟩, h1, h2⟩ := hx
  have hab : |((fin s a).num : ℝ)| = a := by
    have := num_abs s ha.nonneg
    exact_mod_cast this
  have k1 := abs_sub_abs_le_abs_sub ((fin s a).num : ℝ) v
  have k2 := abs_sub_abs_le_abs_sub v ((fin s a).num : ℝ)
  rw [abs_sub_comm] at k2
  rw [hab] at k1 k2
  have a1 : (1 : ℝ) / 2 ^ 100 ≤ a := by
    have : (9 / 10) * |v| ≤ a := by nlinarith
    have h3 : (1 : ℝ) / 2 ^ 100 ≤ 9 / 10 * (1 / 2 ^ 90) := by norm_num
    linarith
  have a2 : (a : ℝ) ≤ 2 ^ 100 := by
    have : a ≤ (11 / 10) * |v| := by nlinarith
    have h3 : 11 / 10 * (2 : ℝ) ^ 90 ≤ 2 ^ 100 := by norm_num
    linarith
  have a1' : (1 : ℚ) / 2 ^ 100 ≤ a := by
    have : (((1 : ℚ) / 2 ^ 100 : ℚ) : ℝ) ≤ a := by push_cast; exact a1
    exact_mod_cast this
  have a2' : a ≤ (2 : ℚ) ^ 100 := by exact_mod_cast a2
  obtain ⟨r, hrd, er, hr⟩ := hL.recip s a ha a1' a2'
  have apos : (0 : ℝ) < a := lt_of_lt_of_le (by positivity) a1
  have hr' : |(r : ℝ) - 1 / a| ≤ 1 / 2 ^ 52 * (1 / a) := by
    have h3 := (Rat.cast_le (K := ℝ)).2 hr
    push_cast at h3
    have e : (r : ℝ) - 1 / a = (r * a - 1) * (1 / a) := by field_simp
    rw [e, abs_mul, abs_of_pos (by positivity : (0 : ℝ) < 1 / a)]
    gcongr
  rw [er]
  refine ⟨⟨s, r, rfl, hrd⟩, ?_, le_rfl⟩
  have hs : |((fin s r).num : ℝ) - 1 / (fin s a).num| = |(r : ℝ) - 1 / a| := by
    cases s
    · simp [num]
    · simp only [num, if_true]
      push_cast
      rw [← abs_neg]
      congr 1
      field_simp
      ring
  have h4 := abs_sub_le ((fin s r).num : ℝ) (1 / (fin s a).num) (1 / v)
  rw [hs] at h4
  have h5 := key.2
  rw [one_mul] at h5
  have h6 : 1 / (a : ℝ) ≤ g ^ 2 * (1 / |v|) := by
    have := abs_sub_abs_le_abs_sub (1 / ((fin s a).num : ℝ)) (1 / v)
    rw [abs_div, abs_div, abs_one, hab] at this
    linarith
  rw [abs_div, abs_one]
  have e : (g ^ 2 * w - 1) * (1 / |v|) = 1 / 2 ^ 52 * (g ^ 2 * (1 / |v|)) + (g ^ 2 - 1) * (1 / |v|) := by unfold w; ring
  rw [e]
  have h7 : 1 / 2 ^ 52 * (1 / (a : ℝ)) ≤ 1 / 2 ^ 52 * (g ^ 2 * (1 / |v|)) := by gcongr
  linarith

theorem ap_inverse (hL : GoodFactorLib L) {l m : ℤ} (h0 : 0 ≤ l) (hl : l ≤ 2 ^ 62 - 1) :
    ∃ x, inverse L l m = .ok x ∧ Ap x (1 / toPfss l m) |1 / toPfss l m| (w ^ 41) := by
  obtain ⟨x, e, h1, h2, h3⟩ := ap_forward hL (m := m) h0 hl
  refine ⟨L.recip x, by unfold inverse; rw [e]; rfl, ?_⟩
  have := ap_recip hL h1 (le_trans (by norm_num) h2) (h3.trans (by norm_num)) (w_pow_le (n := 20) (by norm_num)).2
  convert this using 1
  ring

theorem near_pow {c d : ℝ} (hc : 0 ≤ c) (hc' : c ≤ 1 / 2) (hd : 0 ≤ d) (hd' : d ≤ 1 / 2) (n : ℕ) : |c ^ (n + 1) - d ^ (n + 1)| ≤ |c - d| := by
  induction n with
  | zero => simp
  | succ n ih =>
    have e : c ^ (n + 1 + 1) - d ^ (n + 1 + 1) = c * (c ^ (n + 1) - d ^ (n + 1)) + (c - d) * d ^ (n + 1) := by ring
    have h1 : d ^ (n + 1) ≤ 1 / 2 := by
      calc d ^ (n + 1) ≤ d ^ 1 := pow_le_pow_of_le_one hd (by linarith) (by omega)
        _ ≤ 1 / 2 := by simpa using hd'
    have h2 := abs_add_le (c * (c ^ (n + 1) - d ^ (n + 1))) ((c - d) * d ^ (n + 1))
    rw [abs_mul, abs_mul, abs_of_nonneg hc, abs_of_nonneg (pow_nonneg hd _)] at h2
    have h3 : c * |c ^ (n + 1) - d ^ (n + 1)| ≤ 1 / 2 * |c - d| := by gcongr
    have h4 : |c - d| * d ^ (n + 1) ≤ |c - d| * (1 / 2) := by gcongr
    rw [e]
    linarith

theorem ofInt_double {n : ℕ} (h : IsDouble (n : ℚ)) : ofInt n = fin false n := by
  unfold ofInt
  rw [decide_eq_false (by omega), abs_of_nonneg (by positivity)]
  simp only [Int.cast_natCast]
  rw [ofMag_of_le h.nonneg h.le_max, fl0_of_isDouble h]

theorem ap_beta (hL : GoodFactorLib L) {l : ℤ} (h0 : 0 ≤ l) (hl : l ≤ 2 ^ 62 - 1) :
    ∃ x, beta L l = .ok x ∧ Ap x (tangential l) |tangential l| (w ^ 47) ∧ 1 / 4 ≤ tangential l ∧ tangential l ≤ 1 := by
  have hl0 : (0 : ℝ) ≤ l := by exact_mod_cast h0
  have hl' : (l : ℝ) ≤ 2 ^ 62 - 1 := by exact_mod_cast hl
  have hw := w_le
  have hw0 := w_pos
  have hw1 := one_le_w
  have e1 : ofInt 1 = fin false 1 := by have := ofInt_double (n := 1) (by simpa using isDouble_one); simpa using this
  have d3 : IsDouble 3 := ⟨3, 0, by norm_num, by norm_num, by norm_num, by simp⟩
  have e3 : ofInt 3 = fin false 3 := by have := ofInt_double (n := 3) (by simpa using d3); simpa using this
  have m1 : PyFloat.mul (fin false 1) (fin false 1) = fin false 1 := by
    simp only [PyFloat.mul, mul_one, bne_self_eq_false]
    rw [ofMag_of_le zero_le_one isDouble_one.le_max, fl0_of_isDouble isDouble_one]
  have q1 : pyDiv (fin false 1) (fin false 1) = .ok (fin false 1) := by
    simp only [pyDiv, PyFloat.div, one_ne_zero, if_false, div_one, bne_self_eq_false]
    rw [ofMag_of_le zero_le_one isDouble_one.le_max, fl0_of_isDouble isDouble_one]
  have hmax : (1 : ℚ) / 3 ≤ maxDouble := le_trans (by norm_num) isDouble_one.le_max
  set τ : ℚ := fl0 (1 / 3) with hτ
  have dτ : IsDouble τ := fl0_isDouble _ (by norm_num) (lt_of_le_of_lt (fl0_le_max (by norm_num) hmax) maxDouble_lt)
  have q3 : pyDiv (fin false 1) (fin false 3) = .ok (fin false τ) := by
    have h3 : (3 : ℚ) ≠ 0 := by norm_num
    simp only [pyDiv, PyFloat.div, h3, if_false, bne_self_eq_false]
    rw [ofMag_of_le (by norm_num) hmax]
  have hτe : |τ - 1 / 3| ≤ 1 / 2 ^ 54 := by
    refine (fl0_rel (q := 1 / 3) ?_).trans (by norm_num)
    calc (2 : ℚ) ^ (-1022 : ℤ) ≤ 2 ^ (-2 : ℤ) := zpow_le_zpow_right₀ (by norm_num) (by norm_num)
      _ ≤ 1 / 3 := by norm_num
  have hτ1 : τ ≤ 1 / 2 := by have := (abs_le.1 hτe).2; norm_num at this ⊢; linarith
  have hτ0 := dτ.nonneg
  obtain ⟨k, rfl⟩ := Int.eq_ofNat_of_zero_le h0
  have en : 2 * (k : ℤ) + 1 = ((2 * k + 1 : ℕ) : ℤ) := by push_cast; ring
  obtain ⟨r, hrd, er, hr⟩ := hL.pow_small τ (2 * k + 1) dτ hτ0 hτ1 (by omega)
  set t : ℝ := (1 / 3) ^ (2 * k + 1) with ht
  have ht0 : 0 < t := by positivity
  have ht3 : t ≤ 1 / 3 := by
    calc t ≤ (1 / 3) ^ 1 := pow_le_pow_of_le_one (by norm_num) (by norm_num) (by omega)
      _ = 1 / 3 := by norm_num
  have ez : ((1 : ℝ) / 3) ^ (2 * ((k : ℤ)) + 1) = t := by rw [en, zpow_natCast]
  -- the power
  have ap : Ap (fin false r) t 1 (w ^ 4) := by
    refine ⟨⟨_, _, rfl, hrd⟩, ?_, by rw [abs_of_pos ht0]; linarith⟩
    simp only [num, Bool.false_eq_true, if_false]
    have hr' : |(r : ℝ) - (τ : ℝ) ^ (2 * k + 1)| ≤ (τ : ℝ) ^ (2 * k + 1) / 2 ^ 50 + 1 / 2 ^ 100 := by
      have := (Rat.cast_le (K := ℝ)).2 hr
      push_cast at this
      exact this
    have hτr : |(τ : ℝ) - 1 / 3| ≤ 1 / 2 ^ 54 := by
      have := (Rat.cast_le (K := ℝ)).2 hτe
      push_cast at this
      exact this
    have hτ0' : (0 : ℝ) ≤ τ := by exact_mod_cast hτ0
    have hτ1' : (τ : ℝ) ≤ 1 / 2 := by
      have := (Rat.cast_le (K := ℝ)).2 hτ1
      push_cast at this
      exact this
    have hp := near_pow hτ0' hτ1' (d := 1 / 3) (by norm_num) (by norm_num) (2 * k)
    rw [← ht] at hp
    have hp1 : (τ : ℝ) ^ (2 * k + 1) ≤ 1 / 2 := by
      calc (τ : ℝ) ^ (2 * k + 1) ≤ τ ^ 1 := pow_le_pow_of_le_one hτ0' (by linarith) (by omega)
        _ ≤ 1 / 2 := by simpa using hτ1'
    have h4 := abs_sub_le (r : ℝ) ((τ : ℝ) ^ (2 * k + 1)) t
    have h5 : (τ : ℝ) ^ (2 * k + 1) / 2 ^ 50 ≤ 1 / 2 / 2 ^ 50 := by gcongr
    have h6 : (1 : ℝ) + 4 / 2 ^ 52 ≤ w ^ 4 := by unfold w; norm_num
    have h7 : (1 : ℝ) / 2 / 2 ^ 50 + 1 / 2 ^ 100 + 1 / 2 ^ 54 ≤ 4 / 2 ^ 52 := by norm_num
    linarith
  have one : Ap (fin false 1) 1 1 1 := by
    have := Ap.exact (x := fin false 1) ⟨_, _, rfl, isDouble_one⟩ (M := 1) (by simp [num])
    simpa [num] using this
  have g4 := one_le_pow_w 4
  -- b
  have hb := (one.mono le_rfl g4 g4).sub ap (low_le (i := 1) (by norm_num) (by norm_num)) (le_high
    (by linarith [(w_pow_le (n := 4) (by norm_num)).2]) (i := 1) (by norm_num) (by norm_num) (by norm_num))
  have hb' : Ap (PyFloat.sub (fin false 1) (fin false r)) (1 - t) |1 - t| (w ^ 15) := by
    refine ⟨hb.fd, hb.err.trans ?_, le_rfl⟩
    rw [abs_of_pos (by linarith)]
    have e5 : w ^ 4 * w = w ^ 5 := by ring
    have e15 : w ^ 15 = (w ^ 5) ^ 3 := by ring
    have g5 := one_le_pow_w 5
    rw [e5, e15]
    set z := w ^ 5
    have : (z - 1) * 3 ≤ z ^ 3 - 1 := by nlinarith [sq_nonneg (z - 1)]
    nlinarith
  have hab := one.mul hb' (low_le (i := -1) (by rw [abs_of_pos (by linarith)]; norm_num; linarith) (by norm_num)) (le_high
    (by rw [one_mul]; linarith [(w_pow_le (n := 15) (by norm_num)).2]) (i := 0)
    (by rw [abs_of_pos (by linarith)]; norm_num; linarith) (by positivity) (by norm_num))
  rw [one_mul, one_mul, one_mul] at hab
  -- e
  have hK : (1 : ℝ) ≤ (k : ℝ) + 1 := by linarith [show (0 : ℝ) ≤ (k : ℝ) by positivity]
  have hk' : (k : ℝ) + 1 ≤ 2 ^ 62 := by push_cast at hl'; linarith
  have hK2 : (k : ℝ) + 1 ≤ 2 ^ (62 : ℤ) := by exact_mod_cast hk'
  have hml := (ap_nat (n := (k : ℤ)) h0 (by omega) (M := k + 1) (by push_cast; linarith) hK (by linarith)).mul ap
    (by rw [mul_one]; exact low_le (i := 0) (by simpa using hK) (by norm_num))
    (by
      rw [mul_one]
      refine le_high ?_ hK2 (by linarith) (by norm_num)
      have := (w_pow_le (n := 5) (by norm_num)).2
      calc w * w ^ 4 = w ^ 5 := by ring
        _ ≤ 64 := by linarith)
  have hl1 := ap_nat (n := (k : ℤ) + 1) (by omega) (by omega) (M := k + 1) (by push_cast; exact le_rfl) hK (by linarith)
  have g6 : w ≤ w * w ^ 4 * w := by
    have := one_le_pow_w 5
    calc w = w * 1 := (mul_one w).symm
      _ ≤ w * w ^ 5 := by gcongr
      _ = _ := by ring
  have he := (hl1.mono le_rfl (hw1.trans g6) g6).add hml (low_le (i := 0) (by rw [zpow_zero]; linarith) (by norm_num)) (by
    rw [mul_one, ← two_mul]
    refine le_high ?_ (up (i := 1) (by norm_num) hK2 (by linarith)) (by linarith) (by norm_num)
    have := (w_pow_le (n := 6) (by norm_num)).2
    calc w * w ^ 4 * w = w ^ 6 := by ring
      _ ≤ 64 := by linarith)
  set E : ℝ := k + 1 + k * t with hE
  have hE1 : (k : ℝ) + 1 ≤ E := by rw [hE]; have : 0 ≤ (k : ℝ) * t := by positivity
                                   linarith
  have hE2 : E ≤ 2 * (k + 1) := by
    have : (k : ℝ) * t ≤ k * 1 := by gcongr; linarith
    rw [hE]; linarith
  have aE : |E| = E := abs_of_pos (by linarith)
  have heE : Ap (PyFloat.add (ofInt (k + 1)) (PyFloat.mul (ofInt k) (fin false r))) E |E| (w ^ 14) := by
    have hv : (((k : ℤ) + 1 : ℤ) : ℝ) + ((k : ℤ) : ℝ) * t = E := by rw [hE]; push_cast; ring
    rw [hv] at he
    refine ⟨he.fd, he.err.trans ?_, le_rfl⟩
    rw [aE]
    have e7 : w * w ^ 4 * w * w = w ^ 7 := by ring
    have e14 : w ^ 14 = (w ^ 7) ^ 2 := by ring
    have g7 := one_le_pow_w 7
    rw [e7, e14]
    set z := w ^ 7
    have h1 : (z - 1) * ((k : ℝ) + 1 + (k + 1) * 1) ≤ (z - 1) * (2 * E) := mul_le_mul_of_nonneg_left (by linarith) (by linarith)
    have h2 : (z - 1) * 2 ≤ z ^ 2 - 1 := by nlinarith
    have h3 : (z - 1) * 2 * E ≤ (z ^ 2 - 1) * E := mul_le_mul_of_nonneg_right h2 (by linarith)
    linarith
  have hEne : E ≠ 0 := by linarith
  have invE : 2 ^ (-63 : ℤ) ≤ 1 / |E| := inv_low (by
    rw [aE]
    calc E ≤ 2 ^ (1 : ℤ) * (k + 1) := by rw [zpow_one]; exact hE2
      _ ≤ 2 ^ (1 + 62 : ℤ) := up le_rfl hK2 (by linarith)
      _ = 2 ^ (63 : ℤ) := by norm_num) hEne
  have invE' : 1 / |E| ≤ 1 := by rw [aE, div_le_one (by linarith)]; linarith
  have a1t : |1 - t| = 1 - t := abs_of_pos (by linarith)
  have hq := hab.div heE hEne (by
      have := one_le_pow_w 16
      calc (1 : ℝ) ≤ w ^ 16 := this
        _ = _ := by ring) (by linarith [(w_pow_le (n := 14) (by norm_num)).2]) (by
      rw [div_eq_mul_one_div]
      exact low_le (dn (i := -1) (by rw [a1t]; norm_num; linarith) invE) (by norm_num)) (by
      rw [div_eq_mul_one_div]
      refine le_high ?_ (i := 0) (by
        rw [zpow_zero]
        calc |1 - t| * (1 / |E|) ≤ 1 * 1 := by rw [a1t] at *; gcongr; linarith
          _ = 1 := by norm_num) (by positivity) (by norm_num)
      have := (w_pow_le (n := 44) (by norm_num)).2
      calc w ^ 15 * w * (w ^ 14) ^ 2 = w ^ 44 := by ring
        _ ≤ 64 := by linarith)
  have eV : (1 - t) / E * ((k : ℝ) + 1) = tangential k := by
    unfold tangential
    rw [ez, hE]; push_cast; field_simp
  have hV1 : 1 / 4 ≤ tangential k := by
    rw [← eV, div_mul_eq_mul_div, le_div_iff₀ (by linarith)]
    nlinarith
  have hV2 : tangential (k : ℤ) ≤ 1 := by
    rw [← eV, div_mul_eq_mul_div, div_le_one (by linarith)]
    nlinarith
  have eM : |1 - t| / |E| * ((k : ℝ) + 1) = |tangential k| := by
    rw [a1t, aE, eV, abs_of_pos (by linarith)]
  have hfin := hq.mul hl1 (by rw [eM, abs_of_pos (by linarith)]; exact low_le (i := -2) (by norm_num at hV1 ⊢; linarith) (by norm_num)) (by
    rw [eM, abs_of_pos (by linarith)]
    refine le_high ?_ (i := 0) (by simpa using hV2) (by linarith) (by norm_num)
    have := (w_pow_le (n := 46) (by norm_num)).2
    calc w ^ 15 * w * (w ^ 14) ^ 2 * w * w = w ^ 46 := by ring
      _ ≤ 64 := by linarith)
  have ev2 : (1 - t) / E * (((k : ℤ) + 1 : ℤ) : ℝ) = tangential k := by rw [← eV]; push_cast; ring
  rw [eM, ev2] at hfin
  have eden : ∃ s b, PyFloat.add (ofInt (k + 1)) (PyFloat.mul (ofInt k) (fin false r)) = fin s b ∧ b ≠ 0 := by
    obtain ⟨⟨s, b, eb, hb0⟩, h1, -⟩ := heE
    refine ⟨s, b, eb, ?_⟩
    rintro rfl
    rw [eb, num_zero] at h1
    push_cast at h1
    rw [zero_sub, abs_neg] at h1
    have := (w_pow_le (n := 14) (by norm_num)).2
    rw [aE] at h1
    nlinarith
  refine ⟨_, ?_, by convert hfin using 1; ring, hV1, hV2⟩
  have p1 : pyPow L (fin false 1) ((k : ℤ) + 2) = .ok (fin false 1) := by
    unfold pyPow; rw [hL.pow_one _ (by omega)]
  have p3 : pyPow L (fin false τ) (2 * (k : ℤ) + 1) = .ok (fin false r) := by
    unfold pyPow; rw [en, er]
  have pd : ∀ x, pyDiv x (PyFloat.add (ofInt (k + 1)) (PyFloat.mul (ofInt k) (fin false r)))
      = .ok (PyFloat.div x (PyFloat.add (ofInt (k + 1)) (PyFloat.mul (ofInt k) (fin false r)))) := by
    intro x
    obtain ⟨s, b, eb, hb0⟩ := eden
    rw [eb]
    simp only [pyDiv, hb0, if_false]
  unfold beta
  simp only [e1, e3, q1, q3]
  show (do
    let y ← pyPow L (fin false 1) ((k : ℤ) + 2)
    let y3 ← pyPow L (fin false τ) (2 * (k : ℤ) + 1)
    let y4 ← pyPow L (fin false τ) (2 * (k : ℤ) + 1)
    let value ← pyDiv (PyFloat.mul (PyFloat.mul (fin false 1) y) (PyFloat.sub (fin false 1) y3))
      (PyFloat.add (ofInt (k + 1)) (PyFloat.mul (ofInt k) y4))
    pure (PyFloat.mul value (ofInt (k + 1))) : Res PyFloat) = _
  rw [p1, p3]
  show (do
    let value ← pyDiv (PyFloat.mul (PyFloat.mul (fin false 1) (fin false 1)) (PyFloat.sub (fin false 1) (fin false r)))
      (PyFloat.add (ofInt (k + 1)) (PyFloat.mul (ofInt k) (fin false r)))
    pure (PyFloat.mul value (ofInt (k + 1))) : Res PyFloat) = _
  rw [pd, m1]
  rfl

end FloatFactors
end Verif
