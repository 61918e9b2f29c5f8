import Verif.Model.EnergyText
import Verif.Props.Energy
import Verif.Props.FloatCoords
import Verif.Props.ParkerText

/-!
# C111: the report that `energy` prints
-/

set_option exponentiation.threshold 4000

namespace Verif
open PyFloat Zdi

/-! ### Specification -/

/-- A non-negative decimal number, possibly with a power of ten behind `e`. -/
def Spec.readDecimal (t : Text) : Option ℚ := do
  let (ds, n) ← parseMantissa .asciiOnly (t.takeWhile fun c => c ≠ 'e')
  let e ← readE (t.dropWhile fun c => c ≠ 'e')
  pure ((natOfDigits ds : ℚ) * 10 ^ (e - n))

/-- A percentage: blanks, a number, the percent sign. -/
def Spec.readPercent (t : Text) : Option ℚ :=
  if t.getLast? = some '%' then readDecimal (t.dropLast.dropWhile fun c => c = ' ') else none

/-- One line of the report: the words before the percentage; the rows and the kinds of energy that are counted; the rows and
the kinds of which they are a part; the words after the percentage. -/
structure Spec.ReportLine where
  label : String
  rows : ℤ → ℤ → Bool
  part : List Comp
  among : ℤ → ℤ → Bool
  whole : List Comp
  unit : String

/-- What the report says, in order. -/
def Spec.printedShares : List ReportLine :=
  let all : ℤ → ℤ → Bool := fun _ _ => true
  let pol : List Comp := [.alpha, .beta]
  let tor : List Comp := [.gamma]
  let tot : List Comp := [.alpha, .beta, .gamma]
  [⟨"Radial   energy* ", all, [.alpha], all, tot, ""⟩,
   ⟨"Poloidal energy  ", all, pol, all, tot, ""⟩,
   ⟨"Toroidal energy  ", all, tor, all, tot, ""⟩,
   ⟨"poloidal l1 (dipole):     ", fun l _ => l = 1, pol, all, pol, " (% poloidal)"⟩,
   ⟨"poloidal l2 (quadrupole): ", fun l _ => l = 2, pol, all, pol, " (% poloidal)"⟩,
   ⟨"poloidal l3 (octopole):   ", fun l _ => l = 3, pol, all, pol, " (% poloidal)"⟩,
   ⟨"toroidal l1: ", fun l _ => l = 1, tor, all, tor, " (% toroidal)"⟩,
   ⟨"toroidal l2: ", fun l _ => l = 2, tor, all, tor, " (% toroidal)"⟩,
   ⟨"toroidal l3: ", fun l _ => l = 3, tor, all, tor, " (% toroidal)"⟩,
   ⟨"axisymmetric:          ", fun _ m => m = 0, tot, all, tot, " (% total)"⟩,
   ⟨"poloidal axisymmetric: ", fun _ m => m = 0, pol, all, pol, " (% poloidal)"⟩,
   ⟨"toroidal axisymmetric: ", fun _ m => m = 0, tor, all, tor, " (% toroidal)"⟩,
   ⟨"dipole axisymmetric:   ", fun l m => l = 1 ∧ m = 0, pol, fun l _ => l = 1, pol, " (% dipole)"⟩]

/-- The text shows the share that the line is about: to 0.05 per cent points (and a millionth for the arithmetic), or ` nan%`
if the whole is zero. -/
def Spec.ShowsShare (z : Zdi) (e : ReportLine) (t : Text) : Prop :=
  ∃ p, t = e.label.toList ++ p ++ e.unit.toList ∧
    if energyIn z e.among e.whole = 0 then p = " nan%".toList
    else ∃ v, readPercent p = some v ∧ |(v : ℝ) - 100 * (energyIn z e.rows e.part / energyIn z e.among e.whole)| ≤ 0.05 + 1e-6

/-- The text shows the number to three digits. -/
def Spec.ShowsTotal (E : ℝ) (t : Text) : Prop :=
  ∃ p v, t = "Total energy: ".toList ++ p ++ " (B^2)".toList ∧ readDecimal p = some v ∧ |(v : ℝ) - E| ≤ (1 / 200 + 1e-8) * E

/-- A row of the table: degree, order and three numbers. -/
def Spec.readRow (t : Text) : Option (ℤ × ℤ × ℚ × ℚ × ℚ) :=
  match pySplit t with
  | [a, b, c, d, e] => do
    let l ← parseInt .asciiOnly a
    let m ← parseInt .asciiOnly b
    let x ← readDecimal c
    let y ← readDecimal d
    let w ← readDecimal e
    pure (l, m, x, y, w)
  | _ => none

/-- A number that shows the part `A` of `B` to a millionth. -/
def Spec.ShowsPart (v : ℚ) (A B : ℝ) : Prop := |(v : ℝ) - A / B| ≤ 1e-6 * (A / B) + 1 / 10 ^ 300

/-- A double near a number that is not negative. -/
def Spec.Summed (ε : ℝ) (x : PyFloat) (E : ℝ) : Prop := ∃ q, x = fin false q ∧ IsDouble q ∧ |(q : ℝ) - E| ≤ ε * E

/-- The sums that numpy computes for a magnetogram, each with a relative error of at most 1e-9. -/
structure Spec.SumsOf (z : Zdi) (s : EnergyText.Sums) : Prop where
  alpha : Summed 1e-9 s.alpha (energyIn z (fun _ _ => true) [.alpha])
  beta : Summed 1e-9 s.beta (energyIn z (fun _ _ => true) [.beta])
  gamma : Summed 1e-9 s.gamma (energyIn z (fun _ _ => true) [.gamma])
  pol1 : Summed 1e-9 s.pol1 (energyIn z (fun l _ => l = 1) [.alpha, .beta])
  pol2 : Summed 1e-9 s.pol2 (energyIn z (fun l _ => l = 2) [.alpha, .beta])
  pol3 : Summed 1e-9 s.pol3 (energyIn z (fun l _ => l = 3) [.alpha, .beta])
  tor1 : Summed 1e-9 s.tor1 (energyIn z (fun l _ => l = 1) [.gamma])
  tor2 : Summed 1e-9 s.tor2 (energyIn z (fun l _ => l = 2) [.gamma])
  tor3 : Summed 1e-9 s.tor3 (energyIn z (fun l _ => l = 3) [.gamma])
  polAxi : Summed 1e-9 s.polAxi (energyIn z (fun _ m => m = 0) [.alpha, .beta])
  torAxi : Summed 1e-9 s.torAxi (energyIn z (fun _ m => m = 0) [.gamma])
  axial : List.Forall₂ (fun x r => Summed 1e-9 x (specEnergy .alpha r + specEnergy .beta r)) s.axial
    (z.filter fun r => decide (r.l = 1 ∧ r.m = 0))
  rows : List.Forall₂ (fun x r => x.1 = r.l ∧ x.2.1 = r.m ∧ Summed 1e-9 x.2.2.1 (specEnergy .alpha r) ∧
    Summed 1e-9 x.2.2.2.1 (specEnergy .beta r) ∧ Summed 1e-9 x.2.2.2.2 (specEnergy .gamma r)) s.rows z

open Spec

namespace EnergyText
open FloatCoords FloatSets

/-! ### Numbers -/

theorem tiny : (2 : ℚ) ^ (-1075 : ℤ) ≤ 1 / 10 ^ 20 := by
  calc (2 : ℚ) ^ (-1075 : ℤ) ≤ 2 ^ (-70 : ℤ) := zpow_le_zpow_right₀ (by norm_num) (by norm_num)
    _ ≤ _ := by norm_num

theorem thousand_le_max : (2 : ℚ) ^ 1001 ≤ maxDouble := by unfold maxDouble; norm_num

theorem summed_mono {ε δ : ℝ} {x : PyFloat} {E : ℝ} (h : Summed ε x E) (hE : 0 ≤ E) (hd : ε ≤ δ) : Summed δ x E := by
  obtain ⟨q, e, h1, h2⟩ := h
  exact ⟨q, e, h1, h2.trans (mul_le_mul_of_nonneg_right hd hE)⟩

theorem summed_add {ε : ℝ} {x y : PyFloat} {E F : ℝ} (hx : Summed ε x E) (hy : Summed ε y F) (hE : 0 ≤ E) (hF : 0 ≤ F)
    (hε0 : 0 ≤ ε) (hε : ε ≤ 1 / 10) (hm : E + F ≤ 2 ^ 1000) : Summed (ε + 1e-15) (PyFloat.add x y) (E + F) := by
  obtain ⟨p, rfl, hp, h1⟩ := hx
  obtain ⟨q, rfl, hq, h2⟩ := hy
  have hp0 := hp.nonneg
  have hq0 := hq.nonneg
  have a1 := abs_le.1 h1
  have a2 := abs_le.1 h2
  have s1 : ((p + q : ℚ) : ℝ) ≤ (1 + ε) * (E + F) := by push_cast; nlinarith
  have hle : p + q ≤ maxDouble := by
    refine le_trans ?_ thousand_le_max
    have : ((p + q : ℚ) : ℝ) ≤ ((2 ^ 1001 : ℚ) : ℝ) := by
      refine s1.trans ?_
      push_cast
      rw [show (2 : ℝ) ^ 1001 = 2 * 2 ^ 1000 by ring]
      have : 0 ≤ E + F := by linarith
      nlinarith
    exact_mod_cast this
  have hn := add_nearest (x := fin false p) (y := fin false q) ⟨_, _, rfl, hp⟩ ⟨_, _, rfl, hq⟩ (by
    simp only [PyFloat.num]; rw [abs_of_nonneg (by simpa using add_nonneg hp0 hq0)]; simpa using hle)
  rw [add_fin hp0 hq0 hle] at hn ⊢
  simp only [PyFloat.num, Bool.false_eq_true, if_false] at hn
  have hnum : ∀ {d : ℚ}, IsDouble d → IsNum d := fun {d} hd => by rw [IsNum, abs_of_nonneg hd.nonneg]; exact hd
  have hr := C108_sum_relative (hnum hp) (hnum hq) hn.2 (by rwa [abs_of_nonneg (add_nonneg hp0 hq0)])
  rw [abs_of_nonneg (add_nonneg hp0 hq0)] at hr
  have hr' : |((fl0 (p + q) : ℚ) : ℝ) - (p + q)| ≤ ((p : ℝ) + q) / 2 ^ 53 := by exact_mod_cast hr
  refine ⟨_, rfl, ?_, ?_⟩
  · have := hn.2.1
    rwa [IsNum, abs_of_nonneg (fl0_nonneg (add_nonneg hp0 hq0))] at this
  · push_cast at s1
    have a3 := abs_le.1 hr'
    have h0 : 0 ≤ E + F := by linarith
    have h4 : ((p : ℝ) + q) / 2 ^ 53 ≤ 1e-15 * (E + F) := by
      rw [div_le_iff₀ (by norm_num)]
      nlinarith
    rw [abs_le]
    constructor <;> nlinarith

/-- The quotient of two sums, times 100. -/
theorem ratio {x y : PyFloat} {A B : ℝ} (hx : Summed 1.1e-9 x A) (hy : Summed 1.1e-9 y B) (hA : 0 ≤ A) (hAB : A ≤ B)
    (hB : B ≠ 0) : ∃ r, mul (div x y) (fin false 100) = fin false r ∧ 0 ≤ r ∧ |(r : ℝ) - 100 * (A / B)| ≤ 5e-7 := by
  obtain ⟨p, rfl, hp, h1⟩ := hx
  obtain ⟨q, rfl, hq, h2⟩ := hy
  have hB0 : 0 < B := lt_of_le_of_ne (hA.trans hAB) (Ne.symm hB)
  have a1 := abs_le.1 h1
  have a2 := abs_le.1 h2
  have hp0 := hp.nonneg
  have hq1 : (1 - 1.1e-9) * B ≤ (q : ℝ) := by linarith
  have hq0 : (0 : ℝ) < q := lt_of_lt_of_le (by norm_num; exact hB0) hq1
  have hq0' : 0 < q := by exact_mod_cast hq0
  have hpq : (p : ℝ) / q ≤ 1.01 := by
    rw [div_le_iff₀ hq0]
    nlinarith
  have hpq' : p / q ≤ 1.01 := by
    have : ((p / q : ℚ) : ℝ) ≤ ((1.01 : ℚ) : ℝ) := by push_cast; norm_num at hpq ⊢; exact hpq
    exact_mod_cast this
  have hpq0 : 0 ≤ p / q := div_nonneg hp0 hq0'.le
  have hmax : (1000 : ℚ) ≤ maxDouble := le_trans (by norm_num) thousand_le_max
  have e1 : div (fin false p) (fin false q) = fin false (fl0 (p / q)) := by
    simp only [PyFloat.div, if_neg hq0'.ne', bne_self_eq_false]
    exact ofMag_of_le hpq0 (hpq'.trans (le_trans (by norm_num) hmax))
  have b1 := fl0_err hpq0
  have hr0 := fl0_nonneg hpq0
  have c1 := abs_le.1 b1
  have t := tiny
  generalize (2 : ℚ) ^ (-1075 : ℤ) = τ at *
  have hr1 : fl0 (p / q) ≤ 1.02 := by
    have : p / q / 2 ^ 53 ≤ 1 / 10 ^ 15 := by
      rw [div_le_iff₀ (by norm_num)]; norm_num; linarith
    norm_num at *
    linarith
  set r := fl0 (p / q) with hr
  have e2 : mul (fin false r) (fin false 100) = fin false (fl0 (r * 100)) := by
    simp only [PyFloat.mul, bne_self_eq_false]
    exact ofMag_of_le (by positivity) (by linarith)
  have b2 := fl0_err (q := r * 100) (by positivity)
  have hw : |fl0 (r * 100) - p / q * 100| ≤ 1 / 10 ^ 10 := by
    have t' := tiny
    generalize (2 : ℚ) ^ (-1075 : ℤ) = τ' at *
    have d1 : r * 100 / 2 ^ 53 ≤ 1 / 10 ^ 12 := by
      rw [div_le_iff₀ (by norm_num)]; norm_num at *; linarith
    have d2 : p / q / 2 ^ 53 ≤ 1 / 10 ^ 14 := by
      rw [div_le_iff₀ (by norm_num)]; norm_num at *; linarith
    have c2 := abs_le.1 b2
    rw [abs_le]
    norm_num at *
    constructor <;> linarith
  refine ⟨_, by rw [e1, e2], fl0_nonneg (by positivity), ?_⟩
  have hw' : |((fl0 (r * 100) : ℚ) : ℝ) - p / q * 100| ≤ 1 / 10 ^ 10 := by
    have := (Rat.cast_le (K := ℝ)).2 hw
    push_cast at this
    exact this
  have hd : |(p : ℝ) / q - A / B| ≤ 3e-9 := by
    rw [div_sub_div _ _ hq0.ne' hB, abs_div, abs_of_pos (mul_pos hq0 hB0), div_le_iff₀ (mul_pos hq0 hB0)]
    have e : (p : ℝ) * B - q * A = (p - A) * B - A * (q - B) := by ring
    rw [e]
    refine (abs_sub _ _).trans ?_
    rw [abs_mul, abs_mul, abs_of_pos hB0, abs_of_nonneg hA]
    have f1 : |(p : ℝ) - A| * B ≤ 1.1e-9 * A * B := mul_le_mul_of_nonneg_right h1 hB0.le
    have f2 : A * |(q : ℝ) - B| ≤ A * (1.1e-9 * B) := mul_le_mul_of_nonneg_left h2 hA
    have f3 : A * B ≤ B * B := mul_le_mul_of_nonneg_right hAB hB0.le
    have f4 : (1 - 1.1e-9) * B * B ≤ q * B := mul_le_mul_of_nonneg_right hq1 hB0.le
    nlinarith
  have g1 := abs_le.1 hw'
  have g2 := abs_le.1 hd
  rw [abs_le]
  norm_num at *
  constructor <;> linarith

theorem ratio_zero {x y : PyFloat} {ε A B : ℝ} (hx : Summed ε x A) (hy : Summed ε y B) (hA : 0 ≤ A) (hAB : A ≤ B)
    (hB : B = 0) : div x y = nan := by
  obtain rfl : A = 0 := by linarith
  obtain ⟨p, rfl, -, h1⟩ := hx
  obtain ⟨q, rfl, -, h2⟩ := hy
  subst hB
  simp only [sub_zero, mul_zero, abs_nonpos_iff, Rat.cast_eq_zero] at h1 h2
  rw [h1, h2]
  rfl

theorem fl0_mono {p q : ℚ} (hp : 0 ≤ p) (h : p ≤ q) (hq : q ≤ maxDouble) : fl0 p ≤ fl0 q := by
  rcases hp.eq_or_lt with rfl | hp
  · rw [fl0_zero]; exact fl0_nonneg h
  have hq0 : 0 < q := lt_of_lt_of_le hp h
  have dp : IsDouble (fl0 p) := fl0_isDouble p hp.le (lt_of_le_of_lt (fl0_le_max hp (h.trans hq)) maxDouble_lt)
  have dq : IsDouble (fl0 q) := fl0_isDouble q hq0.le (lt_of_le_of_lt (fl0_le_max hq0 hq) maxDouble_lt)
  by_contra hc
  rw [not_le] at hc
  have hlt : p < q := lt_of_le_of_ne h (by rintro rfl; exact lt_irrefl _ hc)
  have h1 : fl0 q < p := by
    by_contra h1
    rw [not_lt] at h1
    exact absurd (fl0_le dq hp.le h1) (not_le.2 hc)
  have h2 : q < fl0 p := by
    by_contra h2
    rw [not_lt] at h2
    exact absurd (le_fl0 dp hq0 h2) (not_le.2 hc)
  have h3 := fl0_nearest hp dq
  have h4 := fl0_nearest hq0 dp
  rw [abs_of_pos (by linarith), abs_of_neg (by linarith)] at h3
  rw [abs_of_neg (by linarith), abs_of_pos (by linarith)] at h4
  linarith

/-- The percentage before it is printed. -/
theorem hundred_form {p q : ℚ} (hp : 0 ≤ p) (hq : 0 < q) (h : p / q ≤ 2) :
    mul (div (fin false p) (fin false q)) (fin false 100) = fin false (fl0 (fl0 (p / q) * 100)) ∧ fl0 (p / q) ≤ 2 := by
  have hmax : (1000 : ℚ) ≤ maxDouble := le_trans (by norm_num) thousand_le_max
  have h0 : 0 ≤ p / q := div_nonneg hp hq.le
  have h1 : fl0 (p / q) ≤ 2 := fl0_le FloatRange.isDouble_two h0 h
  have h2 := fl0_nonneg h0
  refine ⟨?_, h1⟩
  have e1 : div (fin false p) (fin false q) = fin false (fl0 (p / q)) := by
    simp only [PyFloat.div, if_neg hq.ne', bne_self_eq_false]
    exact ofMag_of_le h0 (by linarith)
  rw [e1]
  simp only [PyFloat.mul, bne_self_eq_false]
  exact ofMag_of_le (by positivity) (by linarith)

theorem hundred_mono {p p' q : ℚ} (hp : 0 ≤ p) (hpp : p ≤ p') (hq : 0 < q) (h : p' / q ≤ 2) :
    fl0 (fl0 (p / q) * 100) ≤ fl0 (fl0 (p' / q) * 100) := by
  have hmax : (1000 : ℚ) ≤ maxDouble := le_trans (by norm_num) thousand_le_max
  have hp' : 0 ≤ p' := hp.trans hpp
  have h1 : p / q ≤ p' / q := div_le_div_of_nonneg_right hpp hq.le
  have h2 := fl0_mono (div_nonneg hp hq.le) h1 (by linarith)
  have h3 := fl0_nonneg (div_nonneg hp hq.le)
  have h4 := (hundred_form hp' hq h).2
  exact fl0_mono (by positivity) (by linarith) (by linarith)

theorem isDouble_hundred : IsDouble 100 := ⟨100, 0, by norm_num, by norm_num, by norm_num, by norm_num⟩

theorem hundred_le {p q : ℚ} (hp : 0 ≤ p) (hq : 0 < q) (h : p ≤ q) : fl0 (fl0 (p / q) * 100) ≤ 100 := by
  have h1 : p / q ≤ 1 := (div_le_one hq).2 h
  have h0 : 0 ≤ p / q := div_nonneg hp hq.le
  have h2 : fl0 (p / q) ≤ 1 := fl0_le FloatRange.isDouble_one h0 h1
  have h3 := fl0_nonneg h0
  exact fl0_le isDouble_hundred (by positivity) (by linarith)

theorem tiny_real : (((2 : ℚ) ^ (-1075 : ℤ) : ℚ) : ℝ) ≤ 1 / 10 ^ 310 := by
  have : (2 : ℚ) ^ (-1075 : ℤ) ≤ 1 / 10 ^ 310 := by
    rw [zpow_neg, ← one_div]
    apply one_div_le_one_div_of_le (by positivity)
    norm_num
  have := (Rat.cast_le (K := ℝ)).2 this
  refine this.trans (le_of_eq ?_)
  push_cast
  rfl

theorem part_step {u w r v τ ρ : ℝ} (hu : 0 ≤ u) (g : |w - u| ≤ 3e-9 * u) (h1 : |r - w| ≤ w / 2 ^ 53 + τ)
    (h2 : |v - r| ≤ 5 / 10 ^ 7 * r) (ht : τ ≤ 1 / 2 * ρ) (hρ : 0 ≤ ρ) : |v - u| ≤ 1e-6 * u + ρ := by
  rw [abs_le] at *
  norm_num at *
  constructor <;> linarith

/-- The share of one sum in another in scientific notation. -/
theorem part {x y : PyFloat} {A B : ℝ} (hx : Summed 1.1e-9 x A) (hy : Summed 1.1e-9 y B) (hA : 0 ≤ A) (hAB : A ≤ B)
    (hB : B ≠ 0) : ∃ r, div x y = fin false r ∧ 0 ≤ r ∧ ShowsPart (decVal (dec7 r)) A B := by
  obtain ⟨p, rfl, hp, h1⟩ := hx
  obtain ⟨q, rfl, hq, h2⟩ := hy
  have hB0 : 0 < B := lt_of_le_of_ne (hA.trans hAB) (Ne.symm hB)
  have a1 := abs_le.1 h1
  have a2 := abs_le.1 h2
  have hp0 := hp.nonneg
  have hq1 : (1 - 1.1e-9) * B ≤ (q : ℝ) := by linarith
  have hq0 : (0 : ℝ) < q := lt_of_lt_of_le (by norm_num; exact hB0) hq1
  have hq0' : 0 < q := by exact_mod_cast hq0
  have hd : |(p : ℝ) / q - A / B| ≤ 3e-9 * (A / B) := by
    rw [div_sub_div _ _ hq0.ne' hB, abs_div, abs_of_pos (mul_pos hq0 hB0), div_le_iff₀ (mul_pos hq0 hB0)]
    have e : (p : ℝ) * B - q * A = (p - A) * B - A * (q - B) := by ring
    have e' : 3e-9 * (A / B) * (q * B) = 3e-9 * A * q := by field_simp
    rw [e, e']
    refine (abs_sub _ _).trans ?_
    rw [abs_mul, abs_mul, abs_of_pos hB0, abs_of_nonneg hA]
    have f1 : |(p : ℝ) - A| * B ≤ 1.1e-9 * A * B := mul_le_mul_of_nonneg_right h1 hB0.le
    have f2 : A * |(q : ℝ) - B| ≤ A * (1.1e-9 * B) := mul_le_mul_of_nonneg_left h2 hA
    have f4 : A * ((1 - 1.1e-9) * B) ≤ A * q := mul_le_mul_of_nonneg_left hq1 hA
    have f5 : 0 ≤ A * B := mul_nonneg hA hB0.le
    nlinarith
  have hAB1 : A / B ≤ 1 := (div_le_one hB0).2 hAB
  have hAB0 : 0 ≤ A / B := div_nonneg hA hB0.le
  have g := abs_le.1 hd
  have hpq' : p / q ≤ 2 := by
    have : ((p / q : ℚ) : ℝ) ≤ ((2 : ℚ) : ℝ) := by push_cast; norm_num at *; linarith
    exact_mod_cast this
  have hpq0 : 0 ≤ p / q := div_nonneg hp0 hq0'.le
  have hmax : (1000 : ℚ) ≤ maxDouble := le_trans (by norm_num) thousand_le_max
  have e1 : div (fin false p) (fin false q) = fin false (fl0 (p / q)) := by
    simp only [PyFloat.div, if_neg hq0'.ne', bne_self_eq_false]
    exact ofMag_of_le hpq0 (by linarith)
  have hr0 := fl0_nonneg hpq0
  have b1 : |((fl0 (p / q) : ℚ) : ℝ) - p / q| ≤ (p : ℝ) / q / 2 ^ 53 + ((2 ^ (-1075 : ℤ) : ℚ) : ℝ) := by
    have := (Rat.cast_le (K := ℝ)).2 (fl0_err hpq0)
    rw [Rat.cast_add, Rat.cast_abs] at this
    push_cast at this ⊢
    exact this
  have t := tiny_real
  generalize (((2 : ℚ) ^ (-1075 : ℤ) : ℚ) : ℝ) = τ at *
  have b2 : |((decVal (dec7 (fl0 (p / q))) : ℚ) : ℝ) - fl0 (p / q)| ≤ 5 / 10 ^ 7 * (fl0 (p / q) : ℚ) := by
    have := (Rat.cast_le (K := ℝ)).2 (dec7_rel hr0)
    push_cast at this ⊢
    exact this
  refine ⟨_, e1, hr0, ?_⟩
  exact part_step hAB0 hd b1 b2 (t.trans (by norm_num)) (by positivity)

/-! ### Texts -/

theorem mant (as fs : List ℕ) (ha : as ≠ []) (hf : fs ≠ []) (da : ∀ d ∈ as, d < 10) (df : ∀ d ∈ fs, d < 10) :
    parseMantissa .asciiOnly (as.map digitChar ++ '.' :: fs.map digitChar) = some (as ++ fs, fs.length) := by
  have hp : ∀ c ∈ as.map digitChar, (fun c => decide (c ≠ '.')) c = true := by
    intro c hc
    obtain ⟨d, hd, rfl⟩ := List.mem_map.1 hc
    simp [(digitChar_ne d (da d hd)).2.2.2.1]
  have t1 : (as.map digitChar ++ '.' :: fs.map digitChar).takeWhile (fun c => c ≠ '.') = as.map digitChar := by
    rw [List.takeWhile_append_of_pos hp]; simp
  have t2 : (as.map digitChar ++ '.' :: fs.map digitChar).dropWhile (fun c => c ≠ '.') = '.' :: fs.map digitChar := by
    rw [List.dropWhile_append_of_pos hp]; simp
  obtain ⟨f, fr, rfl⟩ := List.exists_cons_of_ne_nil hf
  have h1 := digitRun_map .asciiOnly _ hf df
  have h2 := digitRun_map .asciiOnly _ ha da
  have hne : as.map digitChar ≠ [] := by simpa using ha
  unfold parseMantissa
  simp only [t1, t2]
  rw [List.map_cons] at h1 ⊢
  simp only [h1, h2, if_neg hne]
  rfl

theorem digit_e : ∀ d < 10, digitChar d ≠ 'e' ∧ digitChar d ≠ ' ' := by decide

theorem readDecimal_of {body rest : Text} {ds : List ℕ} {n : ℕ} {e : ℤ} (hb : 'e' ∉ body)
    (h : parseMantissa .asciiOnly body = some (ds, n)) (hr : rest = [] ∧ e = 0 ∨ rest = 'e' :: expText e) :
    readDecimal (body ++ rest) = some ((natOfDigits ds : ℚ) * 10 ^ (e - n)) := by
  have hE : ∀ c ∈ body, (fun c => decide (c ≠ 'e')) c = true := by
    intro c hc
    simp only [ne_eq, decide_not, Bool.not_eq_eq_eq_not, Bool.not_true, decide_eq_false_iff_not]
    rintro rfl
    exact hb hc
  have t1 : (body ++ rest).takeWhile (fun c => c ≠ 'e') = body := by
    rw [List.takeWhile_append_of_pos hE]
    rcases hr with ⟨rfl, -⟩ | rfl <;> simp
  have t2 : (body ++ rest).dropWhile (fun c => c ≠ 'e') = rest := by
    rw [List.dropWhile_append_of_pos hE]
    rcases hr with ⟨rfl, -⟩ | rfl <;> simp
  have hx : readE rest = some e := by
    rw [readE]
    rcases hr with ⟨rfl, rfl⟩ | rfl
    · rfl
    · rw [if_neg (by simp), List.tail_cons, parseInt_expText]
  unfold readDecimal
  rw [t1, t2, h, hx]
  rfl

theorem point_chars {as fs : List ℕ} (da : ∀ d ∈ as, d < 10) (df : ∀ d ∈ fs, d < 10) :
    'e' ∉ as.map digitChar ++ '.' :: fs.map digitChar := by
  intro h
  simp only [List.mem_append, List.mem_cons, List.mem_map] at h
  rcases h with ⟨d, hd, h⟩ | h | ⟨d, hd, h⟩
  · exact (digit_e d (da d hd)).1 h
  · exact absurd h (by decide)
  · exact (digit_e d (df d hd)).1 h

theorem readPercent_pad (t : Text) (c : Char) (r : Text) (ht : t = c :: r) (hc : c ≠ ' ') :
    readPercent (padLeft 5 (t ++ ['%'])) = readDecimal t := by
  have h : padLeft 5 (t ++ ['%']) = List.replicate (5 - (t ++ ['%']).length) ' ' ++ t ++ ['%'] := by
    rw [padLeft, List.append_assoc]
  unfold readPercent
  rw [h, if_pos (by rw [List.getLast?_append]; rfl), List.dropLast_concat,
    List.dropWhile_append_of_pos (by intro a ha; simp [List.eq_of_mem_replicate ha]), ht,
    List.dropWhile_cons_of_neg (by simpa using hc)]

/-- A percentage as it is read. -/
theorem percent_read {x : PyFloat} {r : ℚ} (h : mul x (fin false 100) = fin false r) (hr : 0 ≤ r) :
    readPercent (percent x) = some ((rhe (r * 10) : ℚ) / 10) := by
  have h0 : 0 ≤ rhe (r * 10) := rhe_nonneg (by positivity)
  obtain ⟨n, hn⟩ := Int.eq_ofNat_of_zero_le h0
  obtain ⟨as, ea, na, da, va⟩ := natText_spec (n / 10)
  have df : ∀ d ∈ [n % 10], d < 10 := by
    intro d hd; rw [List.mem_singleton] at hd; omega
  have hm := mant as [n % 10] na (by simp) da df
  obtain ⟨a, ar, rfl⟩ := List.exists_cons_of_ne_nil na
  have e : percent x = padLeft 5 (((a :: ar).map digitChar ++ '.' :: [n % 10].map digitChar) ++ ['%']) := by
    unfold percent
    rw [h]
    simp only [hn, Int.ofNat_eq_natCast, Int.toNat_natCast, ea, signText, Bool.false_eq_true, if_false, List.nil_append]
    simp
  rw [e, readPercent_pad _ (digitChar a) _ (by rw [List.map_cons, List.cons_append]) (digit_e a (da a (by simp))).2]
  have := readDecimal_of (rest := []) (e := 0) (point_chars da df) hm (.inl ⟨rfl, rfl⟩)
  rw [List.append_nil] at this
  rw [this, natOfDigits_append, va, hn]
  congr 1
  have hd : ((n / 10 : ℕ) : ℚ) * 10 + ((n % 10 : ℕ) : ℚ) = n := by
    have := Nat.div_add_mod' n 10
    exact_mod_cast this
  simp only [natOfDigits, List.foldl_cons, List.foldl_nil, List.length_singleton, Int.ofNat_eq_natCast, Int.cast_natCast]
  push_cast
  norm_num
  rw [← hd]
  push_cast
  ring

theorem percent_nan {x : PyFloat} (h : x = nan) : percent x = " nan%".toList := by subst h; rfl

/-- The share of one sum in another as it is printed. -/
theorem percent_share {x y : PyFloat} {A B : ℝ} (hx : Summed 1.1e-9 x A) (hy : Summed 1.1e-9 y B) (hA : 0 ≤ A) (hAB : A ≤ B) :
    if B = 0 then percent (div x y) = " nan%".toList
    else ∃ v, readPercent (percent (div x y)) = some v ∧ |(v : ℝ) - 100 * (A / B)| ≤ 0.05 + 1e-6 := by
  split_ifs with hB
  · exact percent_nan (ratio_zero hx hy hA hAB hB)
  · obtain ⟨r, e, h0, h⟩ := ratio hx hy hA hAB hB
    refine ⟨_, percent_read e h0, ?_⟩
    have h1 : |((r : ℝ) * 10) - (rhe (r * 10) : ℝ)| ≤ 1 / 2 := by
      have := (Rat.cast_le (K := ℝ)).2 (rhe_abs_le (r * 10))
      push_cast at this
      exact this
    push_cast
    rw [abs_le] at *
    norm_num at *
    constructor <;> linarith

/-- The three-digit form as it is read. -/
theorem general_read {q : ℚ} (hq : 0 ≤ q) : readDecimal (general (fin false q)) = some (Label.val (Label.dec3 q)) := by
  obtain ⟨r1, r2⟩ := Label.dec3_range' hq
  obtain ⟨m, k, hmk⟩ : ∃ m k, Label.dec3 q = (m, k) := ⟨_, _, rfl⟩
  rw [hmk] at r1 r2 ⊢
  simp only at r1 r2
  obtain ⟨n, rfl⟩ := Int.eq_ofNat_of_zero_le r1
  have chars : ∀ i w f : ℕ, f < 10 ^ w → 'e' ∉ natText i ++ Label.frac (fixedDigits w f) := by
    intro i w f hf hc
    obtain ⟨-, -, -, -, h3⟩ := Label.mantissa .asciiOnly i w f hf
    rcases h3 _ hc with h | ⟨d, hd, h⟩
    · exact absurd h (by decide)
    · exact (digit_e d hd).1 h.symm
  have val10 : ∀ (i w f : ℕ) (ds : List ℕ) (c : ℕ) (e : ℤ), (natOfDigits ds : ℚ) = (i * 10 ^ w + f) / 10 ^ w * 10 ^ c →
      (natOfDigits ds : ℚ) * 10 ^ (e - c) = (i * 10 ^ w + f) / 10 ^ w * 10 ^ e := by
    intro i w f ds c e h
    have : (10 : ℚ) ^ c ≠ 0 := by positivity
    rw [h, zpow_sub₀ (by norm_num), zpow_natCast]
    field_simp
  have split : ∀ w : ℕ, ((n / 10 ^ w : ℕ) : ℚ) * 10 ^ w + ((n % 10 ^ w : ℕ) : ℚ) = n := by
    intro w
    have := Nat.div_add_mod' n (10 ^ w)
    exact_mod_cast this
  unfold general Label.fmtG
  simp only [hmk, Label.sign, Int.ofNat_eq_natCast, Int.toNat_natCast, Bool.false_eq_true, if_false]
  split_ifs with h
  · have hf : n % 10 ^ (2 - k).toNat < 10 ^ (2 - k).toNat := Nat.mod_lt _ (by positivity)
    obtain ⟨ds, c, h1, h2, -⟩ := Label.mantissa .asciiOnly (n / 10 ^ (2 - k).toNat) _ _ hf
    have := readDecimal_of (rest := []) (e := 0) (chars _ _ _ hf) h1 (.inl ⟨rfl, rfl⟩)
    rw [List.append_nil] at this
    show readDecimal (natText _ ++ _) = _
    rw [this, val10 _ _ _ _ _ _ h2, split, Label.val, zpow_zero, mul_one]
    congr 1
    simp only [Int.cast_natCast]
    rw [div_eq_mul_inv, ← zpow_natCast, ← zpow_neg]
    congr 2
    omega
  · have hf : n % 10 ^ 2 < 10 ^ 2 := Nat.mod_lt _ (by positivity)
    obtain ⟨ds, c, h1, h2, -⟩ := Label.mantissa .asciiOnly (n / 10 ^ 2) _ _ hf
    have := readDecimal_of (rest := 'e' :: expText k) (e := k) (chars _ _ _ hf) h1 (.inr rfl)
    show readDecimal (natText _ ++ _ ++ _) = _
    rw [this, val10 _ _ _ _ _ _ h2, split, Label.val]
    congr 1
    simp only [Int.cast_natCast]
    rw [zpow_sub₀ (by norm_num)]
    norm_num
    ring

/-- A number in scientific notation as it is read. -/
theorem fmtE_read {q : ℚ} (hq : 0 ≤ q) : readDecimal (fmtE (fin false q)) = some (decVal (dec7 q)) := by
  obtain ⟨r1, r2⟩ := dec7_range' hq
  obtain ⟨m, k, hmk⟩ : ∃ m k, dec7 q = (m, k) := ⟨_, _, rfl⟩
  rw [hmk] at r1 r2 ⊢
  simp only at r1 r2
  obtain ⟨n, rfl⟩ := Int.eq_ofNat_of_zero_le r1
  have hn : n < 10 ^ 7 := by omega
  obtain ⟨as, ea, la, da, va⟩ := fixedDigits_spec 1 (n / 10 ^ 6)
  obtain ⟨fs, ef, lf, df, vf⟩ := fixedDigits_spec 6 (n % 10 ^ 6)
  have na : as ≠ [] := by rintro rfl; simp at la
  have nf : fs ≠ [] := by rintro rfl; simp at lf
  have e : fmtE (fin false q) = (as.map digitChar ++ '.' :: fs.map digitChar) ++ 'e' :: expText k := by
    simp only [fmtE, hmk, Int.ofNat_eq_natCast, Int.toNat_natCast, ea, ef, signText, Bool.false_eq_true, if_false]
    simp
  rw [e, readDecimal_of (point_chars da df) (mant as fs na nf da df) (.inr rfl), natOfDigits_append, va, vf, lf,
    Nat.mod_eq_of_lt (show n / 10 ^ 6 < 10 ^ 1 by omega), Nat.mod_mod]
  have hd : n / 10 ^ 6 * 10 ^ 6 + n % 10 ^ 6 = n := Nat.div_add_mod' n (10 ^ 6)
  rw [hd, decVal]
  simp

/-! ### Exact energies -/

theorem spec_nonneg {z : Zdi} (hz : ∀ r ∈ z, 0 ≤ r.l) (k : Comp) : ∀ r ∈ z, 0 ≤ specEnergy k r := by
  intro r hr
  rw [← C41_value]
  exact C41_nonneg k r (hz r hr)

theorem kinds_nonneg {z : Zdi} (hz : ∀ r ∈ z, 0 ≤ r.l) (ks : List Comp) :
    ∀ r ∈ z, 0 ≤ (ks.map fun k => specEnergy k r).sum := by
  intro r hr
  refine List.sum_nonneg fun x hx => ?_
  obtain ⟨k, -, rfl⟩ := List.mem_map.1 hx
  exact spec_nonneg hz k r hr

theorem energyIn_cons (z : Zdi) (p : ℤ → ℤ → Bool) (k : Comp) (ks : List Comp) :
    energyIn z p (k :: ks) = energyIn z p [k] + energyIn z p ks := by
  unfold energyIn
  induction z.filter fun r => p r.l r.m with
  | nil => simp
  | cons r rs ih =>
    simp only [List.map_cons, List.sum_cons, List.map_nil, List.sum_nil] at ih ⊢
    linarith

theorem energyIn_mono {z : Zdi} (hz : ∀ r ∈ z, 0 ≤ r.l) {p p' : ℤ → ℤ → Bool} (h : ∀ l m, p l m = true → p' l m = true)
    (ks : List Comp) : 0 ≤ energyIn z p ks ∧ energyIn z p ks ≤ energyIn z p' ks := by
  unfold energyIn
  induction z with
  | nil => simp
  | cons r rs ih =>
    have ih := ih fun r hr => hz r (List.mem_cons_of_mem _ hr)
    have h0 := kinds_nonneg hz ks r List.mem_cons_self
    by_cases h1 : p r.l r.m = true
    · simp only [List.filter_cons, h1, h _ _ h1, if_true, List.map_cons, List.sum_cons]
      constructor <;> linarith
    · by_cases h2 : p' r.l r.m = true
      · simp only [List.filter_cons, h1, h2, if_true, Bool.false_eq_true, if_false, List.map_cons, List.sum_cons]
        constructor <;> linarith
      · simp only [List.filter_cons, h1, h2, Bool.false_eq_true, if_false]
        exact ih

theorem energyIn_one (z : Zdi) (r : ZRow) (h : (z.filter fun r => decide (r.l = 1 ∧ r.m = 0)) = [r]) :
    energyIn z (fun l m => l = 1 ∧ m = 0) [.alpha, .beta] = specEnergy .alpha r + specEnergy .beta r := by
  unfold energyIn
  rw [h]
  simp

/-- The sums with the roundings that follow. -/
structure Ready (z : Zdi) (s : Sums) : Prop where
  pol : Summed 1.1e-9 s.pol (energyIn z (fun _ _ => true) [.alpha, .beta])
  tot : Summed 1.1e-9 s.total (energyIn z (fun _ _ => true) [.alpha, .beta, .gamma])
  axi : Summed 1.1e-9 (PyFloat.add s.polAxi s.torAxi) (energyIn z (fun _ m => m = 0) [.alpha, .beta, .gamma])

theorem three (z : Zdi) (p : ℤ → ℤ → Bool) : energyIn z p [.alpha, .beta, .gamma] =
    energyIn z p [.alpha, .beta] + energyIn z p [.gamma] := by
  rw [energyIn_cons, energyIn_cons z p .beta [.gamma], energyIn_cons z p .alpha [.beta]]
  ring

theorem ready {z : Zdi} {s : Sums} (hz : ∀ r ∈ z, 0 ≤ r.l) (h : SumsOf z s)
    (hm : energyIn z (fun _ _ => true) [.alpha, .beta, .gamma] ≤ 2 ^ 1000) : Ready z s := by
  have n : ∀ (p : ℤ → ℤ → Bool) ks, 0 ≤ energyIn z p ks := fun p ks => (energyIn_mono hz (p := p) (fun _ _ h => h) ks).1
  have e3 := three z fun _ _ => true
  have e2 := energyIn_cons z (fun _ _ => true) .alpha [.beta]
  have m0 := (energyIn_mono hz (p := fun _ m => m = 0) (p' := fun _ _ => true) (by simp) [.alpha, .beta, .gamma]).2
  have hp : Summed (1e-9 + 1e-15) s.pol (energyIn z (fun _ _ => true) [.alpha, .beta]) := by
    rw [e2]
    exact summed_add h.alpha h.beta (n _ _) (n _ _) (by norm_num) (by norm_num) (by
      have := n (fun _ _ => true) [.gamma]
      linarith)
  refine ⟨summed_mono hp (n _ _) (by norm_num), ?_, ?_⟩
  · rw [e3] at hm ⊢
    exact summed_mono (summed_add hp (summed_mono h.gamma (n _ _) (by norm_num)) (n _ _) (n _ _) (by norm_num) (by norm_num)
      hm) (add_nonneg (n _ _) (n _ _)) (by norm_num)
  · rw [three] at m0 ⊢
    exact summed_mono (summed_add h.polAxi h.torAxi (n _ _) (n _ _) (by norm_num) (by norm_num) (m0.trans hm))
      (add_nonneg (n _ _) (n _ _)) (by norm_num)

/-- One line. -/
theorem shows_line {z : Zdi} {x y : PyFloat} (e : ReportLine) (hx : Summed 1.1e-9 x (energyIn z e.rows e.part))
    (hy : Summed 1.1e-9 y (energyIn z e.among e.whole)) (h0 : 0 ≤ energyIn z e.rows e.part)
    (h : energyIn z e.rows e.part ≤ energyIn z e.among e.whole) :
    ShowsShare z e (e.label.toList ++ percent (div x y) ++ e.unit.toList) :=
  ⟨_, rfl, percent_share hx hy h0 h⟩

section
variable {z : Zdi} {s : Sums} (hz : ∀ r ∈ z, 0 ≤ r.l) (h : SumsOf z s) (g : Ready z s)
include hz h g

theorem first_lines : List.Forall₂ (ShowsShare z) (printedShares.take 9) ((summary s).tail.take 3 ++ degrees s) := by
  have n : ∀ (p : ℤ → ℤ → Bool) ks, 0 ≤ energyIn z p ks := fun p ks => (energyIn_mono hz (p := p) (fun _ _ h => h) ks).1
  have w : ∀ {p : ℤ → ℤ → Bool} {ks x}, Summed 1e-9 x (energyIn z p ks) → Summed 1.1e-9 x (energyIn z p ks) :=
    fun hh => summed_mono hh (n _ _) (by norm_num)
  have mono : ∀ (p : ℤ → ℤ → Bool) ks, energyIn z p ks ≤ energyIn z (fun _ _ => true) ks := fun p ks =>
    (energyIn_mono hz (p := p) (by simp) ks).2
  have e3 := three z fun _ _ => true
  have e2 := energyIn_cons z (fun _ _ => true) .alpha [.beta]
  have i1 := n (fun _ _ => true) [.beta]
  have i2 := n (fun _ _ => true) [.gamma]
  have i3 := n (fun _ _ => true) [.alpha, .beta]
  refine .cons ?_ (.cons ?_ (.cons ?_ (.cons ?_ (.cons ?_ (.cons ?_ (.cons ?_ (.cons ?_ (.cons ?_ .nil))))))))
  · have := shows_line ⟨"Radial   energy* ", fun _ _ => true, [.alpha], fun _ _ => true, [.alpha, .beta, .gamma], ""⟩
      (w h.alpha) g.tot (n _ _) (by simp only; linarith)
    simpa using this
  · have := shows_line ⟨"Poloidal energy  ", fun _ _ => true, [.alpha, .beta], fun _ _ => true, [.alpha, .beta, .gamma], ""⟩
      g.pol g.tot (n _ _) (by simp only; linarith)
    simpa using this
  · have := shows_line ⟨"Toroidal energy  ", fun _ _ => true, [.gamma], fun _ _ => true, [.alpha, .beta, .gamma], ""⟩
      (w h.gamma) g.tot (n _ _) (by simp only; linarith)
    simpa using this
  · exact shows_line ⟨"poloidal l1 (dipole):     ", fun l _ => l = 1, [.alpha, .beta], fun _ _ => true, [.alpha, .beta],
      " (% poloidal)"⟩ (w h.pol1) g.pol (n _ _) (mono _ _)
  · exact shows_line ⟨"poloidal l2 (quadrupole): ", fun l _ => l = 2, [.alpha, .beta], fun _ _ => true, [.alpha, .beta],
      " (% poloidal)"⟩ (w h.pol2) g.pol (n _ _) (mono _ _)
  · exact shows_line ⟨"poloidal l3 (octopole):   ", fun l _ => l = 3, [.alpha, .beta], fun _ _ => true, [.alpha, .beta],
      " (% poloidal)"⟩ (w h.pol3) g.pol (n _ _) (mono _ _)
  · exact shows_line ⟨"toroidal l1: ", fun l _ => l = 1, [.gamma], fun _ _ => true, [.gamma], " (% toroidal)"⟩
      (w h.tor1) (w h.gamma) (n _ _) (mono _ _)
  · exact shows_line ⟨"toroidal l2: ", fun l _ => l = 2, [.gamma], fun _ _ => true, [.gamma], " (% toroidal)"⟩
      (w h.tor2) (w h.gamma) (n _ _) (mono _ _)
  · exact shows_line ⟨"toroidal l3: ", fun l _ => l = 3, [.gamma], fun _ _ => true, [.gamma], " (% toroidal)"⟩
      (w h.tor3) (w h.gamma) (n _ _) (mono _ _)

theorem last_lines (ha : s.axial.length = 1) :
    List.Forall₂ (ShowsShare z) (printedShares.drop 9) (axisymmetric s (s.axial.headD nan)) := by
  have n : ∀ (p : ℤ → ℤ → Bool) ks, 0 ≤ energyIn z p ks := fun p ks => (energyIn_mono hz (p := p) (fun _ _ h => h) ks).1
  have w : ∀ {p : ℤ → ℤ → Bool} {ks x}, Summed 1e-9 x (energyIn z p ks) → Summed 1.1e-9 x (energyIn z p ks) :=
    fun hh => summed_mono hh (n _ _) (by norm_num)
  have mono : ∀ (p : ℤ → ℤ → Bool) ks, energyIn z p ks ≤ energyIn z (fun _ _ => true) ks := fun p ks =>
    (energyIn_mono hz (p := p) (by simp) ks).2
  obtain ⟨x, hx⟩ := List.length_eq_one_iff.1 ha
  have hax := h.axial
  rw [hx] at hax
  cases hf : z.filter fun r => decide (r.l = 1 ∧ r.m = 0) with
  | nil => rw [hf] at hax; cases hax
  | cons r rs =>
    rw [hf] at hax
    obtain ⟨hxr, hnil⟩ := List.forall₂_cons.1 hax
    obtain rfl : rs = [] := by cases hnil; rfl
    have e1 := energyIn_one z r hf
    rw [← e1] at hxr
    rw [hx, List.headD_cons]
    refine .cons ?_ (.cons ?_ (.cons ?_ (.cons ?_ .nil)))
    · exact shows_line ⟨"axisymmetric:          ", fun _ m => m = 0, [.alpha, .beta, .gamma], fun _ _ => true,
        [.alpha, .beta, .gamma], " (% total)"⟩ g.axi g.tot (n _ _) (mono _ _)
    · exact shows_line ⟨"poloidal axisymmetric: ", fun _ m => m = 0, [.alpha, .beta], fun _ _ => true, [.alpha, .beta],
        " (% poloidal)"⟩ (w h.polAxi) g.pol (n _ _) (mono _ _)
    · exact shows_line ⟨"toroidal axisymmetric: ", fun _ m => m = 0, [.gamma], fun _ _ => true, [.gamma], " (% toroidal)"⟩
        (w h.torAxi) (w h.gamma) (n _ _) (mono _ _)
    · exact shows_line ⟨"dipole axisymmetric:   ", fun l m => l = 1 ∧ m = 0, [.alpha, .beta], fun l _ => l = 1,
        [.alpha, .beta], " (% dipole)"⟩ (w hxr) (w h.pol1) (n _ _) (energyIn_mono hz (by simp) _).2

omit h in
theorem total_line : ShowsTotal (energyIn z (fun _ _ => true) [.alpha, .beta, .gamma])
    ("Total energy: ".toList ++ general s.total ++ " (B^2)".toList) := by
  obtain ⟨q, e, hd, hq⟩ := g.tot
  have n := (energyIn_mono hz (p := fun _ _ => true) (fun _ _ h => h) [.alpha, .beta, .gamma]).1
  refine ⟨_, _, rfl, by rw [e]; exact general_read hd.nonneg, ?_⟩
  have h1 : |((Label.val (Label.dec3 q) : ℚ) : ℝ) - q| ≤ 1 / 200 * q := by
    have := (Rat.cast_le (K := ℝ)).2 (Label.dec3_rel hd.nonneg)
    push_cast at this
    norm_num at this ⊢
    exact this
  rw [abs_le] at *
  norm_num at *
  constructor <;> nlinarith

theorem close_total : isClose s.total (PyFloat.add s.pol s.gamma) = true := by
  obtain ⟨q, e, hd, hq⟩ := g.tot
  have : PyFloat.add s.pol s.gamma = s.total := rfl
  rw [this, e]
  simp only [isClose, sub_self, abs_zero, decide_eq_true_eq]
  positivity

end

end EnergyText

open EnergyText FloatCoords FloatRange

/-- **C111.** Without destination and without `show_fractions`, a magnetogram with one axial dipole coefficient gives fifteen
lines: the total to three digits, then a percentage for each of the thirteen shares, in this order and with these words, and
between them the remark on the radial energy. Every percentage is the share of the exact energies to 0.05 (and a millionth for
the arithmetic), or `nan%` if the whole is zero. -/
theorem C111_report (z : Zdi) (hz : ∀ r ∈ z, 0 ≤ r.l) (s : Sums) (h : SumsOf z s)
    (hm : energyIn z (fun _ _ => true) [.alpha, .beta, .gamma] ≤ 2 ^ 1000)
    (ha : (z.filter fun r => decide (r.l = 1 ∧ r.m = 0)).length = 1) (printed : List Text) :
    ∃ total shares1 shares2, report false s printed = .ok () (printed ++ (total :: shares1 ++
      "* The radial energy is part of the poloidal energy.".toList :: shares2)) ∧
    ShowsTotal (energyIn z (fun _ _ => true) [.alpha, .beta, .gamma]) total ∧
    List.Forall₂ (ShowsShare z) (printedShares.take 3) shares1 ∧ List.Forall₂ (ShowsShare z) (printedShares.drop 3) shares2 := by
  have g := ready hz h hm
  have ha' : s.axial.length = 1 := by rw [h.axial.length_eq]; exact ha
  have f := first_lines hz h g
  have l := last_lines hz h g ha'
  refine ⟨_, (summary s).tail.take 3, degrees s ++ axisymmetric s (s.axial.headD nan), ?_, total_line hz g, ?_, ?_⟩
  · have c := close_total hz h g
    simp only [report, put, Bool.false_eq_true, if_false, pyAssert, if_pos c, if_pos ha']
    show EStateM.Result.ok () _ = _
    simp [summary]
  · have := List.forall₂_take 3 f
    exact this
  · have := List.rel_append (List.forall₂_drop 3 f) l
    exact this

/-- **C111.** If the number of axial dipole coefficients is not one, the last four lines are missing: the report ends with an
AssertionError behind the lines on degrees 1 to 3. -/
theorem C111_incomplete (z : Zdi) (hz : ∀ r ∈ z, 0 ≤ r.l) (s : Sums) (h : SumsOf z s)
    (hm : energyIn z (fun _ _ => true) [.alpha, .beta, .gamma] ≤ 2 ^ 1000)
    (ha : (z.filter fun r => decide (r.l = 1 ∧ r.m = 0)).length ≠ 1) (printed : List Text) :
    ∃ total shares1 shares2, report false s printed = .error .assertion (printed ++ (total :: shares1 ++
      "* The radial energy is part of the poloidal energy.".toList :: shares2)) ∧
    ShowsTotal (energyIn z (fun _ _ => true) [.alpha, .beta, .gamma]) total ∧
    List.Forall₂ (ShowsShare z) (printedShares.take 3) shares1 ∧
    List.Forall₂ (ShowsShare z) ((printedShares.drop 3).take 6) shares2 := by
  have g := ready hz h hm
  have ha' : ¬ s.axial.length = 1 := by rw [h.axial.length_eq]; exact ha
  have f := first_lines hz h g
  refine ⟨_, (summary s).tail.take 3, degrees s, ?_, total_line hz g, ?_, ?_⟩
  · have c := close_total hz h g
    simp only [report, put, Bool.false_eq_true, if_false, pyAssert, if_pos c, if_neg ha']
    show (EStateM.Result.error Err.assertion _ : EStateM.Result Err (List Text) Unit) = _
    simp [summary]
  · have := List.forall₂_take 3 f
    exact this
  · have := List.forall₂_drop 3 f
    exact this

/-- **C111.** If a sum is not a number, the report ends at the same place, whatever the coefficients. -/
theorem C111_nan (s : Sums) (h : s.alpha = nan ∨ s.beta = nan ∨ s.gamma = nan) (printed : List Text) :
    ∃ out, report false s printed = .error .assertion (printed ++ out) ∧ out.length = 11 := by
  have ht : s.total = nan := by
    unfold Sums.total
    rcases h with h | h | h <;> rw [h]
    · rfl
    · cases s.alpha <;> rfl
    · cases PyFloat.add s.alpha s.beta <;> rfl
  have c : ¬ isClose s.total (PyFloat.add s.pol s.gamma) = true := by rw [ht]; simp [isClose]
  refine ⟨summary s ++ degrees s, ?_, rfl⟩
  simp only [report, put, Bool.false_eq_true, if_false, pyAssert, if_neg c]
  show (EStateM.Result.error Err.assertion _ : EStateM.Result Err (List Text) Unit) = _
  simp

/-- **C111.** Of the three percentages of the total, the radial one is at most the poloidal one, none is above 100, and the
poloidal and the toroidal one add up to 100 within 0.1. -/
theorem C111_hundred (z : Zdi) (hz : ∀ r ∈ z, 0 ≤ r.l) (s : Sums) (h : SumsOf z s)
    (hm : energyIn z (fun _ _ => true) [.alpha, .beta, .gamma] ≤ 2 ^ 1000)
    (h0 : energyIn z (fun _ _ => true) [.alpha, .beta, .gamma] ≠ 0) (out : List Text) (hr : report false s [] = .ok () out) :
    ∃ p1 p2 p3 v1 v2 v3, out[1]? = some ("Radial   energy* ".toList ++ p1) ∧ out[2]? = some ("Poloidal energy  ".toList ++ p2) ∧
      out[3]? = some ("Toroidal energy  ".toList ++ p3) ∧ readPercent p1 = some v1 ∧ readPercent p2 = some v2 ∧
      readPercent p3 = some v3 ∧ v1 ≤ v2 ∧ v2 ≤ 100 ∧ v3 ≤ 100 ∧ |v2 + v3 - 100| ≤ 1 / 10 := by
  have g := ready hz h hm
  have n : ∀ (p : ℤ → ℤ → Bool) ks, 0 ≤ energyIn z p ks := fun p ks => (energyIn_mono hz (p := p) (fun _ _ h => h) ks).1
  have hout : ∃ rest, out = summary s ++ rest := by
    by_cases c : isClose s.total (PyFloat.add s.pol s.gamma) = true
    · by_cases a : s.axial.length = 1
      · simp only [report, put, Bool.false_eq_true, if_false, pyAssert, if_pos c, if_pos a] at hr
        have : EStateM.Result.ok () (([] ++ summary s) ++ degrees s ++ axisymmetric s (s.axial.headD nan)) = .ok () out := hr
        injection this with _ this
        exact ⟨_, by rw [← this, List.nil_append, List.append_assoc]⟩
      · simp only [report, put, Bool.false_eq_true, if_false, pyAssert, if_pos c, if_neg a] at hr
        exact absurd hr (by rintro ⟨⟩)
    · simp only [report, put, Bool.false_eq_true, if_false, pyAssert, if_neg c] at hr
      exact absurd hr (by rintro ⟨⟩)
  obtain ⟨rest, rfl⟩ := hout
  have e3 := three z fun _ _ => true
  have i2 := n (fun _ _ => true) [.gamma]
  have i3 := n (fun _ _ => true) [.alpha, .beta]
  set T := energyIn z (fun _ _ => true) [.alpha, .beta, .gamma] with hT
  have hT0 : 0 < T := lt_of_le_of_ne (n _ _) (Ne.symm h0)
  obtain ⟨r2, m2, r20, b2⟩ := ratio g.pol g.tot (n _ _) (by linarith) h0
  obtain ⟨r3, m3, r30, b3⟩ := ratio (summed_mono h.gamma (n _ _) (by norm_num)) g.tot (n _ _) (by linarith) h0
  obtain ⟨a, ea, da, ba⟩ := h.alpha
  obtain ⟨b, eb, db, bb⟩ := h.beta
  obtain ⟨c, ec, dc, bc⟩ := h.gamma
  obtain ⟨po, epo, dpo, bpo⟩ := g.pol
  obtain ⟨t, et, dt, bt⟩ := g.tot
  have ht0 : 0 < t := by
    have : (0 : ℝ) < t := by
      have := abs_le.1 bt
      norm_num at this
      nlinarith
    exact_mod_cast this
  have round : ∀ {p q r : ℚ}, IsDouble p → IsDouble q → PyFloat.add (fin false p) (fin false q) = fin false r →
      p ≤ r ∧ q ≤ r := by
    intro p q r hp hq hh
    have p0 := hp.nonneg
    have q0 := hq.nonneg
    have hle : p + q ≤ maxDouble ∨ maxDouble < p + q := le_or_gt _ _
    rcases hle with hle | hle
    · rw [add_fin p0 q0 hle] at hh
      injection hh with _ hh
      subst hh
      rcases (add_nonneg p0 q0).eq_or_lt with hz | hz
      · rw [← hz, fl0_zero]; constructor <;> linarith
      · exact ⟨le_fl0 hp hz (by linarith), le_fl0 hq hz (by linarith)⟩
    · have hz : p + q ≠ 0 := by
        have := FloatCoords.big_le_max
        have h2 : (0 : ℚ) < 2 ^ (1023 : ℤ) := by positivity
        rintro hz
        rw [hz] at hle
        have h3 : (0 : ℚ) ≤ maxDouble := isDouble_zero.le_max
        linarith
      simp only [PyFloat.add, PyFloat.num, Bool.false_eq_true, if_false, if_neg hz, abs_of_nonneg (add_nonneg p0 q0),
        decide_eq_false (not_lt.2 (add_nonneg p0 q0))] at hh
      unfold ofMag at hh
      split_ifs at hh
      injection hh with _ hh
      subst hh
      have hz' : 0 < p + q := lt_of_le_of_ne (add_nonneg p0 q0) (Ne.symm hz)
      exact ⟨le_fl0 hp hz' (by linarith), le_fl0 hq hz' (by linarith)⟩
  have hpo : a ≤ po := (round (r := po) da db (by rw [← ea, ← eb]; exact epo)).1
  have htot := round (r := t) dpo dc (by rw [← epo, ← ec]; exact et)
  have q1 : po / t ≤ 2 := ((div_le_one ht0).2 htot.1).trans (by norm_num)
  have f2 := (hundred_form dpo.nonneg ht0 q1).1
  have f1 := (hundred_form da.nonneg ht0 ((div_le_div_of_nonneg_right hpo ht0.le).trans q1)).1
  have f3 := (hundred_form dc.nonneg ht0 (((div_le_one ht0).2 htot.2).trans (by norm_num))).1
  have mono := hundred_mono da.nonneg hpo ht0 q1
  have le2 := hundred_le dpo.nonneg ht0 htot.1
  have le3 := hundred_le dc.nonneg ht0 htot.2
  rw [← epo, ← et] at f2
  rw [← ea, ← et] at f1
  rw [← ec, ← et] at f3
  have x2 : r2 = fl0 (fl0 (po / t) * 100) := by rw [m2] at f2; injection f2
  have x3 : r3 = fl0 (fl0 (c / t) * 100) := by rw [m3] at f3; injection f3
  rw [← x2] at mono le2
  rw [← x3] at le3
  have r10 : 0 ≤ fl0 (fl0 (a / t) * 100) := fl0_nonneg (mul_nonneg (fl0_nonneg (div_nonneg da.nonneg ht0.le)) (by norm_num))
  have top : ∀ {r : ℚ}, r ≤ 100 → (rhe (r * 10) : ℚ) / 10 ≤ 100 := by
    intro r hr
    have := rhe_mono (show r * 10 ≤ ((1000 : ℤ) : ℚ) by push_cast; linarith)
    rw [rhe_intCast] at this
    have : (rhe (r * 10) : ℚ) ≤ 1000 := by exact_mod_cast this
    linarith
  refine ⟨_, _, _, _, _, _, rfl, rfl, rfl, percent_read f1 r10, percent_read m2 r20, percent_read m3 r30, ?_, top le2,
    top le3, ?_⟩
  · have : rhe (fl0 (fl0 (a / t) * 100) * 10) ≤ rhe (r2 * 10) := rhe_mono (by linarith)
    have : (rhe (fl0 (fl0 (a / t) * 100) * 10) : ℚ) ≤ rhe (r2 * 10) := by exact_mod_cast this
    linarith
  · have k2 := rhe_abs_le (r2 * 10)
    have k3 := rhe_abs_le (r3 * 10)
    have hs : |r2 + r3 - 100| ≤ 1e-6 := by
      have : |(r2 : ℝ) + r3 - 100| ≤ 1e-6 := by
        have e : energyIn z (fun _ _ => true) [.alpha, .beta] / T + energyIn z (fun _ _ => true) [.gamma] / T = 1 := by
          rw [← add_div, ← e3]; exact div_self h0
        rw [abs_le] at *
        norm_num at *
        constructor <;> linarith
      have h2 : ((|r2 + r3 - 100| : ℚ) : ℝ) ≤ ((1e-6 : ℚ) : ℝ) := by push_cast; norm_num at this ⊢; exact this
      exact_mod_cast h2
    have hint : |((rhe (r2 * 10) + rhe (r3 * 10) - 1000 : ℤ) : ℚ)| < 2 := by
      push_cast
      rw [abs_le] at *
      rw [abs_lt]
      norm_num at *
      constructor <;> linarith
    have hint' : |rhe (r2 * 10) + rhe (r3 * 10) - 1000| ≤ 1 := by
      have : |rhe (r2 * 10) + rhe (r3 * 10) - 1000| < 2 := by exact_mod_cast hint
      omega
    have hq : |((rhe (r2 * 10) + rhe (r3 * 10) - 1000 : ℤ) : ℚ)| ≤ 1 := by exact_mod_cast hint'
    push_cast at hq
    rw [abs_le] at *
    constructor <;> linarith

namespace EnergyText

theorem sum_step {x y w v a b c t n ρ ε : ℝ} (hx : |x - a| ≤ ε * a + ρ) (hy : |y - b| ≤ ε * b + ρ) (hw : |w - c| ≤ ε * c + ρ)
    (hv : |v - t| ≤ ε * t + 3 * n * ρ) :
    |x + y + w + v - (a + b + c + t)| ≤ ε * (a + b + c + t) + 3 * (n + 1) * ρ := by
  rw [abs_le] at *
  constructor <;> linarith

theorem pySplit_row (l m : ℤ) (x y w : PyFloat) :
    pySplit (padLeft 3 (intText l) ++ "  ".toList ++ padLeft 3 (intText m) ++ "  ".toList ++ fmtE x ++ "  ".toList ++ fmtE y
      ++ "  ".toList ++ fmtE w) = [intText l, intText m, fmtE x, fmtE y, fmtE w] := by
  have hb : ∀ n, AllSpace (List.replicate n ' ') := allSpace_replicate
  have h2 : AllSpace [' ', ' '] := hb 2
  have e : padLeft 3 (intText l) ++ "  ".toList ++ padLeft 3 (intText m) ++ "  ".toList ++ fmtE x ++ "  ".toList ++ fmtE y
      ++ "  ".toList ++ fmtE w = List.replicate (3 - (intText l).length) ' ' ++ (intText l ++
        ((' ' :: (' ' :: List.replicate (3 - (intText m).length) ' ')) ++ (intText m ++ ([' ', ' '] ++ (fmtE x ++
          ([' ', ' '] ++ (fmtE y ++ ([' ', ' '] ++ (fmtE w ++ []))))))))) := by
    simp [padLeft]
  have hsp : ∀ (t r : Text), (' ' :: t ++ r) = [] ∨ ∃ c u, (' ' :: t ++ r) = c :: u ∧ isSpace c = true :=
    fun t r => .inr ⟨' ', t ++ r, rfl, by decide⟩
  have h3 : AllSpace (' ' :: (' ' :: List.replicate (3 - (intText m).length) ' ')) := h2.append (hb _)
  rw [e, pySplit_token _ _ _ (hb _) (noSpace_intText _) (intText_ne_nil _) (hsp _ _),
    pySplit_token _ _ _ h3 (noSpace_intText _) (intText_ne_nil _) (hsp _ _),
    pySplit_token _ _ _ h2 (noSpace_fmtE _) (fmtE_ne_nil _) (hsp _ _),
    pySplit_token _ _ _ h2 (noSpace_fmtE _) (fmtE_ne_nil _) (hsp _ _),
    pySplit_token _ _ _ h2 (noSpace_fmtE _) (fmtE_ne_nil _) (.inl rfl)]
  rfl

end EnergyText

/-- **C111.** With `show_fractions` the report is preceded by two lines and a line for each coefficient. -/
theorem C111_table_first (s : Sums) (printed : List Text) : ∃ rows,
    report true s printed = report false s (printed ++ "Fraction of magnetic energy in each component. Should sum to 1.".toList ::
      "  l    m       E_alpha        E_beta       E_gamma".toList :: rows) ∧ rows.length = s.rows.length ∧ rows = (table s).drop 2 := by
  refine ⟨(table s).drop 2, ?_, by simp [table], rfl⟩
  rfl

/-- **C111.** The lines for the coefficients, in the order of the coefficients: degree, order and the three parts of the total
energy to a millionth; all the numbers together sum to 1 as the first line says, to a millionth. -/
theorem C111_table (z : Zdi) (hz : ∀ r ∈ z, 0 ≤ r.l) (s : Sums) (h : SumsOf z s)
    (hm : energyIn z (fun _ _ => true) [.alpha, .beta, .gamma] ≤ 2 ^ 1000)
    (h0 : energyIn z (fun _ _ => true) [.alpha, .beta, .gamma] ≠ 0) :
    ∃ vs : List (ℤ × ℤ × ℚ × ℚ × ℚ), List.Forall₂ (fun t v => readRow t = some v) ((table s).drop 2) vs ∧
      List.Forall₂ (fun v r => v.1 = r.l ∧ v.2.1 = r.m ∧
        ShowsPart v.2.2.1 (specEnergy .alpha r) (energyIn z (fun _ _ => true) [.alpha, .beta, .gamma]) ∧
        ShowsPart v.2.2.2.1 (specEnergy .beta r) (energyIn z (fun _ _ => true) [.alpha, .beta, .gamma]) ∧
        ShowsPart v.2.2.2.2 (specEnergy .gamma r) (energyIn z (fun _ _ => true) [.alpha, .beta, .gamma])) vs z ∧
      |(((vs.map fun v => v.2.2.1 + v.2.2.2.1 + v.2.2.2.2).sum : ℚ) : ℝ) - 1| ≤ 1e-6 + 3 * z.length / 10 ^ 300 := by
  have g := ready hz h hm
  have hrows := h.rows
  have hT0 : 0 ≤ energyIn z (fun _ _ => true) [.alpha, .beta, .gamma] := (energyIn_mono hz (fun _ _ h => h) _).1
  have hsum : ((z.map fun r => specEnergy .alpha r + specEnergy .beta r + specEnergy .gamma r).sum : ℝ) =
      energyIn z (fun _ _ => true) [.alpha, .beta, .gamma] := by
    unfold energyIn
    rw [List.filter_true]
    congr 2
    funext r
    simp [add_assoc]
  have hle : ∀ r ∈ z, ∀ k : Comp, specEnergy k r ≤ energyIn z (fun _ _ => true) [.alpha, .beta, .gamma] := by
    intro r hr k
    have h1 : specEnergy k r ≤ specEnergy .alpha r + specEnergy .beta r + specEnergy .gamma r := by
      have a := spec_nonneg hz .alpha r hr
      have b := spec_nonneg hz .beta r hr
      have c := spec_nonneg hz .gamma r hr
      cases k <;> linarith
    rw [← hsum]
    refine h1.trans (List.single_le_sum ?_ _ (List.mem_map_of_mem hr))
    intro x hx
    obtain ⟨r, hr, rfl⟩ := List.mem_map.1 hx
    have a := spec_nonneg hz .alpha r hr
    have b := spec_nonneg hz .beta r hr
    have c := spec_nonneg hz .gamma r hr
    positivity
  have hn : ∀ r ∈ z, ∀ k : Comp, 0 ≤ specEnergy k r := fun r hr k => spec_nonneg hz k r hr
  have ht : (table s).drop 2 = s.rows.map fun r => padLeft 3 (intText r.1) ++ "  ".toList ++ padLeft 3 (intText r.2.1)
      ++ "  ".toList ++ fmtE (div r.2.2.1 s.total) ++ "  ".toList ++ fmtE (div r.2.2.2.1 s.total) ++ "  ".toList
      ++ fmtE (div r.2.2.2.2 s.total) := rfl
  rw [ht]
  have gt := g.tot
  set T := energyIn z (fun _ _ => true) [.alpha, .beta, .gamma] with hT
  have hT1 : 0 < T := lt_of_le_of_ne hT0 (Ne.symm h0)
  have main : ∀ (xs : List (ℤ × ℤ × PyFloat × PyFloat × PyFloat)) (zs : Zdi), (∀ r ∈ zs, ∀ k : Comp, 0 ≤ specEnergy k r ∧
      specEnergy k r ≤ T) → List.Forall₂ (fun x r => x.1 = r.l ∧ x.2.1 = r.m ∧ Summed 1e-9 x.2.2.1 (specEnergy .alpha r) ∧
      Summed 1e-9 x.2.2.2.1 (specEnergy .beta r) ∧ Summed 1e-9 x.2.2.2.2 (specEnergy .gamma r)) xs zs →
      ∃ vs : List (ℤ × ℤ × ℚ × ℚ × ℚ), List.Forall₂ (fun t v => readRow t = some v) (xs.map fun r => padLeft 3 (intText r.1)
        ++ "  ".toList ++ padLeft 3 (intText r.2.1) ++ "  ".toList ++ fmtE (div r.2.2.1 s.total) ++ "  ".toList
        ++ fmtE (div r.2.2.2.1 s.total) ++ "  ".toList ++ fmtE (div r.2.2.2.2 s.total)) vs ∧
      List.Forall₂ (fun v r => v.1 = r.l ∧ v.2.1 = r.m ∧ ShowsPart v.2.2.1 (specEnergy .alpha r) T ∧
        ShowsPart v.2.2.2.1 (specEnergy .beta r) T ∧ ShowsPart v.2.2.2.2 (specEnergy .gamma r) T) vs zs ∧
      |(((vs.map fun v => v.2.2.1 + v.2.2.2.1 + v.2.2.2.2).sum : ℚ) : ℝ) -
        (zs.map fun r => specEnergy .alpha r + specEnergy .beta r + specEnergy .gamma r).sum / T| ≤
        1e-6 * ((zs.map fun r => specEnergy .alpha r + specEnergy .beta r + specEnergy .gamma r).sum / T)
          + 3 * zs.length * (1 / 10 ^ 300) := by
    intro xs zs hb hf
    induction hf with
    | nil => exact ⟨[], .nil, .nil, by simp⟩
    | @cons x r xs zs hx _ ih =>
      obtain ⟨vs, i1, i2, i3⟩ := ih fun r hr => hb r (List.mem_cons_of_mem _ hr)
      obtain ⟨el, em, sa, sb, sg⟩ := hx
      have hr := hb r List.mem_cons_self
      obtain ⟨ra, ea, ra0, pa⟩ := part (summed_mono sa (hr _).1 (by norm_num)) gt (hr _).1 (hr _).2 h0
      obtain ⟨rb, eb, rb0, pb⟩ := part (summed_mono sb (hr _).1 (by norm_num)) gt (hr _).1 (hr _).2 h0
      obtain ⟨rg, eg, rg0, pg⟩ := part (summed_mono sg (hr _).1 (by norm_num)) gt (hr _).1 (hr _).2 h0
      refine ⟨(x.1, x.2.1, decVal (dec7 ra), decVal (dec7 rb), decVal (dec7 rg)) :: vs, .cons ?_ i1,
        .cons ⟨el, em, pa, pb, pg⟩ i2, ?_⟩
      · unfold readRow
        rw [pySplit_row, ea, eb, eg]
        simp only [parseInt_intText, fmtE_read ra0, fmtE_read rb0, fmtE_read rg0]
        rfl
      · rw [List.map_cons, List.map_cons, List.sum_cons, List.sum_cons, List.length_cons]
        unfold ShowsPart at pa pb pg
        rw [Rat.cast_add, Rat.cast_add, Rat.cast_add, Nat.cast_succ]
        rw [add_div, add_div, add_div]
        exact sum_step pa pb pg i3
  obtain ⟨vs, v1, v2, v3⟩ := main s.rows z (fun r hr k => ⟨hn r hr k, hle r hr k⟩) hrows
  refine ⟨vs, v1, v2, ?_⟩
  rw [hsum, div_self h0, mul_one] at v3
  rw [mul_one_div] at v3
  exact v3

/-! ### Examples -/

/-- An axial dipole and an equatorial one, with all kinds of energy. -/
private noncomputable def exReportZ : Zdi := [⟨1, 0, 2, 2, 2⟩, ⟨1, 1, 2, 4, 0⟩]

private def exReportS : Sums where
  alpha := fin false 6
  beta := fin false 6
  gamma := fin false 2
  pol1 := fin false 12
  pol2 := fin false 0
  pol3 := fin false 0
  tor1 := fin false 2
  tor2 := fin false 0
  tor3 := fin false 0
  polAxi := fin false 6
  torAxi := fin false 2
  axial := [fin false 6]
  rows := [(1, 0, fin false 4, fin false 2, fin false 2), (1, 1, fin false 2, fin false 4, fin false 0)]

private theorem exNat (n : ℕ) (h : n < 2 ^ 53) (E : ℝ) (he : E = n) : Summed 1e-9 (fin false n) E := by
  refine ⟨n, rfl, ⟨n, 0, h, by norm_num, by norm_num, by simp⟩, ?_⟩
  rw [he]
  have : (0 : ℝ) ≤ n := Nat.cast_nonneg n
  simp only [Rat.cast_natCast, sub_self, abs_zero]
  positivity

/-- The hypotheses of the theorems can be met. -/
private theorem exReport : (∀ r ∈ exReportZ, 0 ≤ r.l) ∧ SumsOf exReportZ exReportS ∧
    energyIn exReportZ (fun _ _ => true) [.alpha, .beta, .gamma] = 14 ∧
    (exReportZ.filter fun r => decide (r.l = 1 ∧ r.m = 0)).length = 1 := by
  refine ⟨?_, ?_, ?_, ?_⟩
  · intro r hr
    simp only [exReportZ, List.mem_cons, List.not_mem_nil, or_false] at hr
    rcases hr with rfl | rfl <;> norm_num
  · constructor
    · exact exNat 6 (by norm_num) _ (by simp [energyIn, exReportZ, specEnergy, Comp.of]; norm_num)
    · exact exNat 6 (by norm_num) _ (by simp [energyIn, exReportZ, specEnergy, Comp.of]; norm_num)
    · exact exNat 2 (by norm_num) _ (by simp [energyIn, exReportZ, specEnergy, Comp.of]; norm_num)
    · exact exNat 12 (by norm_num) _ (by simp [energyIn, exReportZ, specEnergy, Comp.of]; norm_num)
    · exact exNat 0 (by norm_num) _ (by simp [energyIn, exReportZ])
    · exact exNat 0 (by norm_num) _ (by simp [energyIn, exReportZ])
    · exact exNat 2 (by norm_num) _ (by simp [energyIn, exReportZ, specEnergy, Comp.of]; norm_num)
    · exact exNat 0 (by norm_num) _ (by simp [energyIn, exReportZ])
    · exact exNat 0 (by norm_num) _ (by simp [energyIn, exReportZ])
    · exact exNat 6 (by norm_num) _ (by simp [energyIn, exReportZ, specEnergy, Comp.of]; norm_num)
    · exact exNat 2 (by norm_num) _ (by simp [energyIn, exReportZ, specEnergy, Comp.of]; norm_num)
    · have : (exReportZ.filter fun r => decide (r.l = 1 ∧ r.m = 0)) = [⟨1, 0, 2, 2, 2⟩] := by simp [exReportZ]
      rw [this]
      exact .cons (exNat 6 (by norm_num) _ (by simp [specEnergy, Comp.of]; norm_num)) .nil
    · refine .cons ⟨rfl, rfl, ?_, ?_, ?_⟩ (.cons ⟨rfl, rfl, ?_, ?_, ?_⟩ .nil)
      · exact exNat 4 (by norm_num) _ (by simp [specEnergy, Comp.of]; norm_num)
      · exact exNat 2 (by norm_num) _ (by simp [specEnergy, Comp.of]; norm_num)
      · exact exNat 2 (by norm_num) _ (by simp [specEnergy, Comp.of]; norm_num)
      · exact exNat 2 (by norm_num) _ (by simp [specEnergy, Comp.of]; norm_num)
      · exact exNat 4 (by norm_num) _ (by simp [specEnergy, Comp.of]; norm_num)
      · exact exNat 0 (by norm_num) _ (by simp [specEnergy, Comp.of])
  · simp [energyIn, exReportZ, specEnergy, Comp.of]; norm_num
  · simp [exReportZ]

private theorem exPrinted (s : Sums) (h : isFin s.total = true) (ha : s.axial.length = 1) :
    report false s [] = .ok () (summary s ++ degrees s ++ axisymmetric s (s.axial.headD nan)) := by
  have c : isClose s.total (PyFloat.add s.pol s.gamma) = true := by
    show isClose s.total s.total = true
    cases ht : s.total with
    | fin neg q => simp only [isClose, sub_self, abs_zero, decide_eq_true_eq]; positivity
    | inf neg => rw [ht] at h; simp [isFin] at h
    | nan => rw [ht] at h; simp [isFin] at h
  simp only [report, put, Bool.false_eq_true, if_false, pyAssert, if_pos c, if_pos ha]
  rfl

/-- What is printed for it. -/
example : report false exReportS [] = .ok () (["Total energy: 14 (B^2)", "Radial   energy* 42.9%", "Poloidal energy  85.7%",
    "Toroidal energy  14.3%", "* The radial energy is part of the poloidal energy.",
    "poloidal l1 (dipole):     100.0% (% poloidal)", "poloidal l2 (quadrupole):  0.0% (% poloidal)",
    "poloidal l3 (octopole):    0.0% (% poloidal)", "toroidal l1: 100.0% (% toroidal)", "toroidal l2:  0.0% (% toroidal)",
    "toroidal l3:  0.0% (% toroidal)", "axisymmetric:          57.1% (% total)",
    "poloidal axisymmetric: 50.0% (% poloidal)", "toroidal axisymmetric: 100.0% (% toroidal)",
    "dipole axisymmetric:   50.0% (% dipole)"].map String.toList) := by
  rw [exPrinted _ (by decide +kernel) rfl]
  congr 1
  decide +kernel

/-- The lines of the table. -/
example : (table exReportS).drop 2 = ["  1    0  2.857143e-01  1.428571e-01  1.428571e-01".toList,
    "  1    1  1.428571e-01  2.857143e-01  0.000000e+00".toList] := by decide +kernel

/-- Percentages of a zero whole, of a negligible and of an infinite part. -/
example : [percent (div (fin false 0) (fin false 0)), percent (div (fin false 1) (fin false 10000)),
    percent (div (inf false) (fin false 3))] = [" nan%".toList, " 0.0%".toList, " inf%".toList] := by decide +kernel

/-- **C111.** The two percentages need not add up to 100.0: of 2000, 1 is poloidal and 1999 are toroidal. -/
theorem C111_hundred_sharp : ∃ s out, report false s [] = .ok () out ∧ s.alpha = fin false 1 ∧ s.beta = fin false 0 ∧
    s.gamma = fin false 1999 ∧ (out.drop 2).take 2 = ["Poloidal energy   0.1%".toList, "Toroidal energy  100.0%".toList] :=
  ⟨{ exReportS with alpha := fin false 1, beta := fin false 0, gamma := fin false 1999 }, _,
    exPrinted _ (by decide +kernel) rfl, rfl, rfl, rfl, by decide +kernel⟩

end Verif
