import Verif.Lemmas.FloatRound
import Verif.Model.FloatEnergy

/-!
# Values of the energies in double precision
-/

set_option exponentiation.threshold 4000

namespace Verif
namespace FloatEnergy
open Spec PyFloat FloatRange FloatSets FloatCoords FloatError FloatRound

/-- A finite float, its value, and a bound for it. -/
structure Vl (x : PyFloat) (q : ℚ) (k : ℤ) : Prop where
  fd : Fd x
  num : x.num = q
  size : |q| ≤ 2 ^ k

theorem two_zpow_le {i j : ℤ} (h : i ≤ j) : (2 : ℚ) ^ i ≤ 2 ^ j := zpow_le_zpow_right₀ (by norm_num) h

theorem two_zpow_max {i : ℤ} (h : i ≤ 1023) : (2 : ℚ) ^ i ≤ maxDouble := (two_zpow_le h).trans big_le_max

theorem rnd_size {q : ℚ} {k : ℤ} (h : |q| ≤ 2 ^ k) (h1 : -1022 ≤ k) (h2 : k ≤ 1023) : |rnd q| ≤ 2 ^ k := by
  rw [rnd_abs]; exact fl0_le_zpow h1 h2 (abs_nonneg _) h

namespace Vl
variable {x y : PyFloat} {p q : ℚ} {i j : ℤ}

theorem mono (h : Vl x p i) (hij : i ≤ j) : Vl x p j := ⟨h.fd, h.num, h.size.trans (two_zpow_le hij)⟩

theorem zero (s : Bool) : Vl (fin s 0) 0 i := ⟨fd_zero s, num_zero s, by rw [abs_zero]; positivity⟩

theorem mul (hx : Vl x p i) (hy : Vl y q j) (h1 : -1022 ≤ i + j) (h2 : i + j ≤ 1023) :
    Vl (PyFloat.mul x y) (rnd (p * q)) (i + j) := by
  have hs : |p * q| ≤ 2 ^ (i + j) := by
    rw [abs_mul, zpow_add₀ (by norm_num)]
    exact mul_le_mul hx.size hy.size (abs_nonneg _) (by positivity)
  have := mul_num hx.fd hy.fd (by rw [hx.num, hy.num]; exact hs.trans (two_zpow_max h2))
  rw [hx.num, hy.num] at this
  exact ⟨this.1, this.2, rnd_size hs h1 h2⟩

theorem add (hx : Vl x p i) (hy : Vl y q i) (h1 : -1023 ≤ i) (h2 : i ≤ 1022) : Vl (PyFloat.add x y) (rnd (p + q)) (i + 1) := by
  have hs : |p + q| ≤ 2 ^ (i + 1) := by
    rw [zpow_add₀ (by norm_num), zpow_one]
    have := abs_add_le p q
    have := hx.size
    have := hy.size
    linarith
  have := add_num hx.fd hy.fd (by rw [hx.num, hy.num]; exact hs.trans (two_zpow_max (by omega)))
  rw [hx.num, hy.num] at this
  exact ⟨this.1, this.2, rnd_size hs (by omega) (by omega)⟩

theorem neg (hx : Vl x p i) : Vl (PyFloat.neg x) (-p) i := by
  have := neg_num hx.fd
  rw [hx.num] at this
  exact ⟨this.1, this.2, by rw [abs_neg]; exact hx.size⟩

theorem sub (hx : Vl x p i) (hy : Vl y q i) (h1 : -1023 ≤ i) (h2 : i ≤ 1022) : Vl (PyFloat.sub x y) (rnd (p - q)) (i + 1) := by
  have := hx.add hy.neg h1 h2
  rw [← sub_eq_add_neg] at this
  exact this

theorem isZero (hx : Vl x 0 i) : ∃ s, x = fin s 0 := by
  obtain ⟨⟨s, a, rfl, ha⟩, h, -⟩ := hx
  have := num_abs s ha.nonneg
  rw [h, abs_zero] at this
  exact ⟨s, by rw [← this]⟩

theorem add_zero (hx : Vl x p i) (hy : Vl y 0 j) : Vl (PyFloat.add x y) p i := by
  obtain ⟨s, rfl⟩ := hy.isZero
  have := (fd_add_zero hx.fd s).1
  exact ⟨this.1, by rw [this.2, hx.num], hx.size⟩

theorem mul_zero (hx : Vl x p i) (hy : Vl y 0 j) : Vl (PyFloat.mul x y) 0 j := by
  obtain ⟨s, rfl⟩ := hy.isZero
  obtain ⟨t, a, rfl, -⟩ := hx.fd
  simp only [PyFloat.mul, MulZeroClass.mul_zero, ofMag_zero]
  exact zero _

theorem zero_mul (hx : Vl x p i) (hy : Vl y 0 j) : Vl (PyFloat.mul y x) 0 j := by
  obtain ⟨s, rfl⟩ := hy.isZero
  obtain ⟨t, a, rfl, -⟩ := hx.fd
  simp only [PyFloat.mul, MulZeroClass.zero_mul, ofMag_zero]
  exact zero _

theorem zero_add (hx : Vl x p i) (hy : Vl y 0 j) : Vl (PyFloat.add y x) p i := by
  obtain ⟨s, rfl⟩ := hy.isZero
  have := (fd_add_zero hx.fd s).2
  exact ⟨this.1, by rw [this.2, hx.num], hx.size⟩

theorem zero' (hx : Vl x (-0) i) : Vl x 0 i := by rwa [neg_zero] at hx

theorem zero_lower (hx : Vl x 0 i) : Vl x 0 j := ⟨hx.fd, hx.num, by rw [abs_zero]; positivity⟩

theorem congr (hx : Vl x p i) (h : p = q) : Vl x q i := h ▸ hx

end Vl

theorem vl_half : Vl (fin false (1 / 2)) (1 / 2) (-1) :=
  ⟨⟨false, 1 / 2, rfl, ⟨1, -1, by norm_num, by norm_num, by norm_num, by norm_num⟩⟩, rfl, by norm_num [abs_of_pos]⟩

theorem vl_quarter : Vl (fin false (1 / 4)) (1 / 4) (-2) :=
  ⟨⟨false, 1 / 4, rfl, ⟨1, -2, by norm_num, by norm_num, by norm_num, by norm_num⟩⟩, rfl, by norm_num [abs_of_pos]⟩

/-- Multiplication of a complex number by a real one. -/
theorem vl_cmul_real {z : PyFloat × PyFloat} {k : PyFloat} {p q r : ℚ} {i j : ℤ} (h1 : Vl z.1 p i) (h2 : Vl z.2 q i)
    (hk : Vl k r j) (hl : -1022 ≤ i + j) (hu : i + j ≤ 1023) :
    Vl (cmul z (k, fin false 0)).1 (rnd (p * r)) (i + j) ∧ Vl (cmul z (k, fin false 0)).2 (rnd (q * r)) (i + j) := by
  constructor
  · exact (h1.mul hk hl hu).add_zero (h2.mul_zero (Vl.zero (i := 0) false)).neg.zero'
  · have := (h2.mul hk hl hu)
    exact this.zero_add (h1.mul_zero (Vl.zero (i := 0) false))

section
variable {c : PyFloat × PyFloat} {x y : ℚ} (h1 : Vl c.1 x 510) (h2 : Vl c.2 y 510)
include h1 h2

/-- `Es` of one coefficient. -/
theorem plain_vl :
    Vl (plain c).1 (rnd (rnd (rnd (1 / 2 * x) * x) + rnd (rnd (1 / 2 * y) * y))) 1020 ∧
      Vl (plain c).2 (rnd (-rnd (rnd (1 / 2 * x) * y) + rnd (rnd (1 / 2 * y) * x))) 1020 := by
  have a1 : Vl (cmul (fin false (1 / 2), fin false 0) c).1 (rnd (1 / 2 * x)) 509 :=
    (vl_half.mul h1 (by norm_num) (by norm_num)).add_zero (h2.zero_mul (Vl.zero (i := 0) false)).neg.zero'
  have a2 : Vl (cmul (fin false (1 / 2), fin false 0) c).2 (rnd (1 / 2 * y)) 509 :=
    (vl_half.mul h2 (by norm_num) (by norm_num)).add_zero (h1.zero_mul (Vl.zero (i := 0) false))
  constructor
  · have b1 := a1.mul h1 (by norm_num) (by norm_num)
    have b2 := (a2.mul h2.neg (by norm_num) (by norm_num)).neg
    rw [mul_neg, rnd_neg, neg_neg] at b2
    exact b1.add b2 (by norm_num) (by norm_num)
  · have b1 := a1.mul h2.neg (by norm_num) (by norm_num)
    rw [mul_neg, rnd_neg] at b1
    exact b1.add (a2.mul h1 (by norm_num) (by norm_num)) (by norm_num) (by norm_num)

theorem square_vl :
    Vl (square c).1 (rnd (rnd (x * x) - rnd (y * y))) 1021 ∧ Vl (square c).2 (rnd (rnd (x * y) + rnd (x * y))) 1021 := by
  constructor
  · exact (h1.mul h1 (by norm_num) (by norm_num)).sub (h2.mul h2 (by norm_num) (by norm_num)) (by norm_num) (by norm_num)
  · have b := h2.mul h1 (by norm_num) (by norm_num)
    rw [mul_comm] at b
    exact (h1.mul h2 (by norm_num) (by norm_num)).add b (by norm_num) (by norm_num)

/-- `M0s` of one coefficient. -/
theorem zonal_vl (m : ℤ) :
    Vl (zonal m c).1 (if m = 0 then rnd (1 / 4 * rnd (rnd (rnd (x * x) - rnd (y * y)) + rnd (rnd (x * x) - rnd (y * y)))) else 0) 1020 ∧
      Vl (zonal m c).2 0 1020 := by
  have s1 := square_vl h1 h2
  have s2 := square_vl (c := conj c) h1 h2.neg
  rw [neg_mul_neg, mul_neg, rnd_neg, ← neg_add, rnd_neg] at s2
  have d1 : Vl (cadd (square c) (square (conj c))).1 _ 1022 := s1.1.add s2.1 (by norm_num) (by norm_num)
  have d2 : Vl (cadd (square c) (square (conj c))).2 _ 1022 := s1.2.add s2.2 (by norm_num) (by norm_num)
  rw [add_neg_cancel, rnd_zero] at d2
  have z0 : Vl (fin false 0) 0 (-2) := Vl.zero false
  unfold zonal
  by_cases hm : m = 0
  · have e : cmul (fin false (if m = 0 then 1 else 0), fin false 0) (fin false (1 / 4), fin false 0) =
        (fin false (1 / 4), fin false 0) := by rw [if_pos hm]; decide +kernel
    rw [e, if_pos hm]
    refine ⟨(vl_quarter.mul d1 (by norm_num) (by norm_num)).add_zero (d2.zero_mul z0).neg.zero', ?_⟩
    exact ((vl_quarter.mul_zero d2).add_zero (d1.zero_mul z0)).zero_lower
  · have e : cmul (fin false (if m = 0 then 1 else 0), fin false 0) (fin false (1 / 4), fin false 0) =
        (fin false 0, fin false 0) := by rw [if_neg hm]; decide +kernel
    rw [e, if_neg hm]
    refine ⟨((d1.zero_mul z0).add_zero (d2.zero_mul z0).neg.zero').zero_lower, ?_⟩
    exact ((d2.zero_mul z0).add_zero (d1.zero_mul z0)).zero_lower

/-- The value of the energy of `alpha` before the last rounding. -/
def inner (m : ℤ) (x y : ℚ) : ℚ :=
  rnd (rnd (rnd (1 / 2 * x) * x) + rnd (rnd (1 / 2 * y) * y)) +
    if m = 0 then rnd (1 / 4 * rnd (rnd (rnd (x * x) - rnd (y * y)) + rnd (rnd (x * x) - rnd (y * y)))) else 0

/-- The value of the energy of `alpha`. -/
def value (m : ℤ) (x y : ℚ) : ℚ := rnd (inner m x y)

/-- The imaginary part of the energy of `alpha`. -/
def rest (x y : ℚ) : ℚ := rnd (-rnd (rnd (1 / 2 * x) * y) + rnd (rnd (1 / 2 * y) * x))

theorem energy_vl (l m : ℤ) :
    Vl (energyC l m c false).1 (value m x y) 1021 ∧ Vl (energyC l m c false).2 (rest x y) 1020 := by
  have a := plain_vl h1 h2
  have b := zonal_vl h1 h2 m
  exact ⟨a.1.add b.1 (by norm_num) (by norm_num), a.2.add_zero b.2⟩

end

/-- The factor `l / (l + 1)`. -/
theorem factor_vl {l : ℤ} (h0 : 0 ≤ l) (h : l < 2 ^ 53) :
    Vl (PyFloat.div (ofInt l) (ofInt (l + 1))) (rnd (l / (l + 1))) 0 := by
  have key : ∀ n : ℤ, 0 ≤ n → n ≤ 2 ^ 53 → Fd (ofInt n) ∧ (ofInt n).num = n := by
    intro n hn hn'
    have hq : (0 : ℚ) ≤ n := by exact_mod_cast hn
    have hd : IsDouble (n : ℚ) := by
      rcases hn'.lt_or_eq with hlt | rfl
      · exact ⟨n.toNat, 0, by omega, by norm_num, by norm_num, by
          rw [zpow_zero, mul_one]; exact_mod_cast (Int.toNat_of_nonneg hn).symm⟩
      · exact ⟨1, 53, by norm_num, by norm_num, by norm_num, by norm_num⟩
    have e : ofInt n = fin false n := by
      unfold ofInt
      rw [abs_of_nonneg hq, ofMag_of_le hq hd.le_max, fl0_of_isDouble hd, decide_eq_false (by omega)]
    rw [e]
    exact ⟨⟨false, _, rfl, hd⟩, rfl⟩
  obtain ⟨a1, a2⟩ := key l h0 h.le
  obtain ⟨b1, b2⟩ := key (l + 1) (by omega) (by omega)
  have hq : (0 : ℚ) ≤ l := by exact_mod_cast h0
  have hs : |(l : ℚ) / (l + 1)| ≤ 2 ^ (0 : ℤ) := by
    rw [abs_of_nonneg (by positivity), zpow_zero, div_le_one (by positivity)]; linarith
  have := div_num a1 b1 (by rw [b2]; push_cast; positivity) (by
    rw [a2, b2]; push_cast; exact hs.trans (two_zpow_max (by norm_num)))
  rw [a2, b2] at this
  push_cast at this
  exact ⟨this.1, this.2, rnd_size hs (by norm_num) (by norm_num)⟩

theorem energy_vl_factor {c : PyFloat × PyFloat} {x y : ℚ} (h1 : Vl c.1 x 510) (h2 : Vl c.2 y 510) {l : ℤ} (h0 : 0 ≤ l)
    (h : l < 2 ^ 53) (m : ℤ) :
    Vl (energyC l m c true).1 (rnd (value m x y * rnd (l / (l + 1)))) 1021 ∧
      Vl (energyC l m c true).2 (rnd (rest x y * rnd (l / (l + 1)))) 1021 := by
  have a := energy_vl h1 h2 l m
  exact vl_cmul_real a.1 (a.2.mono (by norm_num)) (factor_vl h0 h) (by norm_num) (by norm_num)

/-! ### Sizes, signs and errors -/

theorem rnd_two {q : ℚ} (h : (2 : ℚ) ^ (-1022 : ℤ) ≤ |q| ∨ q = 0) : rnd (2 * q) = 2 * rnd q := by
  rcases h with h | rfl
  · rcases le_total 0 q with hq | hq
    · rw [abs_of_nonneg hq] at h
      rw [rnd_nonneg_eq (by linarith), rnd_nonneg_eq hq, fl0_two h]
    · rw [abs_of_nonpos hq] at h
      have := fl0_two h
      rw [← neg_neg q, mul_neg, rnd_neg, rnd_neg, rnd_nonneg_eq (by linarith), rnd_nonneg_eq (by linarith), this]; ring
  · simp [rnd_zero]

theorem rnd_half {x : ℚ} (hd : IsDouble |x|) (h : (2 : ℚ) ^ (-1021 : ℤ) ≤ |x| ∨ x = 0) : rnd (1 / 2 * x) = x / 2 := by
  have e : (2 : ℚ) ^ (-1021 : ℤ) = 2 * 2 ^ (-1022 : ℤ) := by
    rw [show (-1021 : ℤ) = 1 + -1022 by norm_num, zpow_add₀ (by norm_num), zpow_one]
  have := rnd_two (q := 1 / 2 * x) (by
    rcases h with h | rfl
    · left
      rw [e] at h
      rw [abs_mul, abs_of_pos (by norm_num : (0 : ℚ) < 1 / 2)]
      generalize (2 : ℚ) ^ (-1022 : ℤ) = t at *
      linarith
    · right; simp)
  rw [show 2 * (1 / 2 * x) = x by ring, rnd_double hd] at this
  linarith

/-- What is left as imaginary part is very small, even with subnormal numbers. -/
theorem rest_small {x y : ℚ} (hx : IsDouble |x|) (hy : IsDouble |y|) (h1 : |x| ≤ 2 ^ (510 : ℤ)) (h2 : |y| ≤ 2 ^ (510 : ℤ)) :
    |rest x y| ≤ 2 ^ (-511 : ℤ) := by
  have key : ∀ {x y : ℚ}, |x| ≤ 2 ^ (-1021 : ℤ) → |y| ≤ 2 ^ (510 : ℤ) →
      |rnd (rnd (1 / 2 * x) * y)| ≤ 2 ^ (-512 : ℤ) ∧ |rnd (rnd (1 / 2 * y) * x)| ≤ 2 ^ (-512 : ℤ) := by
    intro x y h1 h2
    have a1 : |1 / 2 * x| ≤ 2 ^ (-1022 : ℤ) := by
      rw [abs_mul, abs_of_pos (by norm_num : (0 : ℚ) < 1 / 2), show (-1022 : ℤ) = -1 + -1021 by norm_num,
        zpow_add₀ (by norm_num), show (2 : ℚ) ^ (-1 : ℤ) = 1 / 2 by norm_num]
      exact mul_le_mul_of_nonneg_left h1 (by norm_num)
    have a2 : |1 / 2 * y| ≤ 2 ^ (509 : ℤ) := by
      rw [abs_mul, abs_of_pos (by norm_num : (0 : ℚ) < 1 / 2), show (509 : ℤ) = -1 + 510 by norm_num,
        zpow_add₀ (by norm_num)]
      have : (2 : ℚ) ^ (-1 : ℤ) = 1 / 2 := by norm_num
      rw [this]
      exact mul_le_mul_of_nonneg_left h2 (by norm_num)
    have b1 := rnd_size a1 (by norm_num) (by norm_num)
    have b2 := rnd_size a2 (by norm_num) (by norm_num)
    constructor
    · refine rnd_size ?_ (by norm_num) (by norm_num)
      rw [abs_mul, show (-512 : ℤ) = -1022 + 510 by norm_num, zpow_add₀ (by norm_num)]
      exact mul_le_mul b1 h2 (abs_nonneg _) (by positivity)
    · refine rnd_size ?_ (by norm_num) (by norm_num)
      rw [abs_mul, show (-512 : ℤ) = 509 + -1021 by norm_num, zpow_add₀ (by norm_num)]
      exact mul_le_mul b2 h1 (abs_nonneg _) (by positivity)
  have fin : ∀ {a b : ℚ}, |a| ≤ 2 ^ (-512 : ℤ) → |b| ≤ 2 ^ (-512 : ℤ) → |rnd (-a + b)| ≤ 2 ^ (-511 : ℤ) := by
    intro a b ha hb
    refine rnd_size ?_ (by norm_num) (by norm_num)
    rw [show (-511 : ℤ) = 1 + -512 by norm_num, zpow_add₀ (by norm_num), zpow_one]
    have := abs_add_le (-a) b
    rw [abs_neg] at this
    linarith
  unfold rest
  by_cases c1 : |x| ≤ 2 ^ (-1021 : ℤ)
  · obtain ⟨k1, k2⟩ := key c1 h2
    exact fin k1 k2
  by_cases c2 : |y| ≤ 2 ^ (-1021 : ℤ)
  · obtain ⟨k1, k2⟩ := key c2 h1
    exact fin k2 k1
  rw [rnd_half hx (Or.inl (not_le.1 c1).le), rnd_half hy (Or.inl (not_le.1 c2).le), show x / 2 * y = y / 2 * x by ring,
    neg_add_cancel, rnd_zero, abs_zero]
  positivity

/-- Zero, or not so small that squares underflow, or so large that they overflow. -/
structure Sized (x : ℚ) : Prop where
  dbl : IsDouble |x|
  lower : x = 0 ∨ (2 : ℚ) ^ (-500 : ℤ) ≤ |x|
  upper : |x| ≤ 2 ^ (500 : ℤ)

theorem isDouble_double {d : ℚ} (h : IsDouble d) (hm : 2 * d ≤ 2 ^ (1023 : ℤ)) : IsDouble (2 * d) := by
  obtain ⟨n, e, h1, h2, h3, rfl⟩ := h
  rcases h3.lt_or_eq with h3 | rfl
  · refine ⟨n, e + 1, h1, by omega, by omega, ?_⟩
    rw [zpow_add₀ (by norm_num), zpow_one]; ring
  · refine ⟨2 * n, 971, ?_, h2, le_rfl, by push_cast; ring⟩
    by_contra hc
    rw [not_lt] at hc
    have h4 : ((2 ^ 53 : ℕ) : ℚ) ≤ ((2 * n : ℕ) : ℚ) := by exact_mod_cast hc
    push_cast at h4
    have h5 : (2 : ℚ) ^ (1023 : ℤ) = 2 ^ 52 * 2 ^ (971 : ℤ) := by
      rw [← zpow_natCast, ← zpow_add₀ (by norm_num)]; norm_num
    have h6 : (0 : ℚ) < 2 ^ (971 : ℤ) := by positivity
    rw [h5] at hm
    have h7 : 2 * (n : ℚ) ≤ 2 ^ 52 := le_of_mul_le_mul_right (by linarith) h6
    norm_num at h4 h7
    linarith

theorem rnd_isDouble {q : ℚ} (h : |q| ≤ maxDouble) : IsDouble |rnd q| := by
  rw [rnd_abs]; exact fl0_dbl (abs_nonneg _) h

/-- Half the square of a part, rounded. -/
theorem Sized.square {x : ℚ} (h : Sized x) : rnd (rnd (1 / 2 * x) * x) = rnd (x * x / 2) ∧ rnd (x * x) = 2 * rnd (x * x / 2) ∧
    0 ≤ rnd (x * x / 2) ∧ rnd (x * x / 2) ≤ 2 ^ (999 : ℤ) ∧ IsDouble (rnd (x * x / 2)) ∧
    |rnd (x * x / 2) - x * x / 2| ≤ x * x / 2 / 2 ^ 53 ∧ (x = 0 ∨ (2 : ℚ) ^ (-1001 : ℤ) ≤ x * x / 2) := by
  have hxx : 0 ≤ x * x / 2 := div_nonneg (mul_self_nonneg x) (by norm_num)
  have hl : x = 0 ∨ (2 : ℚ) ^ (-1001 : ℤ) ≤ x * x / 2 := by
    rcases h.lower with h0 | h0
    · exact Or.inl h0
    · right
      have : (2 : ℚ) ^ (-500 : ℤ) * 2 ^ (-500 : ℤ) ≤ |x| * |x| := mul_le_mul h0 h0 (by positivity) (abs_nonneg _)
      rw [abs_mul_abs_self, ← zpow_add₀ (by norm_num)] at this
      rw [show (-1001 : ℤ) = -500 + -500 - 1 by norm_num, zpow_sub₀ (by norm_num), zpow_one]
      exact div_le_div_of_nonneg_right this (by norm_num)
  have hl' : (2 : ℚ) ^ (-1022 : ℤ) ≤ |x * x / 2| ∨ x * x / 2 = 0 := by
    rcases hl with rfl | hl
    · right; simp
    · left; rw [abs_of_nonneg hxx]; exact (two_zpow_le (by norm_num)).trans hl
  have hu : |x * x / 2| ≤ 2 ^ (999 : ℤ) := by
    rw [abs_of_nonneg hxx]
    have : |x| * |x| ≤ 2 ^ (500 : ℤ) * 2 ^ (500 : ℤ) := mul_le_mul h.upper h.upper (abs_nonneg _) (by positivity)
    rw [abs_mul_abs_self, ← zpow_add₀ (by norm_num)] at this
    rw [show (999 : ℤ) = 500 + 500 - 1 by norm_num, zpow_sub₀ (by norm_num), zpow_one]
    exact div_le_div_of_nonneg_right this (by norm_num)
  have hn := rnd_nonneg hxx
  have hs := rnd_size hu (by norm_num) (by norm_num)
  rw [abs_of_nonneg hn] at hs
  have hd := rnd_isDouble (hu.trans (two_zpow_max (by norm_num)))
  rw [abs_of_nonneg hn] at hd
  have he := rnd_rel hl'
  rw [abs_of_nonneg hxx] at he
  refine ⟨?_, ?_, hn, hs, hd, he, hl⟩
  · rw [rnd_half h.dbl (h.lower.symm.imp (fun h => (two_zpow_le (by norm_num)).trans h) id)]
    congr 1; ring
  · rw [← rnd_two hl']; congr 1; ring

/-- The value of the energy through half the squares. -/
theorem inner_eq {x y : ℚ} (hx : Sized x) (hy : Sized y) (m : ℤ) :
    inner m x y = rnd (rnd (x * x / 2) + rnd (y * y / 2)) +
      if m = 0 then rnd (rnd (2 * rnd (x * x / 2) - 2 * rnd (y * y / 2)) / 2) else 0 := by
  obtain ⟨a1, a2, a3, a4, a5, -⟩ := hx.square
  obtain ⟨b1, b2, b3, b4, b5, -⟩ := hy.square
  unfold inner
  rw [a1, b1, a2, b2]
  congr 1
  generalize rnd (x * x / 2) = A at *
  generalize rnd (y * y / 2) = B at *
  have hs : |2 * A - 2 * B| ≤ 2 ^ (1000 : ℤ) := by
    rw [show (1000 : ℤ) = 1 + 999 by norm_num, zpow_add₀ (by norm_num), zpow_one, abs_le]
    constructor <;> linarith
  have hD := rnd_isDouble (hs.trans (two_zpow_max (by norm_num)))
  have hDs := rnd_size hs (by norm_num) (by norm_num)
  generalize rnd (2 * A - 2 * B) = D at *
  have h2 : IsDouble |D + D| := by
    rw [← two_mul, abs_mul, abs_two]
    refine isDouble_double hD ?_
    calc 2 * |D| ≤ 2 * 2 ^ (1000 : ℤ) := by linarith
      _ = 2 ^ (1001 : ℤ) := by rw [show (1001 : ℤ) = 1 + 1000 by norm_num, zpow_add₀ (by norm_num), zpow_one]
      _ ≤ _ := two_zpow_le (by norm_num)
  rw [rnd_double h2]
  congr 2
  ring

theorem inner_nonneg {x y : ℚ} (hx : Sized x) (hy : Sized y) (m : ℤ) : 0 ≤ inner m x y := by
  rw [inner_eq hx hy]
  obtain ⟨-, -, a3, a4, a5, -⟩ := hx.square
  obtain ⟨-, b2, b3, b4, b5, -⟩ := hy.square
  have hBd : rnd (2 * rnd (y * y / 2)) = 2 * rnd (y * y / 2) := by
    refine rnd_double ?_
    rw [abs_of_nonneg (by linarith)]
    refine isDouble_double b5 ?_
    have : (2 : ℚ) ^ (1000 : ℤ) = 2 * 2 ^ (999 : ℤ) := by
      rw [show (1000 : ℤ) = 1 + 999 by norm_num, zpow_add₀ (by norm_num), zpow_one]
    have h3 : (2 : ℚ) ^ (1000 : ℤ) ≤ 2 ^ (1023 : ℤ) := two_zpow_le (by norm_num)
    linarith
  generalize rnd (x * x / 2) = A at *
  generalize rnd (y * y / 2) = B at *
  have hM : (2 : ℚ) * 2 ^ (999 : ℤ) ≤ maxDouble := by
    have := two_zpow_max (i := 1000) (by norm_num)
    rwa [show (1000 : ℤ) = 1 + 999 by norm_num, zpow_add₀ (by norm_num), zpow_one] at this
  have hB1 : rnd B = B := rnd_double (by rwa [abs_of_nonneg b3])
  have h1 : B ≤ rnd (A + B) := by
    have := rnd_mono (p := B) (q := A + B) (by linarith) (by rw [abs_of_nonneg b3]; linarith)
      (by rw [abs_of_nonneg (by linarith)]; linarith)
    rwa [hB1] at this
  have hs : |2 * A - 2 * B| ≤ 2 ^ (1000 : ℤ) := by
    rw [show (1000 : ℤ) = 1 + 999 by norm_num, zpow_add₀ (by norm_num), zpow_one, abs_le]
    constructor <;> linarith
  have hDs := rnd_size hs (by norm_num) (by norm_num)
  have h2 : -(2 * B) ≤ rnd (2 * A - 2 * B) := by
    have := rnd_mono (p := -(2 * B)) (q := 2 * A - 2 * B) (by linarith)
      (by rw [abs_neg, abs_of_nonneg (by linarith)]; linarith) (hs.trans (two_zpow_max (by norm_num)))
    rwa [rnd_neg, hBd] at this
  generalize rnd (2 * A - 2 * B) = D at *
  have h3 : -B ≤ rnd (D / 2) := by
    have := rnd_mono (p := -B) (q := D / 2) (by linarith) (by rw [abs_neg, abs_of_nonneg b3]; linarith)
      (by
        rw [abs_div, abs_two]
        have : (2 : ℚ) ^ (1000 : ℤ) ≤ maxDouble := two_zpow_max (by norm_num)
        have := abs_nonneg D
        linarith)
    rwa [rnd_neg, hB1] at this
  split_ifs
  · linarith
  · linarith

theorem value_nonneg {x y : ℚ} (hx : Sized x) (hy : Sized y) (m : ℤ) : 0 ≤ value m x y := rnd_nonneg (inner_nonneg hx hy m)

theorem rnd_le_of_double {p q : ℚ} (hp : IsDouble p) (h : p ≤ q) (hq : q ≤ maxDouble) : p ≤ rnd q := by
  have h0 := hp.nonneg
  have := rnd_mono h (by rw [abs_of_nonneg h0]; exact hp.le_max) (by rw [abs_of_nonneg (h0.trans h)]; exact hq)
  rwa [rnd_double (by rwa [abs_of_nonneg h0])] at this

/-- The sum of half the squares. -/
theorem plain_bounds {x y : ℚ} (hx : Sized x) (hy : Sized y) :
    rnd (x * x / 2) ≤ rnd (rnd (x * x / 2) + rnd (y * y / 2)) ∧ rnd (y * y / 2) ≤ rnd (rnd (x * x / 2) + rnd (y * y / 2)) ∧
    rnd (rnd (x * x / 2) + rnd (y * y / 2)) ≤ 2 ^ (1000 : ℤ) ∧
    IsDouble (rnd (rnd (x * x / 2) + rnd (y * y / 2))) ∧
    |rnd (rnd (x * x / 2) + rnd (y * y / 2)) - (rnd (x * x / 2) + rnd (y * y / 2))| ≤
      (rnd (x * x / 2) + rnd (y * y / 2)) / 2 ^ 53 := by
  obtain ⟨-, -, a3, a4, a5, -⟩ := hx.square
  obtain ⟨-, -, b3, b4, b5, -⟩ := hy.square
  have hs : |rnd (x * x / 2) + rnd (y * y / 2)| ≤ 2 ^ (1000 : ℤ) := by
    rw [show (1000 : ℤ) = 1 + 999 by norm_num, zpow_add₀ (by norm_num), zpow_one, abs_of_nonneg (by linarith)]
    generalize (2 : ℚ) ^ (999 : ℤ) = t at *
    linarith
  have hs' := hs
  rw [abs_of_nonneg (by linarith)] at hs'
  have hm := hs'.trans (two_zpow_max (by norm_num))
  have hz := rnd_size hs (by norm_num) (by norm_num)
  have hd := rnd_isDouble (hs.trans (two_zpow_max (by norm_num)))
  have hn := rnd_nonneg (add_nonneg a3 b3)
  rw [abs_of_nonneg hn] at hz hd
  refine ⟨rnd_le_of_double a5 (by linarith) hm, rnd_le_of_double b5 (by linarith) hm, hz, hd, ?_⟩
  have := rnd_add_rel (x := fin false (rnd (x * x / 2))) (y := fin false (rnd (y * y / 2))) ⟨_, _, rfl, a5⟩ ⟨_, _, rfl, b5⟩
  simp only [num, Bool.false_eq_true, if_false] at this
  rwa [abs_of_nonneg (add_nonneg a3 b3)] at this

theorem Sized.pos {x : ℚ} (h : Sized x) (h0 : x ≠ 0) : (2 : ℚ) ^ (-1001 : ℤ) ≤ rnd (x * x / 2) := by
  obtain ⟨-, -, a3, a4, a5, a6, a7⟩ := h.square
  have hu : x * x / 2 ≤ maxDouble := by
    have hx2 : 0 ≤ x * x / 2 := div_nonneg (mul_self_nonneg x) (by norm_num)
    have : |x| * |x| ≤ 2 ^ (500 : ℤ) * 2 ^ (500 : ℤ) := mul_le_mul h.upper h.upper (abs_nonneg _) (by positivity)
    rw [abs_mul_abs_self, ← zpow_add₀ (by norm_num)] at this
    have h1 : (2 : ℚ) ^ ((500 : ℤ) + 500) ≤ maxDouble := two_zpow_max (by norm_num)
    linarith
  exact rnd_le_of_double (isDouble_two_zpow (by norm_num) (by norm_num)) (a7.resolve_left h0) hu

theorem pos_sign {x : PyFloat} (hx : Fd x) (h : 0 < x.num) : ∃ q, x = fin false q := by
  obtain ⟨s, a, rfl, ha⟩ := hx
  cases s
  · exact ⟨a, rfl⟩
  · have := ha.nonneg
    simp only [num, if_true] at h
    linarith

theorem add_sign {a : ℚ} {y : PyFloat} (hy : Fd y) (h : 0 ≤ a + y.num) (hf : Fd (PyFloat.add (fin false a) y)) :
    ∃ q, PyFloat.add (fin false a) y = fin false q := by
  obtain ⟨t, b, rfl, -⟩ := hy
  have ha : (fin false a).num = a := rfl
  simp only [PyFloat.add, ha] at hf ⊢
  split_ifs at hf ⊢ with h0
  · exact ⟨0, by simp⟩
  · rw [decide_eq_false (not_lt.2 h)] at hf ⊢
    obtain ⟨s, q, hq, -⟩ := hf
    unfold ofMag at hq ⊢
    split_ifs at hq ⊢
    exact ⟨_, rfl⟩

theorem factor_sign {l : ℤ} (h0 : 0 ≤ l) (h : l < 2 ^ 53) : ∃ q, PyFloat.div (ofInt l) (ofInt (l + 1)) = fin false q := by
  obtain ⟨s, q, hq, -⟩ := (factor_vl h0 h).fd
  have key : ∀ n : ℤ, 0 ≤ n → (∃ q, ofInt n = fin false q) ∨ ofInt n = inf false := by
    intro n hn
    unfold ofInt
    rw [decide_eq_false (by omega)]
    unfold ofMag
    split_ifs
    · exact Or.inr rfl
    · exact Or.inl ⟨_, rfl⟩
  have hof : ∀ q, (∃ r, ofMag false q = fin false r) ∨ ofMag false q = inf false := by
    intro q
    unfold ofMag
    split_ifs
    · exact Or.inr rfl
    · exact Or.inl ⟨_, rfl⟩
  rcases key l h0 with ⟨a, ha⟩ | ha <;> rcases key (l + 1) (by omega) with ⟨b, hb⟩ | hb <;> rw [ha, hb] at hq ⊢ <;>
    simp only [PyFloat.div, bne_self_eq_false] at hq ⊢
  · split_ifs at hq ⊢
    rcases hof (a / b) with h | h
    · exact h
    · rw [h] at hq; cases hq
  · exact ⟨_, rfl⟩
  · cases hq
  · cases hq

/-- The value of an energy. -/
def valueF (l m : ℤ) (lt : Bool) (x y : ℚ) : ℚ := if lt then rnd (value m x y * rnd (l / (l + 1))) else value m x y

/-- An energy is a float without sign, and the imaginary part is dropped. -/
theorem energy_fin {c : PyFloat × PyFloat} (h1 : Fd c.1) (h2 : Fd c.2) (s1 : Sized c.1.num) (s2 : Sized c.2.num) {l : ℤ}
    (hl0 : 0 ≤ l) (hl : l < 2 ^ 53) (m : ℤ) (lt : Bool) :
    (energyC l m c lt).1 = fin false (valueF l m lt c.1.num c.2.num) ∧ IsDouble (valueF l m lt c.1.num c.2.num) := by
  have v1 : Vl c.1 c.1.num 510 := ⟨h1, rfl, s1.upper.trans (two_zpow_le (by norm_num))⟩
  have v2 : Vl c.2 c.2.num 510 := ⟨h2, rfl, s2.upper.trans (two_zpow_le (by norm_num))⟩
  have fin_eq : ∀ {x : PyFloat} {q : ℚ} {k : ℤ}, Vl x q k → (∃ a, x = fin false a) → x = fin false q ∧ IsDouble q := by
    rintro x q k ⟨⟨s, b, hb, hd⟩, h, -⟩ ⟨a, rfl⟩
    cases hb
    have : q = b := h.symm
    rw [this]; exact ⟨rfl, hd⟩
  have base : ∃ a, (energyC l m c false).1 = fin false a := by
    by_cases hz : c.1.num = 0 ∧ c.2.num = 0
    · obtain ⟨⟨x, y⟩, hc⟩ : ∃ z, z = c := ⟨c, rfl⟩
      obtain ⟨s, hs⟩ := (v1.congr hz.1).isZero
      obtain ⟨t, ht⟩ := (v2.congr hz.2).isZero
      have e : c = (fin s 0, fin t 0) := Prod.ext hs ht
      refine ⟨0, ?_⟩
      rw [e]
      by_cases hm : m = 0
      · simp only [energyC, zonal, if_pos hm, Bool.false_eq_true, if_false]
        cases s <;> cases t <;> decide +kernel
      · simp only [energyC, zonal, if_neg hm, Bool.false_eq_true, if_false]
        cases s <;> cases t <;> decide +kernel
    · have p := (plain_vl v1 v2).1
      have hv := value_nonneg s1 s2 m
      have b := plain_bounds s1 s2
      have e1 := s1.square.1
      have e2 := s2.square.1
      rw [e1, e2] at p
      have hpos : 0 < rnd (rnd (c.1.num * c.1.num / 2) + rnd (c.2.num * c.2.num / 2)) := by
        have ht : (0 : ℚ) < 2 ^ (-1001 : ℤ) := by positivity
        rw [not_and_or] at hz
        rcases hz with hz | hz
        · exact ht.trans_le ((s1.pos hz).trans b.1)
        · exact ht.trans_le ((s2.pos hz).trans b.2.1)
      obtain ⟨a, ha⟩ := pos_sign p.fd (by rw [p.num]; exact hpos)
      have hz := (zonal_vl v1 v2 m).1
      have he := (energy_vl v1 v2 l m).1
      change ∃ a, PyFloat.add (plain c).1 (zonal m c).1 = fin false a
      change Vl (PyFloat.add (plain c).1 (zonal m c).1) _ _ at he
      have hsum : 0 ≤ (plain c).1.num + (zonal m c).1.num := by
        rw [hz.num, (plain_vl v1 v2).1.num]
        exact inner_nonneg s1 s2 m
      rw [ha] at he hsum ⊢
      exact add_sign hz.fd hsum he.fd
  cases lt
  · exact fin_eq (energy_vl v1 v2 l m).1 base
  · have e := energy_vl_factor v1 v2 hl0 hl m
    refine fin_eq e.1 ?_
    obtain ⟨a, ha⟩ := base
    obtain ⟨k, hk⟩ := factor_sign hl0 hl
    have b := energy_vl v1 v2 l m
    have f := factor_vl hl0 hl
    have mm := b.1.mul f (by norm_num) (by norm_num)
    have zz := (b.2.mul_zero (Vl.zero (i := 0) false)).neg
    have he : (energyC l m c true).1 = PyFloat.add (PyFloat.mul (energyC l m c false).1 (PyFloat.div (ofInt l) (ofInt (l + 1))))
        (PyFloat.neg (PyFloat.mul (energyC l m c false).2 (fin false 0))) := rfl
    have hms : ∃ r, PyFloat.mul (energyC l m c false).1 (PyFloat.div (ofInt l) (ofInt (l + 1))) = fin false r := by
      have hf := mm.fd
      rw [ha, hk] at hf ⊢
      simp only [PyFloat.mul, bne_self_eq_false] at hf ⊢
      obtain ⟨s, q, hq, -⟩ := hf
      unfold ofMag at hq ⊢
      split_ifs at hq ⊢
      exact ⟨_, rfl⟩
    obtain ⟨r, hr⟩ := hms
    have h3 := e.1.fd
    rw [he, hr] at h3 ⊢
    refine add_sign zz.fd ?_ h3
    rw [zz.num, neg_zero, add_zero]
    have h4 := mm.num
    rw [hr] at h4
    change r = _ at h4
    rw [h4]
    have hq : (0 : ℚ) ≤ l := by exact_mod_cast hl0
    exact rnd_nonneg (mul_nonneg (value_nonneg s1 s2 m) (rnd_nonneg (by positivity)))

/-- The energy by its definition. -/
noncomputable def exactF (l m : ℤ) (lt : Bool) (x y : ℚ) : ℝ :=
  (if m = 0 then (x : ℝ) ^ 2 else ((x : ℝ) ^ 2 + (y : ℝ) ^ 2) / 2) * (if lt then (l : ℝ) / (l + 1) else 1)

theorem Sized.rel {x : ℚ} (h : Sized x) : Rel 1 (rnd (x * x / 2) : ℚ) ((x : ℝ) ^ 2 / 2) := by
  obtain ⟨-, -, -, -, -, a6, -⟩ := h.square
  have h2 := (Rat.cast_le (K := ℝ)).2 a6
  push_cast at h2
  rw [← pow_two (x : ℝ)] at h2
  exact rel_of_err (by positivity) h2

/-- The energy of `alpha`, unless an imaginary part is to be hidden. -/
theorem value_rel {x y : ℚ} (hx : Sized x) (hy : Sized y) {m : ℤ} (hm : m ≠ 0 ∨ y = 0) :
    Rel 2 (value m x y : ℚ) (if m = 0 then (x : ℝ) ^ 2 else ((x : ℝ) ^ 2 + (y : ℝ) ^ 2) / 2) ∧
      (value m x y = 0 ∨ (2 : ℚ) ^ (-1001 : ℤ) ≤ value m x y) := by
  obtain ⟨-, a2, a3, a4, a5, -, a7⟩ := hx.square
  have b := plain_bounds hx hy
  by_cases h0 : m = 0
  · obtain rfl : y = 0 := hm.resolve_left (not_not.2 h0)
    have e : value m x 0 = 2 * rnd (x * x / 2) := by
      unfold value
      rw [inner_eq hx hy, if_pos h0]
      simp only [mul_zero, zero_div, rnd_zero, sub_zero, add_zero]
      have d2 : IsDouble (2 * rnd (x * x / 2)) := by
        refine isDouble_double a5 ?_
        have : (2 : ℚ) ^ (1000 : ℤ) = 2 * 2 ^ (999 : ℤ) := by
          rw [show (1000 : ℤ) = 1 + 999 by norm_num, zpow_add₀ (by norm_num), zpow_one]
        have h3 : (2 : ℚ) ^ (1000 : ℤ) ≤ 2 ^ (1023 : ℤ) := two_zpow_le (by norm_num)
        generalize (2 : ℚ) ^ (999 : ℤ) = t at *
        linarith
      have r1 : rnd (rnd (x * x / 2)) = rnd (x * x / 2) := rnd_double (by rwa [abs_of_nonneg a3])
      have r2 : rnd (2 * rnd (x * x / 2)) = 2 * rnd (x * x / 2) := rnd_double (by rwa [abs_of_nonneg (by linarith)])
      rw [r1, r2, mul_div_cancel_left₀ _ (by norm_num : (2 : ℚ) ≠ 0), r1, ← two_mul, r2]
    rw [e, if_pos h0]
    constructor
    · have r := hx.rel
      have := (r.add r).mono (k := 2) (by norm_num)
      rw [add_halves] at this
      push_cast
      rwa [two_mul]
    · by_cases hx0 : x = 0
      · left; simp [hx0, rnd_zero]
      · right
        have := hx.pos hx0
        linarith
  · have e : value m x y = rnd (rnd (x * x / 2) + rnd (y * y / 2)) := by
      unfold value
      rw [inner_eq hx hy, if_neg h0, add_zero]
      exact rnd_double (by rw [abs_of_nonneg (a3.trans b.1)]; exact b.2.2.2.1)
    rw [e, if_neg h0]
    constructor
    · obtain ⟨-, -, b3, -, b5, -⟩ := hy.square
      have r := (hx.rel.add hy.rel).trans
        (rel_rnd_add (x := fin false (rnd (x * x / 2))) (y := fin false (rnd (y * y / 2))) ⟨_, _, rfl, a5⟩ ⟨_, _, rfl, b5⟩
          (add_nonneg a3 b3))
      rw [← add_div] at r
      exact r
    · by_cases hx0 : x = 0
      · by_cases hy0 : y = 0
        · left; simp [hx0, hy0, rnd_zero]
        · exact Or.inr ((hy.pos hy0).trans b.2.1)
      · exact Or.inr ((hx.pos hx0).trans b.1)

theorem factor_rel {l : ℤ} (h0 : 0 ≤ l) : Rel 1 ((rnd (l / (l + 1)) : ℚ) : ℝ) ((l : ℝ) / (l + 1)) ∧
    (rnd ((l : ℚ) / (l + 1)) = 0 ∨ (1 / 2 : ℚ) ≤ rnd ((l : ℚ) / (l + 1))) ∧ ((l : ℚ) / (l + 1) = 0 ∨ (1 / 2 : ℚ) ≤ (l : ℚ) / (l + 1)) ∧
    0 ≤ rnd ((l : ℚ) / (l + 1)) ∧ rnd ((l : ℚ) / (l + 1)) ≤ 1 := by
  have hq : (0 : ℚ) ≤ l := by exact_mod_cast h0
  have hn : (0 : ℚ) ≤ (l : ℚ) / (l + 1) := by positivity
  have h1 : (l : ℚ) / (l + 1) ≤ 1 := by rw [div_le_one (by positivity)]; linarith
  have hl : (l : ℚ) / (l + 1) = 0 ∨ (1 / 2 : ℚ) ≤ (l : ℚ) / (l + 1) := by
    rcases h0.eq_or_lt with rfl | hl
    · left; simp
    · right
      have : (1 : ℚ) ≤ l := by exact_mod_cast hl
      rw [le_div_iff₀ (by positivity)]
      linarith
  have hM : (1 : ℚ) ≤ maxDouble := isDouble_one.le_max
  refine ⟨?_, ?_, hl, rnd_nonneg hn, ?_⟩
  · have := rel_rnd hn (hl.symm.imp (fun h => le_trans (by
      have := two_zpow_le (i := -1022) (j := -1) (by norm_num)
      have e : (2 : ℚ) ^ (-1 : ℤ) = 1 / 2 := by norm_num
      rwa [e] at this) h) id)
    push_cast at this
    exact this
  · rcases hl with hl | hl
    · left; rw [hl, rnd_zero]
    · right; exact rnd_le_of_double ⟨1, -1, by norm_num, by norm_num, by norm_num, by norm_num⟩ hl (h1.trans hM)
  · rw [rnd_nonneg_eq hn]; exact fl0_le isDouble_one hn h1

/-- An energy, unless an imaginary part is to be hidden. -/
theorem valueF_rel {x y : ℚ} (hx : Sized x) (hy : Sized y) {l m : ℤ} (hl : 0 ≤ l) (hm : m ≠ 0 ∨ y = 0) (lt : Bool) :
    Rel 4 (valueF l m lt x y : ℚ) (exactF l m lt x y) := by
  obtain ⟨r, hv⟩ := value_rel hx hy hm
  have hn := value_nonneg hx hy m
  cases lt
  · simp only [valueF, exactF, Bool.false_eq_true, if_false, mul_one]
    exact r.mono (by norm_num)
  · simp only [valueF, exactF, if_true]
    obtain ⟨f1, f2, -, f4, -⟩ := factor_rel hl
    have hp : (2 : ℚ) ^ (-1022 : ℤ) ≤ value m x y * rnd ((l : ℚ) / (l + 1)) ∨ value m x y * rnd ((l : ℚ) / (l + 1)) = 0 := by
      rcases hv with hv | hv
      · right; rw [hv, zero_mul]
      · rcases f2 with f2 | f2
        · right; rw [f2, mul_zero]
        · left
          calc (2 : ℚ) ^ (-1022 : ℤ) ≤ 2 ^ (-1002 : ℤ) := two_zpow_le (by norm_num)
            _ = 2 ^ (-1001 : ℤ) * (1 / 2) := by
              rw [show (-1002 : ℤ) = -1001 - 1 by norm_num, zpow_sub₀ (by norm_num), zpow_one]; ring
            _ ≤ _ := mul_le_mul hv f2 (by norm_num) (by linarith)
    have := rel_rnd (mul_nonneg hn f4) hp
    have e := (r.mul f1).trans (by push_cast at this ⊢; exact this)
    exact e

theorem rnd_err (q : ℚ) : |rnd q - q| ≤ |q| / 2 ^ 53 + 2 ^ (-1075 : ℤ) := by
  rw [rnd_sub_abs]; exact fl0_err (abs_nonneg _)

theorem sum_floor {x y t : ℚ} (hx : x = 0 ∨ t ≤ x * x / 2) (hy : y = 0 ∨ t ≤ y * y / 2)
    (hz : ¬(x = 0 ∧ y = 0)) : t ≤ x * x + y * y := by
  have px : 0 ≤ x * x := mul_self_nonneg x
  have py : 0 ≤ y * y := mul_self_nonneg y
  rcases hx with h | h
  · rcases hy with h' | h'
    · exact absurd ⟨h, h'⟩ hz
    · linarith
  · linarith

/-- The energy of `alpha` in order 0, with an imaginary part that does not count. -/
theorem value_hidden {x y : ℚ} (hx : Sized x) (hy : Sized y) : |value 0 x y - x * x| ≤ (x * x + y * y) / 2 ^ 51 := by
  by_cases hz : x = 0 ∧ y = 0
  · obtain ⟨rfl, rfl⟩ := hz
    unfold value
    rw [inner_eq hx hy]
    simp [rnd_zero]
  obtain ⟨-, a2, a3, a4, a5, a6, a7⟩ := hx.square
  obtain ⟨-, b2, b3, b4, b5, b6, b7⟩ := hy.square
  have b := plain_bounds hx hy
  have hR : (2 : ℚ) ^ (-1075 : ℤ) ≤ (x * x + y * y) / 2 ^ 73 := by
    have px : 0 ≤ x * x := mul_self_nonneg x
    have py : 0 ≤ y * y := mul_self_nonneg y
    have : (2 : ℚ) ^ (-1001 : ℤ) ≤ x * x + y * y := sum_floor a7 b7 hz
    calc (2 : ℚ) ^ (-1075 : ℤ) ≤ 2 ^ (-1074 : ℤ) := two_zpow_le (by norm_num)
      _ = 2 ^ (-1001 : ℤ) / 2 ^ 73 := by
        rw [show (-1074 : ℤ) = -1001 - 73 by norm_num, zpow_sub₀ (by norm_num)]; norm_cast
      _ ≤ _ := by gcongr
  unfold value
  rw [inner_eq hx hy, if_pos rfl]
  have px : 0 ≤ x * x := mul_self_nonneg x
  have py : 0 ≤ y * y := mul_self_nonneg y
  generalize rnd (x * x / 2) = A at *
  generalize rnd (y * y / 2) = B at *
  have e1 := b.2.2.2.2
  generalize rnd (A + B) = s at *
  have e2 : |rnd (2 * A - 2 * B) - (2 * A - 2 * B)| ≤ (2 * A + 2 * B) / 2 ^ 53 + 2 ^ (-1075 : ℤ) := by
    refine (rnd_err _).trans ?_
    have : |2 * A - 2 * B| ≤ 2 * A + 2 * B := by rw [abs_le]; constructor <;> linarith
    gcongr
  generalize rnd (2 * A - 2 * B) = D at *
  have e3 := rnd_err (D / 2)
  generalize rnd (D / 2) = h at *
  have e4 := rnd_err (s + h)
  generalize rnd (s + h) = e at *
  generalize x * x = X at *
  generalize y * y = Y at *
  generalize (2 : ℚ) ^ (-1075 : ℤ) = t at *
  have e1' := abs_le.1 e1
  have e2' := abs_le.1 e2
  have a6' := abs_le.1 a6
  have b6' := abs_le.1 b6
  have hD : |D / 2| ≤ (X + Y) := by
    rw [abs_le]
    constructor <;> linarith
  have e3' : |h - D / 2| ≤ (X + Y) * (1 / 2 ^ 54 + 1 / 2 ^ 70) := by
    refine e3.trans ?_
    have hD' : |D / 2| ≤ (X + Y) * (1 / 2 + 1 / 2 ^ 50) := by
      rw [abs_le]
      constructor <;> linarith
    linarith
  have e3'' := abs_le.1 e3'
  have hS : |s + h| ≤ (X + Y) * (1 + 1 / 2 ^ 49) := by
    rw [abs_le]
    constructor <;> linarith
  have e4' := abs_le.1 (e4.trans (add_le_add_left (div_le_div_of_nonneg_right hS (by positivity : (0 : ℚ) ≤ 2 ^ 53)) t))
  rw [abs_le]
  constructor <;> linarith

/-- The energies of order 0 with an imaginary part that does not count. -/
theorem valueF_hidden {x y : ℚ} (hx : Sized x) (hy : Sized y) {l : ℤ} (hl : 0 ≤ l) (lt : Bool) :
    |((valueF l 0 lt x y : ℚ) : ℝ) - exactF l 0 lt x y| ≤ ((x : ℝ) ^ 2 + (y : ℝ) ^ 2) / 2 ^ 50 := by
  have key : |valueF l 0 lt x y - x * x * (if lt then (l : ℚ) / (l + 1) else 1)| ≤ (x * x + y * y) / 2 ^ 50 := by
    have h := value_hidden hx hy
    have px : 0 ≤ x * x := mul_self_nonneg x
    have py : 0 ≤ y * y := mul_self_nonneg y
    cases lt
    · simp only [valueF, Bool.false_eq_true, if_false, mul_one]
      refine h.trans ?_
      have : 0 ≤ x * x + y * y := by linarith
      gcongr <;> norm_num
    · simp only [valueF, if_true]
      by_cases hz : x = 0 ∧ y = 0
      · obtain ⟨rfl, rfl⟩ := hz
        have : value 0 0 0 = 0 := by
          unfold value
          rw [inner_eq hx hy]
          simp [rnd_zero]
        simp [this, rnd_zero]
      have hR : (2 : ℚ) ^ (-1075 : ℤ) ≤ (x * x + y * y) / 2 ^ 73 := by
        have a7 := hx.square.2.2.2.2.2.2
        have b7 := hy.square.2.2.2.2.2.2
        have : (2 : ℚ) ^ (-1001 : ℤ) ≤ x * x + y * y := sum_floor a7 b7 hz
        calc (2 : ℚ) ^ (-1075 : ℤ) ≤ 2 ^ (-1074 : ℤ) := two_zpow_le (by norm_num)
          _ = 2 ^ (-1001 : ℤ) / 2 ^ 73 := by
            rw [show (-1074 : ℤ) = -1001 - 73 by norm_num, zpow_sub₀ (by norm_num)]; norm_cast
          _ ≤ _ := by gcongr
      have hn := value_nonneg hx hy 0
      obtain ⟨-, -, f3, f4, f5⟩ := factor_rel hl
      have hq : (0 : ℚ) ≤ l := by exact_mod_cast hl
      have g0 : (0 : ℚ) ≤ (l : ℚ) / (l + 1) := by positivity
      have g1 : (l : ℚ) / (l + 1) ≤ 1 := by rw [div_le_one (by positivity)]; linarith
      have f6 : |rnd ((l : ℚ) / (l + 1)) - (l : ℚ) / (l + 1)| ≤ 1 / 2 ^ 53 := by
        have := rnd_rel (q := (l : ℚ) / (l + 1)) (by
          rw [abs_of_nonneg g0]
          refine f3.symm.imp (fun h => le_trans ?_ h) id
          have := two_zpow_le (i := -1022) (j := -1) (by norm_num)
          have e : (2 : ℚ) ^ (-1 : ℤ) = 1 / 2 := by norm_num
          rwa [e] at this)
        rw [abs_of_nonneg g0] at this
        refine this.trans ?_
        gcongr
      have e := rnd_err (value 0 x y * rnd ((l : ℚ) / (l + 1)))
      rw [abs_of_nonneg (mul_nonneg hn f4)] at e
      generalize rnd (value 0 x y * rnd ((l : ℚ) / (l + 1))) = E at *
      generalize value 0 x y = V at *
      generalize rnd ((l : ℚ) / (l + 1)) = k at *
      generalize (l : ℚ) / (l + 1) = κ at *
      generalize x * x = X at *
      generalize y * y = Y at *
      generalize (2 : ℚ) ^ (-1075 : ℤ) = t at *
      have h' := abs_le.1 h
      have hV : V ≤ (X + Y) * (1 + 1 / 2 ^ 51) := by linarith
      have hVk : V * k ≤ (X + Y) * (1 + 1 / 2 ^ 51) := by
        calc V * k ≤ V * 1 := mul_le_mul_of_nonneg_left f5 hn
          _ ≤ _ := by linarith
      have h2 : |V * (k - κ)| ≤ (X + Y) * (1 + 1 / 2 ^ 51) * (1 / 2 ^ 53) := by
        rw [abs_mul, abs_of_nonneg hn]
        exact mul_le_mul hV f6 (abs_nonneg _) (by nlinarith)
      have h3 : |(V - X) * κ| ≤ (X + Y) / 2 ^ 51 := by
        rw [abs_mul, abs_of_nonneg g0]
        calc |V - X| * κ ≤ |V - X| * 1 := mul_le_mul_of_nonneg_left g1 (abs_nonneg _)
          _ ≤ _ := by linarith
      have e' := abs_le.1 e
      have h2' := abs_le.1 h2
      have h3' := abs_le.1 h3
      have id1 : E - X * κ = (E - V * k) + V * (k - κ) + (V - X) * κ := by ring
      rw [id1, abs_le]
      constructor <;> linarith
  have h2 := (Rat.cast_le (K := ℝ)).2 key
  unfold exactF
  rw [if_pos rfl]
  cases lt
  · simp only [Bool.false_eq_true, if_false] at h2 ⊢
    push_cast at h2
    rwa [← pow_two, ← pow_two] at h2
  · simp only [if_true] at h2 ⊢
    push_cast at h2
    rwa [← pow_two, ← pow_two] at h2

/-! ### Sums -/

/-- A float without sign, or a negative zero. -/
def NonNeg (x : PyFloat) : Prop := ∃ s q, x = fin s q ∧ IsDouble q ∧ (s = true → q = 0)

/-- The number of terms that are not zero. -/
def count (xs : List PyFloat) : ℕ := (xs.filter fun x => decide (x.num ≠ 0)).length

/-- The exact sum. -/
def total (xs : List PyFloat) : ℚ := (xs.map num).sum

theorem NonNeg.num_nonneg {x : PyFloat} (h : NonNeg x) : 0 ≤ x.num := by
  obtain ⟨s, q, rfl, hd, h⟩ := h
  cases s
  · exact hd.nonneg
  · rw [h rfl, num_zero]

theorem total_nonneg {xs : List PyFloat} (h : ∀ x ∈ xs, NonNeg x) : 0 ≤ total xs := by
  apply List.sum_nonneg
  intro q hq
  obtain ⟨x, hx, rfl⟩ := List.mem_map.1 hq
  exact (h x hx).num_nonneg

theorem count_zero {xs : List PyFloat} (h : count xs = 0) : total xs = 0 := by
  unfold count at h
  rw [List.length_eq_zero_iff, List.filter_eq_nil_iff] at h
  apply List.sum_eq_zero
  intro q hq
  obtain ⟨x, hx, rfl⟩ := List.mem_map.1 hq
  simpa using h x hx

theorem tree_sum (t : SumTree) (h : ∀ x ∈ t.terms, NonNeg x) (hn : count t.terms ≤ 2 ^ 40)
    (ht : total t.terms ≤ 2 ^ (1000 : ℤ)) :
    (∃ s q, t.sum id = fin s q ∧ IsDouble q ∧ (s = true → ∀ x ∈ t.terms, ∃ a, x = fin true a) ∧ (s = true → q = 0)) ∧
      Rel (count t.terms) ((t.sum id).num : ℝ) (total t.terms : ℚ) := by
  induction t with
  | leaf x =>
    obtain ⟨s, q, rfl, hd, h⟩ := h x (by simp [SumTree.terms])
    refine ⟨⟨s, q, rfl, hd, fun e y hy => ?_, h⟩, ?_⟩
    · simp only [SumTree.terms, List.mem_singleton] at hy
      exact ⟨q, by rw [hy, e]⟩
    · simp only [SumTree.terms, SumTree.sum, id, total, List.map_cons, List.map_nil, List.sum_cons, List.sum_nil, add_zero]
      refine Rel.refl ?_
      exact_mod_cast NonNeg.num_nonneg ⟨s, q, rfl, hd, h⟩
  | node a b iha ihb =>
    have ha : ∀ x ∈ a.terms, NonNeg x := fun x hx => h x (by simp [SumTree.terms, hx])
    have hb : ∀ x ∈ b.terms, NonNeg x := fun x hx => h x (by simp [SumTree.terms, hx])
    have ec : count (SumTree.node a b).terms = count a.terms + count b.terms := by
      simp [count, SumTree.terms, List.filter_append]
    have et : total (SumTree.node a b).terms = total a.terms + total b.terms := by
      simp [total, SumTree.terms]
    rw [ec] at hn
    rw [et] at ht
    have pa := total_nonneg ha
    have pb := total_nonneg hb
    obtain ⟨⟨s, p, hp, dp, h1, z1⟩, r1⟩ := iha ha (by omega) (by linarith)
    obtain ⟨⟨s', q, hq, dq, h2, z2⟩, r2⟩ := ihb hb (by omega) (by linarith)
    have hp0 : (a.sum id).num = p := by
      rw [hp]; cases s
      · rfl
      · rw [z1 rfl, num_zero]
    have hq0 : (b.sum id).num = q := by
      rw [hq]; cases s'
      · rfl
      · rw [z2 rfl, num_zero]
    have fa : Fd (a.sum id) := ⟨s, p, hp, dp⟩
    have fb : Fd (b.sum id) := ⟨s', q, hq, dq⟩
    have np := dp.nonneg
    have nq := dq.nonneg
    have hbig : p + q ≤ maxDouble := by
      have w1 := pow_w_le (count a.terms) (by omega)
      have w2 := pow_w_le (count b.terms) (by omega)
      have u1 := r1.upper
      have u2 := r2.upper
      rw [hp0] at u1
      rw [hq0] at u2
      have pa' : (0 : ℝ) ≤ (total a.terms : ℚ) := by exact_mod_cast pa
      have pb' : (0 : ℝ) ≤ (total b.terms : ℚ) := by exact_mod_cast pb
      have v1 : (p : ℝ) ≤ (total a.terms : ℚ) * 2 := u1.trans (mul_le_mul_of_nonneg_left w1 pa')
      have v2 : (q : ℝ) ≤ (total b.terms : ℚ) * 2 := u2.trans (mul_le_mul_of_nonneg_left w2 pb')
      have v3 : p ≤ total a.terms * 2 := by exact_mod_cast v1
      have v4 : q ≤ total b.terms * 2 := by exact_mod_cast v2
      have h5 : 2 * (2 : ℚ) ^ (1000 : ℤ) ≤ maxDouble := by
        have := two_zpow_max (i := 1001) (by norm_num)
        rwa [show (1001 : ℤ) = 1 + 1000 by norm_num, zpow_add₀ (by norm_num), zpow_one] at this
      linarith
    have hs := add_num fa fb (by rw [hp0, hq0, abs_of_nonneg (by linarith)]; exact hbig)
    have hs2 : (SumTree.node a b).sum id = PyFloat.add (a.sum id) (b.sum id) := rfl
    rw [hs2, ec, et]
    constructor
    · have hsign : (∃ r, PyFloat.add (a.sum id) (b.sum id) = fin false r) ∨
          PyFloat.add (a.sum id) (b.sum id) = fin true 0 ∧ s = true ∧ s' = true := by
        by_cases hss : s = true ∧ s' = true
        · right
          refine ⟨?_, hss⟩
          rw [hp, hq, hss.1, hss.2, z1 hss.1, z2 hss.2]
          decide +kernel
        · left
          have hf := hs.1
          have h0 : 0 ≤ (a.sum id).num + (b.sum id).num := by rw [hp0, hq0]; linarith
          rw [hp, hq] at hf h0 ⊢
          simp only [PyFloat.add] at hf ⊢
          split_ifs at hf ⊢ with h00
          · refine ⟨0, ?_⟩
            cases s <;> cases s' <;> simp_all
          · rw [decide_eq_false (not_lt.2 h0)] at hf ⊢
            obtain ⟨s, r, hr, -⟩ := hf
            unfold ofMag at hr ⊢
            split_ifs at hr ⊢
            exact ⟨_, rfl⟩
      obtain ⟨s2, r, hr, dr⟩ := hs.1
      refine ⟨s2, r, hr, dr, ?_, ?_⟩
      · rintro rfl x hx
        rcases hsign with ⟨r', hr'⟩ | ⟨-, e1, e2⟩
        · rw [hr] at hr'; cases hr'
        · simp only [SumTree.terms, List.mem_append] at hx
          rcases hx with hx | hx
          · exact h1 e1 x hx
          · exact h2 e2 x hx
      · rintro rfl
        rcases hsign with ⟨r', hr'⟩ | ⟨e, -⟩
        · rw [hr] at hr'; cases hr'
        · rw [hr] at e; cases e; rfl
    · rw [hs.2]
      push_cast
      by_cases ca : count a.terms = 0
      · have e1 := count_zero ca
        have e2 : (a.sum id).num = 0 := by
          rw [e1, Rat.cast_zero] at r1
          exact_mod_cast r1.eq_zero
        rw [e1, e2, ca, zero_add, zero_add, Rat.cast_zero, zero_add, rnd_num fb]
        exact r2
      · by_cases cb : count b.terms = 0
        · have e1 := count_zero cb
          have e2 : (b.sum id).num = 0 := by
            rw [e1, Rat.cast_zero] at r2
            exact_mod_cast r2.eq_zero
          rw [e1, e2, cb, add_zero, add_zero, Rat.cast_zero, add_zero, rnd_num fa]
          exact r1
        · have r1' := r1.mono (k := max (count a.terms) (count b.terms)) (le_max_left _ _)
          have r2' := r2.mono (k := max (count a.terms) (count b.terms)) (le_max_right _ _)
          have := (r1'.add r2').trans (rel_rnd_add fa fb (by rw [hp0, hq0]; linarith))
          exact this.mono (by omega)

end FloatEnergy
end Verif
