import Verif.Model.FloatFib
import Verif.Props.Fibonacci
import Verif.Props.FloatFactors
import Verif.Props.FloatRoundTrip

/-!
# C119: points on a Fibonacci sphere, in double precision
-/

set_option exponentiation.threshold 4000

namespace Verif
open Spec PyFloat FloatRange FloatSets FloatCoords FloatError FloatRound

/-- What is assumed of the functions: the square root is good to a relative error of 2^-52, the square of a number up to 1 to
2^-52, sine and cosine to 2^-50. -/
structure Spec.GoodFibLib (L : FibLib) : Prop where
  sqrt : ∀ q : ℚ, IsDouble q → 0 < q → ∃ r : ℚ, 0 < r ∧ IsDouble r ∧ L.sqrt (fin false q) = fin false r ∧ |r ^ 2 - q| ≤ q / 2 ^ 51
  square : ∀ (s : Bool) (q : ℚ), IsDouble q → q ≤ 1 →
    ∃ r : ℚ, IsDouble r ∧ L.square (fin s q) = fin false r ∧ |r - q ^ 2| ≤ 1 / 2 ^ 52
  cos : ∀ x, FinD x → FinD (L.cos x) ∧ |((L.cos x).num : ℝ) - Real.cos x.num| ≤ 1 / 2 ^ 50
  sin : ∀ x, FinD x → FinD (L.sin x) ∧ |((L.sin x).num : ℝ) - Real.sin x.num| ≤ 1 / 2 ^ 50

/-- What `random.random()` may return. -/
def Spec.Drawn (random : Option PyFloat) : Prop := ∀ x, random = some x → FinD x ∧ 0 ≤ x.num ∧ x.num < 1

namespace FloatFib

/-! ### Rounding -/

theorem rnd_err {q B : ℚ} (h : |q| ≤ B) : |rnd q - q| ≤ B / 2 ^ 53 + 1 / 2 ^ 200 := by
  rw [rnd_sub_abs]
  refine (fl0_err (abs_nonneg q)).trans (add_le_add (by gcongr) ?_)
  calc (2 : ℚ) ^ (-1075 : ℤ) ≤ 2 ^ (-200 : ℤ) := zpow_le (by norm_num)
    _ = 1 / 2 ^ 200 := by rw [zpow_neg]; norm_num

theorem cast_err {a b e : ℚ} (h : |a - b| ≤ e) : |(a : ℝ) - b| ≤ (e : ℝ) := by exact_mod_cast h

theorem le_max_of {q : ℚ} (h : q ≤ 2 ^ 60) : q ≤ maxDouble := by
  refine h.trans (le_trans ?_ big_le_max)
  calc (2 : ℚ) ^ 60 = 2 ^ (60 : ℤ) := by norm_num
    _ ≤ _ := zpow_le (by norm_num)

theorem mul_err {x y : PyFloat} {B : ℚ} (hx : Fd x) (hy : Fd y) (h : |x.num * y.num| ≤ B) (hB : B ≤ 2 ^ 60) :
    Fd (PyFloat.mul x y) ∧ |(PyFloat.mul x y).num - x.num * y.num| ≤ B / 2 ^ 53 + 1 / 2 ^ 200 := by
  obtain ⟨h1, h2⟩ := mul_num hx hy (le_max_of (h.trans hB))
  exact ⟨h1, by rw [h2]; exact rnd_err h⟩

theorem div_err {x y : PyFloat} {B : ℚ} (hx : Fd x) (hy : Fd y) (h0 : y.num ≠ 0) (h : |x.num / y.num| ≤ B) (hB : B ≤ 2 ^ 60) :
    Fd (PyFloat.div x y) ∧ |(PyFloat.div x y).num - x.num / y.num| ≤ B / 2 ^ 53 + 1 / 2 ^ 200 := by
  obtain ⟨h1, h2⟩ := div_num hx hy h0 (le_max_of (h.trans hB))
  exact ⟨h1, by rw [h2]; exact rnd_err h⟩

theorem add_err {x y : PyFloat} {B : ℚ} (hx : Fd x) (hy : Fd y) (h : |x.num + y.num| ≤ B) (hB : B ≤ 2 ^ 60) :
    Fd (PyFloat.add x y) ∧ |(PyFloat.add x y).num - (x.num + y.num)| ≤ B / 2 ^ 53 + 1 / 2 ^ 200 := by
  obtain ⟨h1, h2⟩ := add_num hx hy (le_max_of (h.trans hB))
  exact ⟨h1, by rw [h2]; exact rnd_err h⟩

theorem sub_err {x y : PyFloat} {B : ℚ} (hx : Fd x) (hy : Fd y) (h : |x.num - y.num| ≤ B) (hB : B ≤ 2 ^ 60) :
    Fd (PyFloat.sub x y) ∧ |(PyFloat.sub x y).num - (x.num - y.num)| ≤ B / 2 ^ 53 + 1 / 2 ^ 200 := by
  obtain ⟨h1, h2⟩ := sub_num hx hy (le_max_of (h.trans hB))
  exact ⟨h1, by rw [h2]; exact rnd_err h⟩

theorem nat_double' {k : ℕ} (h : k < 2 ^ 53) : IsDouble (k : ℚ) := ⟨k, 0, h, by norm_num, by norm_num, by simp⟩

theorem int_num {k : ℕ} (h : k < 2 ^ 53) : Fd (ofInt k) ∧ (ofInt k).num = k := by
  rw [FloatFactors.ofInt_double (nat_double' h)]
  exact ⟨⟨_, _, rfl, nat_double' h⟩, by simp [num]⟩

/-! ### Heights -/

theorem height_close {n i : ℕ} (hi : i < n) (hn : n ≤ 2 ^ 40) {o : PyFloat} (ho : Fd o)
    (he : |o.num - 2 / n| ≤ 2 / n / 2 ^ 53 + 1 / 2 ^ 200) :
    Fd (height o i) ∧ |(height o i).num - ((2 * i + 1) / n - 1)| ≤ 1 / 2 ^ 49 := by
  have hn0 : (0 : ℚ) < n := by exact_mod_cast (by omega : 0 < n)
  have hn1 : (1 : ℚ) ≤ n := by exact_mod_cast (by omega : 1 ≤ n)
  have hi' : (i : ℚ) + 1 ≤ n := by exact_mod_cast hi
  have hi0 : (0 : ℚ) ≤ i := by positivity
  have hn' : (n : ℚ) ≤ 2 ^ 40 := by exact_mod_cast hn
  obtain ⟨fi, ei⟩ := int_num (k := i) (by omega)
  obtain ⟨f1, e1⟩ := int_num (k := 1) (by norm_num)
  obtain ⟨f2, e2⟩ := int_num (k := 2) (by norm_num)
  have a1 : (i : ℚ) * (2 / n) ≤ 2 := by rw [mul_div_assoc', div_le_iff₀ hn0]; linarith
  have a2 : (0 : ℚ) ≤ i * (2 / n) := by positivity
  have a3 : (2 : ℚ) / n ≤ 2 := by rw [div_le_iff₀ hn0]; linarith
  have a4 : (0 : ℚ) < 2 / n := by positivity
  have b1 : |(i : ℚ) * o.num - i * (2 / n)| ≤ 2 / 2 ^ 53 + 1 / 2 ^ 160 := by
    rw [← mul_sub, abs_mul, abs_of_nonneg hi0]
    have k1 : (i : ℚ) * |o.num - 2 / n| ≤ i * (2 / n / 2 ^ 53 + 1 / 2 ^ 200) := mul_le_mul_of_nonneg_left he hi0
    have k2 : (i : ℚ) * (2 / n / 2 ^ 53 + 1 / 2 ^ 200) = i * (2 / n) / 2 ^ 53 + i * (1 / 2 ^ 200) := by ring
    have k3 : (i : ℚ) * (1 / 2 ^ 200) ≤ 2 ^ 40 * (1 / 2 ^ 200) := by
      have : (i : ℚ) ≤ 2 ^ 40 := by linarith
      exact mul_le_mul_of_nonneg_right this (by positivity)
    have k4 : (2 : ℚ) ^ 40 * (1 / 2 ^ 200) = 1 / 2 ^ 160 := by norm_num
    have k5 : (i : ℚ) * (2 / n) / 2 ^ 53 ≤ 2 / 2 ^ 53 := by gcongr
    linarith
  have ho' := abs_le.1 he
  have c1 := abs_le.1 b1
  obtain ⟨fp, ep⟩ := mul_err (B := 3) fi ho (by rw [ei, abs_le]; norm_num at c1 ⊢; constructor <;> linarith [c1.1, c1.2]) (by norm_num)
  push_cast at e1 e2
  rw [ei] at ep
  have c2 := abs_le.1 ep
  obtain ⟨fs, es⟩ := sub_err (B := 2) fp f1 (by
    push_cast; rw [e1, abs_le]; norm_num at c1 c2 ⊢; constructor <;> linarith [c1.1, c1.2, c2.1, c2.2]) (by norm_num)
  obtain ⟨fh, eh⟩ := div_err (B := 2) ho f2 (by push_cast; rw [e2]; norm_num) (by
    push_cast; rw [e2, abs_le]; norm_num at ho' ⊢; constructor <;> linarith [ho'.1, ho'.2]) (by norm_num)
  push_cast at fs es fh eh
  rw [e1] at es
  rw [e2] at eh
  have c3 := abs_le.1 es
  have c4 := abs_le.1 eh
  have hY : ((2 * i + 1) / n - 1 : ℚ) = i * (2 / n) - 1 + 2 / n / 2 := by ring
  have a5 : (i : ℚ) * (2 / n) + 2 / n ≤ 2 := by
    have : (i : ℚ) * (2 / n) + 2 / n = (i + 1) * 2 / n := by ring
    rw [this, div_le_iff₀ hn0]; linarith
  have a6 : (2 : ℚ) / n / 2 ^ 53 ≤ 2 / 2 ^ 53 := by gcongr
  generalize hv : (2 : ℚ) / n / 2 ^ 53 = v at *
  generalize ha : (i : ℚ) * (2 / n) = a at *
  generalize hb : (2 : ℚ) / n = b at *
  obtain ⟨fy, ey⟩ := add_err (B := 2) fs fh (by
    rw [abs_le]; norm_num at c1 c2 c3 c4 ho' a6 ⊢
    constructor <;> linarith [c1.1, c1.2, c2.1, c2.2, c3.1, c3.2, c4.1, c4.2, ho'.1, ho'.2]) (by norm_num)
  refine ⟨fy, ?_⟩
  have c5 := abs_le.1 ey
  unfold height
  push_cast
  rw [hY, abs_le]
  norm_num at c1 c2 c3 c4 c5 ho' a6 ⊢
  constructor <;> linarith [c1.1, c1.2, c2.1, c2.2, c3.1, c3.2, c4.1, c4.2, c5.1, c5.2, ho'.1, ho'.2]

/-! ### Distance from the axis -/

theorem height_bound {n i : ℕ} (hi : i < n) : |((2 * i + 1) / n - 1 : ℚ)| ≤ 1 - 1 / n := by
  have hn0 : (0 : ℚ) < n := by exact_mod_cast (by omega : 0 < n)
  have hi' : (i : ℚ) + 1 ≤ n := by exact_mod_cast hi
  have hi0 : (0 : ℚ) ≤ i := by positivity
  have h1 : (1 : ℚ) / n ≤ (2 * i + 1) / n := by gcongr; linarith
  have h2 : ((2 * i + 1) / n : ℚ) ≤ 2 - 1 / n := by
    rw [div_le_iff₀ hn0, sub_mul, div_mul_cancel₀ _ hn0.ne']; linarith
  rw [abs_le]; constructor <;> linarith

theorem inv_ge {n : ℕ} (h0 : 0 < n) (hn : n ≤ 2 ^ 40) : (1 : ℚ) / 2 ^ 40 ≤ 1 / n := by
  have h1 : (0 : ℚ) < n := by exact_mod_cast h0
  have h2 : (n : ℚ) ≤ 2 ^ 40 := by exact_mod_cast hn
  gcongr

theorem sign_of_pos {x : PyFloat} (h : Fd x) (h0 : 0 < x.num) : x = fin false x.num ∧ IsDouble x.num := by
  obtain ⟨s, a, rfl, ha⟩ := h
  cases s
  · simpa [num] using ha
  · have := ha.nonneg
    simp only [num, if_true] at h0
    linarith

theorem radius_close {L : FibLib} (hL : GoodFibLib L) {n i : ℕ} (hi : i < n) (hn : n ≤ 2 ^ 40) {y : PyFloat} (hy : Fd y)
    (he : |y.num - ((2 * i + 1) / n - 1)| ≤ 1 / 2 ^ 49) :
    ∃ q r, mathSquare L y = .ok q ∧ mathSqrt L (sub (ofInt 1) q) = .ok (fin false r) ∧ IsDouble r ∧ 0 < r ∧
      |r ^ 2 - (1 - y.num ^ 2)| ≤ 1 / 2 ^ 49 := by
  have hb := height_bound hi
  have hv := inv_ge (by omega : 0 < n) hn
  have hY : |y.num| ≤ 1 - 1 / 2 ^ 41 := by
    have := abs_sub_abs_le_abs_sub y.num ((2 * i + 1) / n - 1)
    norm_num at *
    linarith
  have hY2 : y.num ^ 2 ≤ 1 - 1 / 2 ^ 41 := by
    rw [← sq_abs]
    have := abs_nonneg y.num
    nlinarith
  have hd := abs_num hy
  obtain ⟨s, a, rfl, ha⟩ := hy
  have e0 : (fin s a).num ^ 2 = a ^ 2 := by rw [← sq_abs, num_abs s ha.nonneg]
  rw [num_abs s ha.nonneg] at hY
  rw [e0] at hY2 ⊢
  obtain ⟨q, hq, eq, er⟩ := hL.square s a ha (by norm_num at hY ⊢; linarith)
  have hq0 := hq.nonneg
  have er' := abs_le.1 er
  have ha2 := sq_nonneg a
  obtain ⟨f1, e1⟩ := int_num (k := 1) (by norm_num)
  have fq : Fd (fin false q) := ⟨_, _, rfl, hq⟩
  have eq' : (fin false q).num = q := by simp [num]
  push_cast at e1 f1
  obtain ⟨fd, ed⟩ := sub_err (B := 2) f1 fq (by
    rw [e1, eq', abs_le]; norm_num at er' hY2 ⊢; constructor <;> linarith [er'.1, er'.2]) (by norm_num)
  rw [e1, eq'] at ed
  have ed' := abs_le.1 ed
  have hpos : 0 < (sub (ofInt 1) (fin false q)).num := by norm_num at er' hY2 ed' ⊢; linarith [er'.1, er'.2, ed'.1]
  obtain ⟨es, hds⟩ := sign_of_pos fd hpos
  obtain ⟨r, hr0, hr, er2, er3⟩ := hL.sqrt _ hds hpos
  refine ⟨fin false q, r, ?_, ?_, hr, hr0, ?_⟩
  · simp only [mathSquare, eq]
  · rw [mathSqrt, es]
    simp only [isNeg, Bool.false_and, Bool.false_eq_true, if_false]
    rw [er2]
  · have er3' := abs_le.1 er3
    rw [abs_le]
    norm_num at er' hY2 ed' er3' ⊢
    constructor <;> linarith [er'.1, er'.2, ed'.1, ed'.2, er3'.1, er3'.2]

/-! ### Angles -/

/-- The remainder of doubles is a double. -/
theorem rem_double {a b : ℚ} (ha : IsDouble a) (hb : IsDouble b) (hb0 : 0 < b) : IsDouble (a - b * ⌊a / b⌋) := by
  obtain ⟨p, e, hp, he, he', rfl⟩ := ha
  obtain ⟨q, f, hq, hf, hf', rfl⟩ := hb
  have two : ∀ k : ℤ, (0 : ℚ) < 2 ^ k := fun k => by positivity
  have hq0 : 0 < q := by
    rcases Nat.eq_zero_or_pos q with rfl | h
    · simp at hb0
    · exact h
  have split : ∀ (P Q : ℕ) (g : ℤ),
      (P : ℚ) * 2 ^ g - Q * 2 ^ g * ⌊((P : ℚ) * 2 ^ g) / (Q * 2 ^ g)⌋ = ((P % Q : ℕ) : ℚ) * 2 ^ g := by
    intro P Q g
    rw [mul_div_mul_right _ _ (two g).ne', Rat.floor_natCast_div_natCast]
    have h := Nat.mod_add_div P Q
    have h' : (P : ℚ) = ((P % Q : ℕ) : ℚ) + Q * ((P / Q : ℕ) : ℚ) := by exact_mod_cast h.symm
    have h'' : (((P : ℤ) / (Q : ℤ) : ℤ) : ℚ) = ((P / Q : ℕ) : ℚ) := by norm_cast
    rw [h'']
    linear_combination (2 : ℚ) ^ g * h'
  rcases le_total e f with h | h
  · have e1 : (q : ℚ) * 2 ^ f = ((q * 2 ^ (f - e).toNat : ℕ) : ℚ) * 2 ^ e := by
      push_cast
      rw [mul_assoc, ← zpow_natCast, ← zpow_add₀ (by norm_num)]
      congr 2; omega
    rw [e1, split]
    exact ⟨_, e, lt_of_le_of_lt (Nat.mod_le _ _) hp, he, he', rfl⟩
  · have e1 : (p : ℚ) * 2 ^ e = ((p * 2 ^ (e - f).toNat : ℕ) : ℚ) * 2 ^ f := by
      push_cast
      rw [mul_assoc, ← zpow_natCast, ← zpow_add₀ (by norm_num)]
      congr 2; omega
    rw [e1, split]
    exact ⟨_, f, lt_trans (Nat.mod_lt _ hq0) hq, hf, hf', rfl⟩

theorem mod_num {n : ℕ} (h0 : 0 < n) (hn : n ≤ 2 ^ 40) {x : PyFloat} (hx : Fd x) (hx0 : 0 ≤ x.num) :
    ∃ m, pyMod x (ofInt n) = .ok (fin false m) ∧ IsDouble m ∧ m = x.num - n * ⌊x.num / n⌋ := by
  have hn' : (0 : ℚ) < n := by exact_mod_cast h0
  have hnd : IsDouble (n : ℚ) := nat_double' (by omega)
  rw [FloatFactors.ofInt_double hnd]
  obtain ⟨s, a, rfl, ha⟩ := hx
  have ha0 := ha.nonneg
  have hs : (fin s a).num = a := by
    cases s
    · simp [num]
    · simp only [num, if_true] at hx0 ⊢; linarith
  rw [hs]
  refine ⟨_, ?_, rem_double ha hnd hn', rfl⟩
  have hnz : decide ((n : ℚ) ≠ 0) = true := by simp [hn'.ne']
  unfold pyMod
  simp only [neZero, hnz, fmod, if_neg hn'.ne', Bool.true_eq_false, if_false]
  by_cases hz : a - n * ⌊a / n⌋ = 0
  · simp [hz, signBit]
  · have hsf : s = false := by
      cases s
      · rfl
      · simp only [num, if_true] at hs
        have : a = 0 := by linarith
        simp [this] at hz
    subst hsf
    simp [hz, isNeg]

theorem pi_close : Fd pi ∧ |((pi.num : ℚ) : ℝ) - Real.pi| ≤ 1 / 2 ^ 52 := by
  have h1 := Real.pi_gt_d20
  have h2 := Real.pi_lt_d20
  refine ⟨⟨_, _, rfl, 884279719003555, -48, by norm_num, by norm_num, by norm_num, by norm_num⟩, ?_⟩
  simp only [pi, num, Bool.false_eq_true, if_false]
  push_cast
  rw [abs_le]
  norm_num at h1 h2 ⊢
  constructor <;> linarith

/-- The golden angle. -/
noncomputable def golden : ℝ := Real.pi * (3 - Real.sqrt 5)

theorem sqrt_five : 2.236 < Real.sqrt 5 ∧ Real.sqrt 5 < 2.2361 :=
  ⟨Real.lt_sqrt_of_sq_lt (by norm_num), (Real.sqrt_lt' (by norm_num)).2 (by norm_num)⟩

theorem golden_bounds : 2.39 < golden ∧ golden < 2.41 := by
  have h1 := Real.pi_gt_d4
  have h2 := Real.pi_lt_d4
  obtain ⟨h3, h4⟩ := sqrt_five
  unfold golden
  constructor <;> nlinarith

theorem increment_close {L : FibLib} (hL : GoodFibLib L) :
    ∃ s, mathSqrt L (fin false 5) = .ok s ∧ Fd (mul pi (sub (fin false 3) s)) ∧
      |((mul pi (sub (fin false 3) s)).num : ℝ) - golden| ≤ 1 / 2 ^ 47 := by
  have d5 : IsDouble (5 : ℚ) := by exact_mod_cast nat_double' (k := 5) (by norm_num)
  have d3 : IsDouble (3 : ℚ) := by exact_mod_cast nat_double' (k := 3) (by norm_num)
  obtain ⟨r, hr0, hr, e1, e2⟩ := hL.sqrt 5 d5 (by norm_num)
  refine ⟨fin false r, by simp [mathSqrt, isNeg, e1], ?_⟩
  have hs := sqrt_five
  have hr0' : (0 : ℝ) < r := by exact_mod_cast hr0
  have e2' : |(r : ℝ) ^ 2 - 5| ≤ 5 / 2 ^ 51 := by have := cast_err e2; push_cast at this; exact this
  have e3 : |(r : ℝ) - Real.sqrt 5| ≤ 5 / 2 ^ 52 := by
    have h5 : Real.sqrt 5 ^ 2 = 5 := Real.sq_sqrt (by norm_num)
    have h6 : |(r : ℝ) - Real.sqrt 5| * (r + Real.sqrt 5) = |(r : ℝ) ^ 2 - 5| := by
      rw [← abs_of_pos (show (0 : ℝ) < r + Real.sqrt 5 by linarith [hs.1]), ← abs_mul]
      congr 1
      linear_combination -h5
    have h7 : |(r : ℝ) - Real.sqrt 5| * 2 ≤ |(r : ℝ) - Real.sqrt 5| * (r + Real.sqrt 5) :=
      mul_le_mul_of_nonneg_left (by linarith [hs.1]) (abs_nonneg _)
    rw [h6] at h7
    norm_num at h7 e2' ⊢
    linarith
  have e3' := abs_le.1 e3
  have f3 : Fd (fin false 3) := ⟨_, _, rfl, d3⟩
  have n3 : (fin false 3).num = 3 := by simp [num]
  have fr : Fd (fin false r) := ⟨_, _, rfl, hr⟩
  have nr : (fin false r).num = r := by simp [num]
  have rlo : (22359 / 10000 : ℝ) ≤ r := by norm_num at e3' hs ⊢; linarith [e3'.1, hs.1]
  have rhi : (r : ℝ) ≤ 22362 / 10000 := by norm_num at e3' hs ⊢; linarith [e3'.2, hs.2]
  have rlo' : (22359 / 10000 : ℚ) ≤ r := by
    refine Rat.cast_le (K := ℝ).1 ?_; push_cast; exact rlo
  have rhi' : r ≤ (22362 / 10000 : ℚ) := by
    refine Rat.cast_le (K := ℝ).1 ?_; push_cast; exact rhi
  obtain ⟨fd, ed⟩ := sub_err (B := 1) f3 fr (by rw [n3, nr, abs_le]; constructor <;> linarith) (by norm_num)
  rw [n3, nr] at ed
  obtain ⟨fp, ep⟩ := pi_close
  set d := (sub (fin false 3) (fin false r)).num with hd
  have ed' := abs_le.1 ed
  have dlo : (0.7637 : ℚ) ≤ d := by norm_num at ed' rhi' ⊢; linarith [ed'.1]
  have dhi : d ≤ (0.7643 : ℚ) := by norm_num at ed' rlo' ⊢; linarith [ed'.2]
  have np : pi.num = 884279719003555 / 2 ^ 48 := by simp [pi, num]
  obtain ⟨fm, em⟩ := mul_err (B := 3) fp fd (by
    rw [← hd, np, abs_mul, abs_of_pos (by norm_num), abs_of_pos (by linarith)]
    nlinarith) (by norm_num)
  refine ⟨fm, ?_⟩
  have edR : |(d : ℝ) - (3 - r)| ≤ 1 / 2 ^ 53 + 1 / 2 ^ 200 := by have := cast_err ed; push_cast at this; exact this
  have emR : |((mul pi (sub (fin false 3) (fin false r))).num : ℝ) - (pi.num : ℝ) * d| ≤ 3 / 2 ^ 53 + 1 / 2 ^ 200 := by
    have := cast_err em; push_cast at this; exact this
  have h1 : |(d : ℝ) - (3 - Real.sqrt 5)| ≤ 6 / 2 ^ 52 := by
    have edR' := abs_le.1 edR
    rw [abs_le]
    norm_num at edR' e3' ⊢
    constructor <;> linarith [edR'.1, edR'.2, e3'.1, e3'.2]
  have dhiR : (d : ℝ) ≤ 1 := by
    have : d ≤ 1 := by linarith
    exact_mod_cast this
  have dloR : (0 : ℝ) ≤ d := by
    have : 0 ≤ d := by linarith
    exact_mod_cast this
  have h2 : |(pi.num : ℝ) * d - golden| ≤ 1 / 2 ^ 52 + 3.2 * (6 / 2 ^ 52) := by
    have e : (pi.num : ℝ) * d - golden = ((pi.num : ℝ) - Real.pi) * d + Real.pi * (d - (3 - Real.sqrt 5)) := by unfold golden; ring
    rw [e]
    refine (abs_add_le _ _).trans (add_le_add ?_ ?_)
    · rw [abs_mul, abs_of_nonneg dloR]
      calc |((pi.num : ℚ) : ℝ) - Real.pi| * d ≤ 1 / 2 ^ 52 * 1 := by gcongr
        _ = _ := by ring
    · rw [abs_mul, abs_of_pos Real.pi_pos]
      have := Real.pi_lt_d2
      gcongr
      linarith
  have h3 := abs_le.1 h2
  have h4 := abs_le.1 emR
  rw [abs_le]
  norm_num at h3 h4 ⊢
  constructor <;> linarith [h3.1, h3.2, h4.1, h4.2]

/-! ### One point -/

theorem leg_close {c : PyFloat} {r : ℚ} {v : ℝ} (hc : Fd c) (hv : |v| ≤ 1) (he : |(c.num : ℝ) - v| ≤ 1 / 2 ^ 50) (hr : IsDouble r)
    (hr1 : r ≤ 1 + 1 / 2 ^ 40) :
    Fd (mul c (fin false r)) ∧ |((mul c (fin false r)).num : ℝ) - v * r| ≤ 1 / 2 ^ 49 := by
  have hr0 := hr.nonneg
  have nr : (fin false r).num = r := by simp [num]
  have hr0' : (0 : ℝ) ≤ r := by exact_mod_cast hr0
  have hr1' : (r : ℝ) ≤ 1 + 1 / 2 ^ 40 := by
    have : ((r : ℚ) : ℝ) ≤ ((1 + 1 / 2 ^ 40 : ℚ) : ℝ) := Rat.cast_le.2 hr1
    push_cast at this; exact this
  have hcR : |(c.num : ℝ)| ≤ 1 + 1 / 2 ^ 50 := by
    have := abs_sub_abs_le_abs_sub (c.num : ℝ) v
    linarith
  have hb : |c.num * r| ≤ 2 := by
    refine Rat.cast_le (K := ℝ).1 ?_
    push_cast
    rw [abs_mul, abs_of_nonneg hr0']
    calc |(c.num : ℝ)| * r ≤ (1 + 1 / 2 ^ 50) * (1 + 1 / 2 ^ 40) := by gcongr
      _ ≤ 2 := by norm_num
  obtain ⟨h1, h2⟩ := mul_err (B := 2) hc ⟨_, _, rfl, hr⟩ (by rw [nr]; exact hb) (by norm_num)
  refine ⟨h1, ?_⟩
  rw [nr] at h2
  have h3 := cast_err h2
  push_cast at h3
  have h4 : |(c.num : ℝ) * r - v * r| ≤ 1 / 2 ^ 50 * (1 + 1 / 2 ^ 40) := by
    rw [← sub_mul, abs_mul, abs_of_nonneg hr0']
    gcongr
  have h5 := abs_le.1 h3
  have h6 := abs_le.1 h4
  rw [abs_le]
  norm_num at h5 h6 ⊢
  constructor <;> linarith [h5.1, h5.2, h6.1, h6.2]

theorem leg_sq {x v r : ℝ} (hv : |v| ≤ 1) (hr0 : 0 ≤ r) (hr : r ≤ 1 + 1 / 2 ^ 40) (h : |x - v * r| ≤ 1 / 2 ^ 49) :
    |x ^ 2 - v ^ 2 * r ^ 2| ≤ 3 / 2 ^ 49 := by
  have h1 : |v * r| ≤ 1 + 1 / 2 ^ 40 := by
    rw [abs_mul, abs_of_nonneg hr0]
    calc |v| * r ≤ 1 * (1 + 1 / 2 ^ 40) := by gcongr
      _ = _ := by ring
  have h2 : |x + v * r| ≤ 3 := by
    have e : x + v * r = (x - v * r) + 2 * (v * r) := by ring
    rw [e]
    refine (abs_add_le _ _).trans ?_
    rw [abs_mul, abs_of_pos (by norm_num : (0 : ℝ) < 2)]
    norm_num at h h1 ⊢
    linarith
  have e : x ^ 2 - v ^ 2 * r ^ 2 = (x - v * r) * (x + v * r) := by ring
  rw [e, abs_mul]
  calc |x - v * r| * |x + v * r| ≤ 1 / 2 ^ 49 * 3 := by gcongr
    _ = _ := by ring

/-- The leg compared with the exact spiral. -/
theorem leg_spiral {x v u r R δ ε : ℝ} (h : |x - v * r| ≤ 1 / 2 ^ 49) (hv : |v| ≤ 1) (hu : |v - u| ≤ δ) (hR0 : 0 ≤ R) (hR : R ≤ 1)
    (hr : |r - R| ≤ ε) : |x - R * u| ≤ 1 / 2 ^ 49 + δ + ε := by
  have e : x - R * u = (x - v * r) + (R * (v - u) + v * (r - R)) := by ring
  rw [e]
  have hδ := (abs_nonneg _).trans hu
  have h1 : |R * (v - u)| ≤ δ := by
    rw [abs_mul, abs_of_nonneg hR0]
    calc R * |v - u| ≤ 1 * δ := by gcongr
      _ = δ := by ring
  have h2 : |v * (r - R)| ≤ ε := by
    rw [abs_mul]
    calc |v| * |r - R| ≤ 1 * ε := by gcongr
      _ = ε := by ring
  have h3 := abs_add_le (x - v * r) (R * (v - u) + v * (r - R))
  have h4 := abs_add_le (R * (v - u)) (v * (r - R))
  linarith

/-- The radius compared with the exact one. -/
theorem root_spiral {n : ℕ} (hn : 0 < n) {r y Y : ℝ} (hr : 0 ≤ r) (h : |r ^ 2 - (1 - y ^ 2)| ≤ 1 / 2 ^ 49) (hy : |y - Y| ≤ 1 / 2 ^ 49)
    (hY : |Y| ≤ 1 - 1 / n) : |r - Real.sqrt (1 - Y ^ 2)| ≤ n / 2 ^ 47 := by
  have hn0 : (0 : ℝ) < n := by exact_mod_cast hn
  have hn1 : (1 : ℝ) ≤ n := by exact_mod_cast hn
  have hv : (0 : ℝ) < 1 / n := by positivity
  have hv1 : (1 : ℝ) / n ≤ 1 := by rw [div_le_one hn0]; exact hn1
  have hY2 : Y ^ 2 ≤ 1 - 1 / n := by
    rw [← sq_abs]
    have := abs_nonneg Y
    nlinarith
  have hsq : Real.sqrt (1 - Y ^ 2) ^ 2 = 1 - Y ^ 2 := Real.sq_sqrt (by linarith)
  have hR0 := Real.sqrt_nonneg (1 - Y ^ 2)
  have hR : 1 / n ≤ Real.sqrt (1 - Y ^ 2) := by
    refine Real.le_sqrt_of_sq_le ?_
    nlinarith
  have h1 : |y ^ 2 - Y ^ 2| ≤ 1 / 2 ^ 49 * (2 + 1 / 2 ^ 49) := by
    have e : y ^ 2 - Y ^ 2 = (y - Y) * (y - Y + 2 * Y) := by ring
    rw [e, abs_mul]
    have : |y - Y + 2 * Y| ≤ 2 + 1 / 2 ^ 49 := by
      refine (abs_add_le _ _).trans ?_
      rw [abs_mul, abs_of_pos (by norm_num : (0 : ℝ) < 2)]
      linarith
    gcongr
  have h2 : |r ^ 2 - (1 - Y ^ 2)| ≤ 1 / 2 ^ 47 := by
    have a := abs_le.1 h
    have b := abs_le.1 h1
    rw [abs_le]
    norm_num at a b ⊢
    constructor <;> linarith [a.1, a.2, b.1, b.2]
  have h3 : |r - Real.sqrt (1 - Y ^ 2)| * (1 / n) ≤ 1 / 2 ^ 47 := by
    refine le_trans ?_ h2
    have e : r ^ 2 - (1 - Y ^ 2) = (r - Real.sqrt (1 - Y ^ 2)) * (r + Real.sqrt (1 - Y ^ 2)) := by
      linear_combination hsq
    rw [e, abs_mul]
    refine mul_le_mul_of_nonneg_left ?_ (abs_nonneg _)
    rw [abs_of_nonneg (by linarith)]
    linarith
  rw [mul_one_div, div_le_iff₀ hn0] at h3
  linarith

/-- The turn of a point, in units of the golden angle. -/
theorem turn_close {n i : ℕ} (hi : i < n) (hn : n ≤ 2 ^ 40) {rd : PyFloat} (hrd : Fd rd) (h0 : 0 ≤ rd.num) (h1 : rd.num ≤ n) :
    ∃ (m : ℚ) (k : ℤ), pyMod (add (ofInt i) rd) (ofInt n) = .ok (fin false m) ∧ IsDouble m ∧ 0 ≤ m ∧ m < n ∧ (k = 0 ∨ k = 1) ∧
      |m - (i + rd.num - k * n)| ≤ n / 2 ^ 51 ∧ (rd.num = 1 → k = if i + 1 = n then 1 else 0) := by
  have hn0 : (0 : ℚ) < n := by exact_mod_cast (by omega : 0 < n)
  have hn1 : (1 : ℚ) ≤ n := by exact_mod_cast (by omega : 1 ≤ n)
  have hi' : (i : ℚ) + 1 ≤ n := by exact_mod_cast hi
  have hi0 : (0 : ℚ) ≤ i := by positivity
  have hn' : (n : ℚ) ≤ 2 ^ 40 := by exact_mod_cast hn
  obtain ⟨fi, ei⟩ := int_num (k := i) (by omega)
  have hb : |(ofInt i).num + rd.num| ≤ 2 * n := by rw [ei, abs_of_nonneg (by linarith)]; linarith
  have hB : 2 * (n : ℚ) ≤ 2 ^ 60 := by
    have : (2 : ℚ) * 2 ^ 40 ≤ 2 ^ 60 := by norm_num
    linarith
  obtain ⟨fs, es⟩ := add_num fi hrd (le_max_of (hb.trans hB))
  have er := rnd_err hb
  rw [← es] at er
  rw [ei] at es er hb
  set s := add (ofInt i) rd with hs
  have s0 : 0 ≤ s.num := by rw [es]; exact rnd_nonneg (by linarith)
  have s1 : s.num ≤ 2 * n - 1 := by
    have d : IsDouble |(2 * n - 1 : ℚ)| := by
      have h := nat_double' (k := 2 * n - 1) (by omega)
      rw [Nat.cast_sub (by omega)] at h
      push_cast at h
      rwa [abs_of_nonneg (by linarith)]
    rw [es, ← rnd_double d]
    refine rnd_mono (by linarith) (le_max_of (hb.trans hB)) (le_max_of ?_)
    rw [abs_of_nonneg (by linarith)]
    linarith
  obtain ⟨m, em, dm, hm⟩ := mod_num (by omega : 0 < n) hn fs s0
  have hk0 : 0 ≤ ⌊s.num / n⌋ := Int.floor_nonneg.2 (by positivity)
  have hk1 : ⌊s.num / n⌋ < 2 := by
    rw [Int.floor_lt]
    push_cast
    rw [div_lt_iff₀ hn0]; linarith
  have f1 := Int.floor_le (s.num / n)
  have f2 := Int.lt_floor_add_one (s.num / n)
  rw [le_div_iff₀ hn0] at f1
  rw [div_lt_iff₀ hn0] at f2
  refine ⟨m, ⌊s.num / n⌋, em, dm, dm.nonneg, by rw [hm]; linarith, by omega, ?_, fun h => ?_⟩
  · rw [hm]
    have er' := abs_le.1 er
    have e : s.num - n * (⌊s.num / n⌋ : ℚ) - (i + rd.num - ⌊s.num / n⌋ * n) = s.num - (i + rd.num) := by ring
    rw [e, abs_le]
    norm_num at er' ⊢
    constructor <;> linarith [er'.1, er'.2]
  · rw [h] at es
    have d : IsDouble |(i + 1 : ℚ)| := by
      have h := nat_double' (k := i + 1) (by omega)
      push_cast at h
      rwa [abs_of_nonneg (by linarith)]
    rw [rnd_double d] at es
    rw [es] at f1 f2 hk0 hk1 ⊢
    split_ifs with hc
    · have hc' : (i : ℚ) + 1 = n := by exact_mod_cast hc
      rw [hc', div_self hn0.ne']; simp
    · have hc' : (i : ℚ) + 1 < n := by exact_mod_cast (by omega : i + 1 < n)
      rw [Int.floor_eq_zero_iff]
      exact ⟨by positivity, by rw [div_lt_one hn0]; exact hc'⟩

theorem trig_ok (f : PyFloat → PyFloat) {x : PyFloat} (h : Fd x) : mathTrig f x = .ok (f x) := by
  obtain ⟨s, a, rfl, -⟩ := h
  rfl

theorem point_close {L : FibLib} (hL : GoodFibLib L) {n i : ℕ} (hi : i < n) (hn : n ≤ 2 ^ 40) {rd o inc : PyFloat} (hrd : Fd rd)
    (h0 : 0 ≤ rd.num) (h1 : rd.num ≤ n) (ho : Fd o) (he : |o.num - 2 / n| ≤ 2 / n / 2 ^ 53 + 1 / 2 ^ 200) (hinc : Fd inc)
    (hg : |(inc.num : ℝ) - golden| ≤ 1 / 2 ^ 47) :
    ∃ (x y z : PyFloat) (k : ℤ), point L n rd o inc i = .ok (x, y, z) ∧ Fd x ∧ Fd y ∧ Fd z ∧
      |(y.num : ℝ) - ((2 * i + 1) / n - 1)| ≤ 1 / 2 ^ 49 ∧
      |(x.num : ℝ) ^ 2 + (y.num : ℝ) ^ 2 + (z.num : ℝ) ^ 2 - 1| ≤ 1 / 2 ^ 46 ∧ (k = 0 ∨ k = 1) ∧
      (rd.num = 1 → k = if i + 1 = n then 1 else 0) ∧
      -(n / 2 ^ 51) ≤ (i + rd.num - k * n : ℝ) ∧ (i + rd.num - k * n : ℝ) ≤ n + n / 2 ^ 51 ∧
      |(x.num : ℝ) - Real.sqrt (1 - ((2 * i + 1) / n - 1) ^ 2) * Real.cos ((i + rd.num - k * n) * golden)| ≤ n / 2 ^ 45 ∧
      |(z.num : ℝ) - Real.sqrt (1 - ((2 * i + 1) / n - 1) ^ 2) * Real.sin ((i + rd.num - k * n) * golden)| ≤ n / 2 ^ 45 := by
  have hn0 : (0 : ℝ) < n := by exact_mod_cast (by omega : 0 < n)
  have hn1 : (1 : ℝ) ≤ n := by exact_mod_cast (by omega : 1 ≤ n)
  have hn' : (n : ℝ) ≤ 2 ^ 40 := by exact_mod_cast hn
  obtain ⟨fy, ey⟩ := height_close hi hn ho he
  obtain ⟨q, r, e1, e2, dr, hr0, er⟩ := radius_close hL hi hn fy ey
  obtain ⟨m, k, e3, dm, hm0, hmn, hk, em, hk1⟩ := turn_close hi hn hrd h0 h1
  have ey' := cast_err ey
  have er' := cast_err er
  have em' := cast_err em
  push_cast at ey' er' em'
  have hr0' : (0 : ℝ) ≤ r := by exact_mod_cast hr0.le
  have hm0' : (0 : ℝ) ≤ m := by exact_mod_cast hm0
  have hmn' : (m : ℝ) ≤ n := by exact_mod_cast hmn.le
  have hr1 : (r : ℝ) ≤ 1 + 1 / 2 ^ 40 := by
    have := (abs_le.1 er').2
    have h2 := sq_nonneg ((height o i).num : ℝ)
    by_contra hc
    rw [not_le] at hc
    have h3 : (1 + 1 / 2 ^ 40 : ℝ) ^ 2 < (r : ℝ) ^ 2 := by gcongr
    norm_num at this h3
    linarith
  have hr1' : r ≤ 1 + 1 / 2 ^ 40 := by
    refine Rat.cast_le (K := ℝ).1 ?_; push_cast; exact hr1
  have gb := golden_bounds
  have hg' := abs_le.1 hg
  have ib : |(inc.num : ℝ)| ≤ 3 := by
    rw [abs_le]; norm_num at hg' gb ⊢; constructor <;> linarith [hg'.1, hg'.2]
  have nm : (fin false m).num = m := by simp [num]
  have fm : Fd (fin false m) := ⟨_, _, rfl, dm⟩
  obtain ⟨fp, ep⟩ := mul_err (B := 3 * n) fm hinc (by
    refine Rat.cast_le (K := ℝ).1 ?_
    push_cast
    rw [nm, abs_mul, abs_of_nonneg hm0']
    calc (m : ℝ) * |(inc.num : ℝ)| ≤ n * 3 := by gcongr
      _ = 3 * n := by ring) (by
    refine Rat.cast_le (K := ℝ).1 ?_; push_cast
    have : (3 : ℝ) * 2 ^ 40 ≤ 2 ^ 60 := by norm_num
    linarith)
  rw [nm] at ep
  have ep' := cast_err ep
  push_cast at ep'
  set phi := mul (fin false m) inc with hphi
  obtain ⟨fc, ec⟩ := hL.cos phi fp
  obtain ⟨fs, es⟩ := hL.sin phi fp
  have cv := Real.abs_cos_le_one (phi.num : ℝ)
  have sv := Real.abs_sin_le_one (phi.num : ℝ)
  obtain ⟨fx, ex⟩ := leg_close fc cv ec dr hr1'
  obtain ⟨fz, ez⟩ := leg_close fs sv es dr hr1'
  have hY : |((2 * i + 1) / n - 1 : ℝ)| ≤ 1 - 1 / n := by
    have := Rat.cast_le (K := ℝ).2 (height_bound hi)
    push_cast at this
    exact this
  have hrR := root_spiral (by omega : 0 < n) hr0' er' ey' hY
  have hR0 := Real.sqrt_nonneg (1 - ((2 * i + 1) / n - 1 : ℝ) ^ 2)
  have hR1 : Real.sqrt (1 - ((2 * i + 1) / n - 1 : ℝ) ^ 2) ≤ 1 := by
    refine Real.sqrt_le_one.2 ?_
    linarith [sq_nonneg ((2 * i + 1) / n - 1 : ℝ)]
  have hang : |(phi.num : ℝ) - (i + rd.num - k * n) * golden| ≤ n / 2 ^ 46 := by
    have e : (phi.num : ℝ) - (i + rd.num - k * n) * golden
        = (phi.num - m * inc.num) + (m * (inc.num - golden) + (m - (i + rd.num - k * n)) * golden) := by ring
    rw [e]
    have a1 : |(m : ℝ) * (inc.num - golden)| ≤ n * (1 / 2 ^ 47) := by
      rw [abs_mul, abs_of_nonneg hm0']
      gcongr
    have a2 : |((m : ℝ) - (i + rd.num - k * n)) * golden| ≤ n / 2 ^ 51 * 3 := by
      rw [abs_mul, abs_of_pos (by norm_num at gb ⊢; linarith [gb.1] : 0 < golden)]
      have : golden ≤ 3 := by norm_num at gb ⊢; linarith [gb.2]
      have : (0 : ℝ) < golden := by norm_num at gb ⊢; linarith [gb.1]
      gcongr
    have a3 := abs_add_le ((phi.num : ℝ) - m * inc.num) (m * (inc.num - golden) + (m - (i + rd.num - k * n)) * golden)
    have a4 := abs_add_le ((m : ℝ) * (inc.num - golden)) ((m - (i + rd.num - k * n)) * golden)
    norm_num at ep' a1 a2 a3 a4 ⊢
    linarith
  have hcos := (Real.abs_cos_sub_cos_le _ _).trans hang
  have hsin := (Real.abs_sin_sub_sin_le _ _).trans hang
  refine ⟨mul (L.cos phi) (fin false r), height o i, mul (L.sin phi) (fin false r), k, ?_, fx, fy, fz, ey', ?_, hk, hk1, ?_, ?_, ?_, ?_⟩
  · simp only [point, e1, e2, e3, bind, Except.bind, ← hphi, trig_ok _ fp, pure, Except.pure]
  · have x2 := abs_le.1 (leg_sq cv hr0' hr1 ex)
    have z2 := abs_le.1 (leg_sq sv hr0' hr1 ez)
    have r2 := abs_le.1 er'
    have e : Real.cos (phi.num : ℝ) ^ 2 * (r : ℝ) ^ 2 + Real.sin (phi.num : ℝ) ^ 2 * (r : ℝ) ^ 2 = (r : ℝ) ^ 2 := by
      rw [← add_mul, Real.cos_sq_add_sin_sq, one_mul]
    rw [abs_le]
    norm_num at x2 z2 r2 ⊢
    constructor <;> linarith [x2.1, x2.2, z2.1, z2.2, r2.1, r2.2]
  · have := abs_le.1 em'
    linarith [this.2]
  · have := abs_le.1 em'
    linarith [this.1]
  · have := leg_spiral ex cv hcos hR0 hR1 hrR
    norm_num at this ⊢
    linarith
  · have := leg_spiral ez sv hsin hR0 hR1 hrR
    norm_num at this ⊢
    linarith

/-- What holds of point `i` of `n`. -/
structure Point (n i : ℕ) (rd : ℚ) (p : PyFloat × PyFloat × PyFloat) : Prop where
  fd : Fd p.1 ∧ Fd p.2.1 ∧ Fd p.2.2
  height : |(p.2.1.num : ℝ) - ((2 * i + 1) / n - 1)| ≤ 1 / 2 ^ 49
  unit : |(p.1.num : ℝ) ^ 2 + (p.2.1.num : ℝ) ^ 2 + (p.2.2.num : ℝ) ^ 2 - 1| ≤ 1 / 2 ^ 46
  turn : ∃ k : ℤ, (k = 0 ∨ k = 1) ∧ (rd = 1 → k = if i + 1 = n then 1 else 0) ∧
    -(n / 2 ^ 51) ≤ (i + rd - k * n : ℝ) ∧ (i + rd - k * n : ℝ) ≤ n + n / 2 ^ 51 ∧
    |(p.1.num : ℝ) - Real.sqrt (1 - ((2 * i + 1) / n - 1) ^ 2) * Real.cos ((i + rd - k * n) * golden)| ≤ n / 2 ^ 45 ∧
    |(p.2.2.num : ℝ) - Real.sqrt (1 - ((2 * i + 1) / n - 1) ^ 2) * Real.sin ((i + rd - k * n) * golden)| ≤ n / 2 ^ 45

theorem offset_close {n : ℕ} (h0 : 0 < n) (hn : n ≤ 2 ^ 40) :
    ∃ o, FloatFactors.pyDiv (fin false 2) (ofInt n) = .ok o ∧ Fd o ∧ |o.num - 2 / n| ≤ 2 / n / 2 ^ 53 + 1 / 2 ^ 200 := by
  have hn0 : (0 : ℚ) < n := by exact_mod_cast h0
  have hn1 : (1 : ℚ) ≤ n := by exact_mod_cast h0
  obtain ⟨f, e⟩ := int_num (k := n) (by omega)
  have d2 : IsDouble (2 : ℚ) := by exact_mod_cast nat_double' (k := 2) (by norm_num)
  have n2 : (fin false 2).num = 2 := by simp [num]
  obtain ⟨fd, ed⟩ := div_err (x := fin false 2) (B := 2 / n) ⟨_, _, rfl, d2⟩ f (by rw [e]; exact hn0.ne')
    (by rw [e, n2, abs_of_pos (by positivity)]) (by
      calc (2 : ℚ) / n ≤ 2 / 1 := by gcongr
        _ ≤ 2 ^ 60 := by norm_num)
  rw [e, n2] at ed
  refine ⟨_, ?_, fd, ed⟩
  rw [FloatFactors.ofInt_double (nat_double' (by omega))]
  simp only [FloatFactors.pyDiv, if_neg hn0.ne']

/-- The offset of the spiral. -/
theorem rnd_close {n : ℕ} (h0 : 0 < n) (hn : n ≤ 2 ^ 40) {random : Option PyFloat} (hr : Drawn random) :
    Fd (random.elim (fin false 1) (mul · (ofInt n))) ∧ 0 ≤ (random.elim (fin false 1) (mul · (ofInt n))).num ∧
      (random.elim (fin false 1) (mul · (ofInt n))).num ≤ n ∧
      |(random.elim (fin false 1) (mul · (ofInt n))).num - random.elim 1 (num · * n)| ≤ n / 2 ^ 52 := by
  have hn0 : (0 : ℚ) < n := by exact_mod_cast h0
  have hn1 : (1 : ℚ) ≤ n := by exact_mod_cast h0
  have hn' : (n : ℚ) ≤ 2 ^ 60 := le_trans (by exact_mod_cast hn : (n : ℚ) ≤ 2 ^ 40) (by norm_num)
  obtain ⟨f, e⟩ := int_num (k := n) (by omega)
  rcases random with _ | x
  · refine ⟨⟨_, _, rfl, isDouble_one⟩, ?_, ?_, ?_⟩
    · simp [num]
    · simpa [num] using hn1
    · simp only [Option.elim, num, Bool.false_eq_true, if_false, sub_self, abs_zero]; positivity
  · obtain ⟨fx, x0, x1⟩ := hr x rfl
    have hp : x.num * n ≤ n := by nlinarith
    have hp0 : 0 ≤ x.num * n := by positivity
    have hb : |x.num * (ofInt n).num| ≤ n := by rw [e, abs_of_nonneg hp0]; exact hp
    obtain ⟨h1, h2⟩ := mul_num fx f (le_max_of (hb.trans hn'))
    have h3 := rnd_err hb
    rw [e] at h2 h3
    simp only [Option.elim]
    refine ⟨h1, ?_, ?_, ?_⟩
    · rw [h2]; exact rnd_nonneg hp0
    · have d : IsDouble |(n : ℚ)| := by rw [abs_of_pos hn0]; exact nat_double' (by omega)
      rw [h2]
      calc rnd (x.num * n) ≤ rnd n := rnd_mono hp (le_max_of (by rw [abs_of_nonneg hp0]; exact hp.trans hn'))
            (le_max_of (by rw [abs_of_pos hn0]; exact hn'))
        _ = n := rnd_double d
    · rw [h2]
      refine h3.trans ?_
      have : (1 : ℚ) / 2 ^ 200 ≤ n / 2 ^ 53 := by
        refine le_trans (by norm_num : (1 : ℚ) / 2 ^ 200 ≤ 1 / 2 ^ 53) ?_
        gcongr
      have e' : (n : ℚ) / 2 ^ 52 = n / 2 ^ 53 + n / 2 ^ 53 := by ring
      rw [e']
      linarith

theorem sphere_eq {L : FibLib} (hL : GoodFibLib L) {n : ℕ} (h0 : 0 < n) (hn : n ≤ 2 ^ 40) {random : Option PyFloat} (hr : Drawn random) :
    ∃ g : ℕ → PyFloat × PyFloat × PyFloat, sphere L n random = .ok ((List.range n).map g) ∧
      ∀ i < n, Point n i (random.elim (fin false 1) (mul · (ofInt n))).num (g i) := by
  obtain ⟨o, eo, fo, ho⟩ := offset_close h0 hn
  obtain ⟨s, es, fi, hi⟩ := increment_close hL
  obtain ⟨f1, f2, f3, -⟩ := rnd_close h0 hn hr
  set rd := random.elim (fin false 1) (mul · (ofInt n)) with hrd
  have key : ∀ i, ∃ p, i < n → point L n rd o (mul pi (sub (fin false 3) s)) i = .ok p ∧ Point n i rd.num p := by
    intro i
    by_cases h : i < n
    · obtain ⟨x, y, z, k, e, a1, a2, a3, a4, a5, a6⟩ := point_close hL h hn f1 f2 f3 fo ho fi hi
      exact ⟨(x, y, z), fun _ => ⟨e, ⟨a1, a2, a3⟩, a4, a5, k, a6⟩⟩
    · exact ⟨(nan, nan, nan), fun h' => absurd h' h⟩
  choose g hg using key
  refine ⟨g, ?_, fun i hi => (hg i hi).2⟩
  rw [sphere, if_neg (by omega)]
  simp only [bind, Except.bind, pure, Except.pure, eo, es, ← hrd, Int.toNat_natCast]
  exact mapM_ok _ g _ fun i hi => (hg i (List.mem_range.1 hi)).1

theorem sphere_get {L : FibLib} (hL : GoodFibLib L) {n : ℤ} (h0 : 0 < n) (hn : n ≤ 2 ^ 40) {random : Option PyFloat} (hr : Drawn random)
    {ps : List (PyFloat × PyFloat × PyFloat)} (h : sphere L n random = .ok ps) :
    (ps.length : ℤ) = n ∧ ∀ (i : ℕ) (hi : i < ps.length), Point n.toNat i (random.elim (fin false 1) (mul · (ofInt n))).num ps[i] := by
  obtain ⟨k, rfl⟩ : ∃ k : ℕ, n = k := ⟨n.toNat, by omega⟩
  obtain ⟨g, e, hg⟩ := sphere_eq hL (by omega : 0 < k) (by exact_mod_cast hn) hr
  rw [e] at h
  obtain rfl := Except.ok.inj h
  refine ⟨by simp, fun i hi => ?_⟩
  simp only [List.length_map, List.length_range] at hi
  simpa using hg i hi

end FloatFib
open FloatFib

/-- **C119.** For up to 2^40 points, randomised or not, the call succeeds: no height leaves the sphere, so no square root is
refused, and all coordinates are numbers. -/
theorem C119_points {L : FibLib} (hL : GoodFibLib L) (n : ℤ) (h0 : 0 < n) (hn : n ≤ 2 ^ 40) (random : Option PyFloat)
    (hr : Drawn random) : ∃ ps, sphere L n random = .ok ps ∧ (ps.length : ℤ) = n ∧ ∀ p ∈ ps, FinPoint p := by
  obtain ⟨k, rfl⟩ : ∃ k : ℕ, n = k := ⟨n.toNat, by omega⟩
  obtain ⟨g, e, hg⟩ := sphere_eq hL (by omega : 0 < k) (by exact_mod_cast hn) hr
  refine ⟨_, e, by simp, fun p hp => ?_⟩
  rw [List.mem_map] at hp
  obtain ⟨i, hi, rfl⟩ := hp
  exact (hg i (List.mem_range.1 hi)).fd

/-- **C119.** The points are on the unit sphere to within 2^-46 in the square of the radius. -/
theorem C119_unit_sphere {L : FibLib} (hL : GoodFibLib L) (n : ℤ) (h0 : 0 < n) (hn : n ≤ 2 ^ 40) (random : Option PyFloat)
    (hr : Drawn random) (ps : List (PyFloat × PyFloat × PyFloat)) (h : sphere L n random = .ok ps) (p : PyFloat × PyFloat × PyFloat)
    (hp : p ∈ ps) : |(p.1.num : ℝ) ^ 2 + (p.2.1.num : ℝ) ^ 2 + (p.2.2.num : ℝ) ^ 2 - 1| ≤ 1 / 2 ^ 46 := by
  obtain ⟨i, hi, rfl⟩ := List.getElem_of_mem hp
  exact ((sphere_get hL h0 hn hr h).2 i hi).unit

/-- **C119.** The heights are those of C50 to within 2^-49, and they increase strictly. So the points are distinct. -/
theorem C119_heights {L : FibLib} (hL : GoodFibLib L) (n : ℤ) (h0 : 0 < n) (hn : n ≤ 2 ^ 40) (random : Option PyFloat)
    (hr : Drawn random) (ps : List (PyFloat × PyFloat × PyFloat)) (h : sphere L n random = .ok ps) :
    (∀ (i : ℕ) (hi : i < ps.length), |(ps[i].2.1.num : ℝ) - ((2 * i + 1) / n - 1)| ≤ 1 / 2 ^ 49) ∧
    ps.Pairwise (fun p q => p.2.1.num < q.2.1.num) ∧ ps.Nodup := by
  obtain ⟨hl, hP⟩ := sphere_get hL h0 hn hr h
  have hnr : ((n.toNat : ℕ) : ℝ) = (n : ℝ) := by
    have : ((n.toNat : ℕ) : ℤ) = n := by omega
    exact_mod_cast this
  have hn0 : (0 : ℝ) < n := by exact_mod_cast h0
  have hn' : (n : ℝ) ≤ 2 ^ 40 := by exact_mod_cast hn
  have key : ∀ (i : ℕ) (hi : i < ps.length), |(ps[i].2.1.num : ℝ) - ((2 * i + 1) / n - 1)| ≤ 1 / 2 ^ 49 := by
    intro i hi
    have := (hP i hi).height
    rwa [hnr] at this
  have hinc : ps.Pairwise (fun p q => p.2.1.num < q.2.1.num) := by
    rw [List.pairwise_iff_getElem]
    intro i j hi hj hij
    have h1 := (abs_le.1 (key i hi)).2
    have h2 := (abs_le.1 (key j hj)).1
    have h3 : (i : ℝ) + 1 ≤ j := by exact_mod_cast hij
    have h4 : ((2 * i + 1) / n + 2 / n : ℝ) ≤ (2 * j + 1) / n := by
      rw [← add_div, div_le_div_iff_of_pos_right hn0]; linarith
    have h5 : (2 : ℝ) / 2 ^ 40 ≤ 2 / n := by gcongr
    have : (ps[i].2.1.num : ℝ) < ps[j].2.1.num := by
      norm_num at h1 h2 h5
      linarith
    exact_mod_cast this
  refine ⟨key, hinc, hinc.imp fun hpq e => ?_⟩
  rw [e] at hpq
  exact lt_irrefl _ hpq

/-- **C119.** Without randomisation the points are those of the exact formula, C50, to within `n 2^-45` in each coordinate. -/
theorem C119_spiral {L : FibLib} (hL : GoodFibLib L) (n : ℤ) (h0 : 0 < n) (hn : n ≤ 2 ^ 40)
    (ps : List (PyFloat × PyFloat × PyFloat)) (h : sphere L n none = .ok ps) :
    ∃ qs, fibonacciSphere n none = .ok qs ∧ List.Forall₂ (fun p q => |(p.1.num : ℝ) - q.1| ≤ n / 2 ^ 45 ∧
      |(p.2.1.num : ℝ) - q.2.1| ≤ 1 / 2 ^ 49 ∧ |(p.2.2.num : ℝ) - q.2.2| ≤ n / 2 ^ 45) ps qs := by
  obtain ⟨hl, hP⟩ := sphere_get hL h0 hn (random := none) (by rintro x ⟨⟩) h
  obtain ⟨k, rfl⟩ : ∃ k : ℕ, n = k := ⟨n.toNat, by omega⟩
  have hk0 : 0 < k := by omega
  have hkR : (0 : ℝ) < k := by exact_mod_cast hk0
  refine ⟨(List.range k).map (fibPoint k 1), ?_, ?_⟩
  · rw [fibonacciSphere, if_neg (by omega), if_neg (by omega)]; rfl
  · rw [List.forall₂_iff_get]
    refine ⟨by simp; exact_mod_cast hl, fun i hi hi' => ?_⟩
    simp only [List.get_eq_getElem, List.getElem_map, List.getElem_range]
    have hlt : i < k := by
      have : ps.length = k := by exact_mod_cast hl
      omega
    obtain ⟨-, a4, -, c, -, hc, -, -, b1, b2⟩ := hP i hi
    have hc' := hc (by simp [num])
    simp only [Int.toNat_natCast] at a4 b1 b2 hc'
    have hf : pyFMod (i + 1) k = i + 1 - c * k := by
      unfold pyFMod
      have : ⌊((i : ℝ) + 1) / k⌋ = c := by
        rw [hc']
        split_ifs with he
        · have he' : (i : ℝ) + 1 = k := by exact_mod_cast he
          rw [he', div_self hkR.ne']; simp
        · have he' : (i : ℝ) + 1 < k := by exact_mod_cast (by omega : i + 1 < k)
          rw [Int.floor_eq_zero_iff]
          exact ⟨by positivity, by rw [div_lt_one hkR]; exact he'⟩
      rw [this]; ring
    have e1 : ((((none : Option PyFloat).elim (fin false 1) (mul · (ofInt (k : ℤ)))).num : ℚ) : ℝ) = 1 := by simp [num]
    rw [e1] at b1 b2
    have hy := fib_height k 1 i
    have hx : (fibPoint k 1 i).1 = Real.sqrt (1 - ((2 * i + 1) / k - 1) ^ 2) * Real.cos ((i + 1 - c * k) * golden) := by
      rw [← hy]; simp only [fibPoint, hf, golden]; ring
    have hz : (fibPoint k 1 i).2.2 = Real.sqrt (1 - ((2 * i + 1) / k - 1) ^ 2) * Real.sin ((i + 1 - c * k) * golden) := by
      rw [← hy]; simp only [fibPoint, hf, golden]; ring
    rw [hx, hy, hz]
    push_cast
    exact ⟨b1, a4, b2⟩

/-- **C119.** With randomisation point `i` is that of the exact formula for the drawn offset, C50, to within `n 2^-44`. The offset
wraps around once or not at all, as the remainder requires, up to rounding. -/
theorem C119_random {L : FibLib} (hL : GoodFibLib L) (n : ℤ) (h0 : 0 < n) (hn : n ≤ 2 ^ 40) (d : PyFloat) (hd : FinD d)
    (hd0 : 0 ≤ d.num) (hd1 : d.num < 1) (ps : List (PyFloat × PyFloat × PyFloat)) (h : sphere L n (some d) = .ok ps)
    (i : ℕ) (hi : i < ps.length) :
    ∃ k : ℤ, (k = 0 ∨ k = 1) ∧
      let turns := (i : ℝ) + d.num * n - k * n
      let r := Real.sqrt (1 - ((2 * i + 1) / n - 1) ^ 2)
      0 ≤ turns + n / 2 ^ 50 ∧ turns ≤ n + n / 2 ^ 50 ∧
      |(ps[i].1.num : ℝ) - r * Real.cos (turns * (Real.pi * (3 - Real.sqrt 5)))| ≤ n / 2 ^ 44 ∧
      |(ps[i].2.2.num : ℝ) - r * Real.sin (turns * (Real.pi * (3 - Real.sqrt 5)))| ≤ n / 2 ^ 44 := by
  have hr : Drawn (some d) := by rintro x ⟨⟩; exact ⟨hd, hd0, hd1⟩
  obtain ⟨hl, hP⟩ := sphere_get hL h0 hn hr h
  obtain ⟨m, rfl⟩ : ∃ m : ℕ, n = m := ⟨n.toNat, by omega⟩
  have hm0 : 0 < m := by omega
  have hmR : (0 : ℝ) < m := by exact_mod_cast hm0
  obtain ⟨-, -, -, e⟩ := rnd_close hm0 (by exact_mod_cast hn) hr
  obtain ⟨-, -, -, k, hk, -, t1, t2, b1, b2⟩ := hP i hi
  simp only [Int.toNat_natCast, Option.elim] at t1 t2 b1 b2 e
  have e' := cast_err e
  push_cast at e'
  set rd := (mul d (ofInt m)).num with hrd
  refine ⟨k, hk, ?_⟩
  simp only [Int.cast_natCast]
  have e1 := abs_le.1 e'
  have gb := golden_bounds
  have hg0 : 0 < golden := by norm_num at gb ⊢; linarith [gb.1]
  have hg3 : golden ≤ 3 := by norm_num at gb ⊢; linarith [gb.2]
  have hang : |((i : ℝ) + rd - k * m) * golden - (i + d.num * m - k * m) * golden| ≤ m / 2 ^ 52 * 3 := by
    rw [← sub_mul, abs_mul, abs_of_pos hg0]
    have e2 : (i : ℝ) + rd - k * m - (i + d.num * m - k * m) = rd - d.num * m := by ring
    rw [e2]
    gcongr
  have hR0 := Real.sqrt_nonneg (1 - ((2 * i + 1) / m - 1 : ℝ) ^ 2)
  have hR1 : Real.sqrt (1 - ((2 * i + 1) / m - 1 : ℝ) ^ 2) ≤ 1 := by
    refine Real.sqrt_le_one.2 ?_
    linarith [sq_nonneg ((2 * i + 1) / m - 1 : ℝ)]
  have shift : ∀ {x a b R : ℝ}, 0 ≤ R → R ≤ 1 → |x - R * a| ≤ m / 2 ^ 45 → |a - b| ≤ m / 2 ^ 52 * 3 → |x - R * b| ≤ m / 2 ^ 44 := by
    intro x a b R hR0 hR1 h1 h2
    have e3 : x - R * b = (x - R * a) + R * (a - b) := by ring
    have h3 : |R * (a - b)| ≤ m / 2 ^ 52 * 3 := by
      rw [abs_mul, abs_of_nonneg hR0]
      calc R * |a - b| ≤ 1 * (m / 2 ^ 52 * 3) := by gcongr
        _ = _ := by ring
    have h4 := abs_add_le (x - R * a) (R * (a - b))
    rw [e3]
    norm_num at h1 h3 h4 ⊢
    linarith
  refine ⟨?_, ?_, shift hR0 hR1 b1 ((Real.abs_cos_sub_cos_le _ _).trans hang), shift hR0 hR1 b2 ((Real.abs_sin_sub_sin_le _ _).trans hang)⟩
  · norm_num at t1 e1 ⊢; linarith [e1.1, e1.2]
  · norm_num at t2 e1 ⊢; linarith [e1.1, e1.2]

/-- **C119.** A negative number of points is a ValueError, none a ZeroDivisionError. -/
theorem C119_errors (L : FibLib) (n : ℤ) (random : Option PyFloat) :
    (n < 0 → sphere L n random = .error .value) ∧ sphere L 0 random = .error .zeroDiv := by
  refine ⟨fun h => by rw [sphere, if_pos h]; rfl, ?_⟩
  have h0 : IsDouble ((0 : ℕ) : ℚ) := nat_double' (by norm_num)
  have e := FloatFactors.ofInt_double h0
  rw [sphere, if_neg (by omega)]
  push_cast at e
  simp only [bind, Except.bind, pure, Except.pure, e, FloatFactors.pyDiv, if_true]

/-! ### A library as assumed, and three points -/

private noncomputable def exFib : FibLib where
  sqrt := FloatFactors.exFactorLib.sqrt
  square
    | fin _ q => fin false (fl0 (q * q))
    | x => x
  cos x := roundReal (Real.cos x.num)
  sin x := roundReal (Real.sin x.num)

private theorem exFib_good : GoodFibLib exFib where
  sqrt := FloatFactors.exFactorLib_good.sqrt
  square s q hq h := by
    have h0 := hq.nonneg
    have h1 : q * q ≤ 1 := by nlinarith
    refine ⟨_, fl0_dbl (by positivity) (h1.trans isDouble_one.le_max), rfl, ?_⟩
    have h2 := fl0_err (q := q * q) (by positivity)
    have h3 : (2 : ℚ) ^ (-1075 : ℤ) ≤ 1 / 2 ^ 53 := by
      calc (2 : ℚ) ^ (-1075 : ℤ) ≤ 2 ^ (-53 : ℤ) := zpow_le (by norm_num)
        _ = _ := by norm_num
    rw [sq]
    generalize (2 : ℚ) ^ (-1075 : ℤ) = t at *
    have h4 : q * q / 2 ^ 53 ≤ 1 / 2 ^ 53 := by gcongr
    norm_num at h2 h3 h4 ⊢
    linarith
  cos x _ := by
    have h := roundReal_close (x := Real.cos x.num) ((Real.abs_cos_le_one _).trans (by norm_num))
    exact ⟨h.1, h.2.1⟩
  sin x _ := by
    have h := roundReal_close (x := Real.sin x.num) ((Real.abs_sin_le_one _).trans (by norm_num))
    exact ⟨h.1, h.2.1⟩

/-- A million points. -/
example : ∃ ps qs, sphere exFib 1000000 none = .ok ps ∧ fibonacciSphere 1000000 none = .ok qs ∧ ps.length = 1000000 ∧ ps.Nodup ∧
    List.Forall₂ (fun p q => |(p.1.num : ℝ) - q.1| ≤ 1 / 10 ^ 7 ∧ |(p.2.1.num : ℝ) - q.2.1| ≤ 1 / 10 ^ 14 ∧
      |(p.2.2.num : ℝ) - q.2.2| ≤ 1 / 10 ^ 7) ps qs := by
  obtain ⟨ps, h, hl, -⟩ := C119_points exFib_good 1000000 (by norm_num) (by norm_num) none (by rintro x ⟨⟩)
  obtain ⟨qs, hq, hc⟩ := C119_spiral exFib_good 1000000 (by norm_num) (by norm_num) ps h
  refine ⟨ps, qs, h, hq, by exact_mod_cast hl, (C119_heights exFib_good 1000000 (by norm_num) (by norm_num) none (by rintro x ⟨⟩) ps h).2.2,
    hc.imp fun p q h => ?_⟩
  push_cast at h
  norm_num at h ⊢
  exact ⟨h.1.trans (by norm_num), h.2.1.trans (by norm_num), h.2.2.trans (by norm_num)⟩

/-- Three points with the offset drawn as 1/4. -/
example : ∃ ps, sphere exFib 3 (some (fin false (1 / 4))) = .ok ps ∧ ps.length = 3 ∧ ps.Nodup := by
  have d : FinD (fin false (1 / 4)) := ⟨_, _, rfl, 1, -2, by norm_num, by norm_num, by norm_num, by norm_num⟩
  have hr : Drawn (some (fin false (1 / 4))) := by
    rintro x ⟨⟩; exact ⟨d, by norm_num [num], by norm_num [num]⟩
  obtain ⟨ps, h, hl, -⟩ := C119_points exFib_good 3 (by norm_num) (by norm_num) _ hr
  exact ⟨ps, h, by exact_mod_cast hl, (C119_heights exFib_good 3 (by norm_num) (by norm_num) _ hr ps h).2.2⟩

end Verif
