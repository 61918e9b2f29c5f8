import Verif.Model.FloatAxis
import Verif.Props.FloatCoords
import Mathlib.Data.Complex.Basic

/-!
# Error bounds for chains of float operations

`Ap x v M g` says that the float `x` approximates the number `v`, of size at most `M`, with an error of at most
`(g - 1) M`. Every operation multiplies `g` by `w = 1 + 2^-52`; as long as the sizes stay between `low` and `high`
that covers underflow as well.
-/

set_option exponentiation.threshold 4000

namespace Verif
namespace FloatError
open Spec PyFloat FloatRange FloatSets FloatCoords

/-- Sizes below this are not used. -/
noncomputable def low : ℝ := 2 ^ (-1020 : ℤ)

/-- Sizes above this are not used. -/
noncomputable def high : ℝ := 2 ^ (1023 : ℤ)

/-- The factor of one rounding. -/
noncomputable def w : ℝ := 1 + 1 / 2 ^ 52

theorem low_pos : 0 < low := by unfold low; positivity
theorem high_pos : 0 < high := by unfold high; positivity
theorem one_le_w : 1 ≤ w := by unfold w; norm_num
theorem w_pos : 0 < w := lt_of_lt_of_le one_pos one_le_w
theorem one_le_pow_w (n : ℕ) : 1 ≤ w ^ n := one_le_pow₀ one_le_w

/-- A finite float whose magnitude is a double. -/
def Fd (x : PyFloat) : Prop := ∃ s a, x = fin s a ∧ IsDouble a

theorem Fd.isFin {x : PyFloat} (h : Fd x) : isFin x = true := by obtain ⟨s, a, rfl, -⟩ := h; rfl

/-- `x` approximates `v`, of size at most `M`, within `(g - 1) M`. -/
structure Ap (x : PyFloat) (v M g : ℝ) : Prop where
  fd : Fd x
  err : |(x.num : ℝ) - v| ≤ (g - 1) * M
  size : |v| ≤ M

theorem Ap.size_nonneg {x : PyFloat} {v M g : ℝ} (h : Ap x v M g) : 0 ≤ M := (abs_nonneg _).trans h.size

theorem Ap.mono {x : PyFloat} {v M g M' g' : ℝ} (h : Ap x v M g) (hM : M ≤ M') (h1 : 1 ≤ g') (hg : g ≤ g') : Ap x v M' g' := by
  refine ⟨h.fd, h.err.trans ?_, h.size.trans hM⟩
  have := h.size_nonneg
  calc (g - 1) * M ≤ (g' - 1) * M := by gcongr
    _ ≤ (g' - 1) * M' := by gcongr

theorem Ap.congr {x y : PyFloat} {v M g : ℝ} (h : Ap x v M g) (hy : Fd y) (e : y.num = x.num) : Ap y v M g :=
  ⟨hy, by rw [e]; exact h.err, h.size⟩

theorem num_abs (s : Bool) {a : ℚ} (h : 0 ≤ a) : |(fin s a).num| = a := by
  cases s <;> simp [num, abs_of_nonneg h]

/-- Exact values. -/
theorem Ap.exact {x : PyFloat} (h : Fd x) {M : ℝ} (hM : |(x.num : ℝ)| ≤ M) : Ap x x.num M 1 :=
  ⟨h, by simp, hM⟩

theorem fd_zero (s : Bool) : Fd (fin s 0) := ⟨s, 0, rfl, isDouble_zero⟩

theorem num_zero (s : Bool) : (fin s 0).num = 0 := by cases s <;> simp [num]

theorem Ap.zero (s : Bool) {M : ℝ} (hM : 0 ≤ M) : Ap (fin s 0) 0 M 1 :=
  ⟨fd_zero s, by simp [num_zero], by simpa using hM⟩

theorem high_le_max : high ≤ ((maxDouble : ℚ) : ℝ) := by
  have := (Rat.cast_le (K := ℝ)).2 big_le_max
  rw [Rat.cast_zpow, Rat.cast_ofNat] at this
  exact this

theorem err_real {q : ℚ} (hq : 0 ≤ q) : |((fl0 q : ℚ) : ℝ) - q| ≤ q / 2 ^ 53 + low / 2 ^ 55 := by
  have h := (Rat.cast_le (K := ℝ)).2 (fl0_err hq)
  push_cast at h
  have e : (2 : ℝ) ^ (-1075 : ℤ) = low / 2 ^ 55 := by
    unfold low
    rw [show (-1075 : ℤ) = -1020 - 55 by norm_num, zpow_sub₀ (by norm_num)]
    norm_cast
  rw [← e]
  exact h

/-- Rounding a magnitude. -/
theorem ap_ofMag {s : Bool} {q : ℚ} (hq : 0 ≤ q) {v M g : ℝ} (he : |((fin s q).num : ℝ) - v| ≤ (g - 1) * M) (hv : |v| ≤ M)
    (hl : low ≤ M) (hh : g * M ≤ high) : Ap (ofMag s q) v M (g * w) := by
  have hM : 0 < M := lt_of_lt_of_le low_pos hl
  have hg : 1 ≤ g := by
    have : 0 ≤ (g - 1) * M := (abs_nonneg _).trans he
    by_contra hc
    have : (g - 1) * M < 0 := mul_neg_of_neg_of_pos (by linarith) hM
    linarith
  have hqM : (q : ℝ) ≤ g * M := by
    have h1 : |((fin s q).num : ℝ)| = q := by
      have := num_abs s hq; exact_mod_cast this
    have h2 := abs_sub_abs_le_abs_sub ((fin s q).num : ℝ) v
    rw [h1] at h2
    linarith
  have hmax : q ≤ maxDouble := by exact_mod_cast (hqM.trans hh).trans high_le_max
  rw [ofMag_of_le hq hmax]
  refine ⟨⟨s, _, rfl, fl0_dbl hq hmax⟩, ?_, hv⟩
  have h1 := err_real hq
  have h2 : |((fin s (fl0 q)).num : ℝ) - (fin s q).num| = |((fl0 q : ℚ) : ℝ) - q| := by
    cases s
    · simp [num]
    · simp only [num, if_true]
      push_cast
      rw [← abs_neg]; ring_nf
  have h3 : |((fin s (fl0 q)).num : ℝ) - v| ≤ |((fin s (fl0 q)).num : ℝ) - (fin s q).num| + |((fin s q).num : ℝ) - v| :=
    abs_sub_le _ _ _
  rw [h2] at h3
  have h4 : (q : ℝ) / 2 ^ 53 ≤ g * M / 2 ^ 53 := by gcongr
  have h5 : low / 2 ^ 55 ≤ g * M / 2 ^ 53 := by
    have : M ≤ g * M := le_mul_of_one_le_left hM.le hg
    have hl0 := low_pos
    calc low / 2 ^ 55 ≤ low / 2 ^ 53 := by gcongr <;> norm_num
      _ ≤ g * M / 2 ^ 53 := by gcongr; linarith
  have e : (g * w - 1) * M = (g - 1) * M + (g * M / 2 ^ 53 + g * M / 2 ^ 53) := by
    unfold w; ring
  rw [e]
  linarith

theorem num_mul (s t : Bool) (a b : ℚ) : (fin (s != t) (a * b)).num = (fin s a).num * (fin t b).num := by
  cases s <;> cases t <;> simp [num]

theorem num_div (s t : Bool) (a b : ℚ) : (fin (s != t) (a / b)).num = (fin s a).num / (fin t b).num := by
  cases s <;> cases t <;> simp [num, neg_div, div_neg]

theorem prod_err {x y v u M N g h : ℝ} (h1 : |x - v| ≤ (g - 1) * M) (h2 : |y - u| ≤ (h - 1) * N) (h3 : |v| ≤ M)
    (h4 : |u| ≤ N) : |x * y - v * u| ≤ (g * h - 1) * (M * N) := by
  have e : x * y - v * u = (x - v) * u + v * (y - u) + (x - v) * (y - u) := by ring
  have hM : 0 ≤ M := (abs_nonneg _).trans h3
  have hN : 0 ≤ N := (abs_nonneg _).trans h4
  have k1 : 0 ≤ (g - 1) * M := (abs_nonneg _).trans h1
  have k2 : 0 ≤ (h - 1) * N := (abs_nonneg _).trans h2
  have a1 : |(x - v) * u| ≤ (g - 1) * M * N := by rw [abs_mul]; gcongr
  have a2 : |v * (y - u)| ≤ M * ((h - 1) * N) := by rw [abs_mul]; gcongr
  have a3 : |(x - v) * (y - u)| ≤ (g - 1) * M * ((h - 1) * N) := by rw [abs_mul]; gcongr
  have b := (abs_add_le ((x - v) * u + v * (y - u)) ((x - v) * (y - u))).trans
    (add_le_add_left (abs_add_le ((x - v) * u) (v * (y - u))) _)
  rw [e]
  have e2 : (g * h - 1) * (M * N) = (g - 1) * M * N + M * ((h - 1) * N) + (g - 1) * M * ((h - 1) * N) := by ring
  rw [e2]
  linarith

theorem Ap.mul {x y : PyFloat} {v u M N g h : ℝ} (hx : Ap x v M g) (hy : Ap y u N h) (hl : low ≤ M * N)
    (hh : g * h * (M * N) ≤ high) : Ap (PyFloat.mul x y) (v * u) (M * N) (g * h * w) := by
  obtain ⟨⟨s, a, rfl, ha⟩, h1, h2⟩ := hx
  obtain ⟨⟨t, b, rfl, hb⟩, h3, h4⟩ := hy
  refine ap_ofMag (mul_nonneg ha.nonneg hb.nonneg) ?_ ?_ hl hh
  · rw [num_mul]
    push_cast
    exact prod_err h1 h3 h2 h4
  · rw [abs_mul]
    have := (abs_nonneg _).trans h2
    gcongr

theorem Ap.neg {x : PyFloat} {v M g : ℝ} (hx : Ap x v M g) : Ap (PyFloat.neg x) (-v) M g := by
  obtain ⟨⟨s, a, rfl, ha⟩, h1, h2⟩ := hx
  refine ⟨⟨!s, a, rfl, ha⟩, ?_, by rwa [abs_neg]⟩
  have : (PyFloat.neg (fin s a)).num = -(fin s a).num := by cases s <;> simp [PyFloat.neg, num]
  rw [this]
  push_cast
  rw [← abs_neg]
  convert h1 using 2
  ring

theorem num_add_core {r : ℚ} (h : r ≠ 0) : (fin (decide (r < 0)) |r|).num = r := by
  rcases lt_or_ge r 0 with h | h
  · simp [num, h, abs_of_neg h]
  · simp [num, not_lt.2 h, abs_of_nonneg h]

theorem Ap.add {x y : PyFloat} {v u M N g : ℝ} (hx : Ap x v M g) (hy : Ap y u N g) (hl : low ≤ M + N)
    (hh : g * (M + N) ≤ high) : Ap (PyFloat.add x y) (v + u) (M + N) (g * w) := by
  have hM := hx.size_nonneg
  have hN := hy.size_nonneg
  obtain ⟨⟨s, a, rfl, ha⟩, h1, h2⟩ := hx
  obtain ⟨⟨t, b, rfl, hb⟩, h3, h4⟩ := hy
  have hMN : 0 < M + N := lt_of_lt_of_le low_pos hl
  have hv : |v + u| ≤ M + N := (abs_add_le _ _).trans (add_le_add h2 h4)
  have he : |(((fin s a).num + (fin t b).num : ℚ) : ℝ) - (v + u)| ≤ (g - 1) * (M + N) := by
    push_cast
    have e : ((fin s a).num : ℝ) + (fin t b).num - (v + u) = ((fin s a).num - v) + ((fin t b).num - u) := by ring
    rw [e]
    have := abs_add_le (((fin s a).num : ℝ) - v) ((fin t b).num - u)
    linarith
  simp only [PyFloat.add]
  split_ifs with h0
  · refine ⟨fd_zero _, ?_, hv⟩
    rw [num_zero, ← h0]
    refine he.trans ?_
    have hg : 0 ≤ g := by
      have : 0 ≤ (g - 1) * (M + N) := (abs_nonneg _).trans he
      by_contra hc
      have : (g - 1) * (M + N) < 0 := mul_neg_of_neg_of_pos (by linarith) hMN
      linarith
    have : g ≤ g * w := le_mul_of_one_le_right hg one_le_w
    gcongr
  · refine ap_ofMag (abs_nonneg _) ?_ hv hl hh
    rw [num_add_core h0]
    exact he

theorem Ap.sub {x y : PyFloat} {v u M N g : ℝ} (hx : Ap x v M g) (hy : Ap y u N g) (hl : low ≤ M + N)
    (hh : g * (M + N) ≤ high) : Ap (PyFloat.sub x y) (v - u) (M + N) (g * w) := by
  rw [sub_eq_add_neg]
  exact hx.add hy.neg hl hh

/-- Adding zeros. -/
theorem fd_add_zero {x : PyFloat} (hx : Fd x) (t : Bool) :
    (Fd (PyFloat.add x (fin t 0)) ∧ (PyFloat.add x (fin t 0)).num = x.num) ∧
      Fd (PyFloat.add (fin t 0) x) ∧ (PyFloat.add (fin t 0) x).num = x.num := by
  obtain ⟨s, a, rfl, ha⟩ := hx
  simp only [PyFloat.add, num_zero, add_zero, zero_add]
  by_cases h0 : (fin s a).num = 0
  · simp only [h0, if_true]
    exact ⟨⟨fd_zero _, num_zero _⟩, fd_zero _, num_zero _⟩
  · simp only [h0, if_false]
    have h1 := num_abs s ha.nonneg
    rw [h1, ofMag_of_le ha.nonneg ha.le_max, fl0_of_isDouble ha]
    have h2 : (fin (decide ((fin s a).num < 0)) a).num = (fin s a).num := by
      rw [← h1]
      convert num_add_core h0 using 3
      all_goals rw [h1]
    exact ⟨⟨⟨_, _, rfl, ha⟩, h2⟩, ⟨_, _, rfl, ha⟩, h2⟩

theorem Ap.add_zero {x : PyFloat} {v M g : ℝ} (h : Ap x v M g) (t : Bool) : Ap (PyFloat.add x (fin t 0)) v M g :=
  h.congr (fd_add_zero h.fd t).1.1 (fd_add_zero h.fd t).1.2

theorem Ap.zero_add {x : PyFloat} {v M g : ℝ} (h : Ap x v M g) (t : Bool) : Ap (PyFloat.add (fin t 0) x) v M g :=
  h.congr (fd_add_zero h.fd t).2.1 (fd_add_zero h.fd t).2.2

theorem Ap.mul_one {x : PyFloat} {v M g : ℝ} (h : Ap x v M g) : Ap (PyFloat.mul x (fin false 1)) v M g := by
  have hf := h.fd
  obtain ⟨s, a, rfl, ha⟩ := hf
  have e : PyFloat.mul (fin s a) (fin false 1) = fin s a := by
    simp only [PyFloat.mul, _root_.mul_one, Bool.bne_false]
    rw [ofMag_of_le ha.nonneg ha.le_max, fl0_of_isDouble ha]
  rwa [e]

/-- Dividing by a number known up to a small relative error. -/
theorem quot_err {x y v u M g h : ℝ} (h1 : |x - v| ≤ (g - 1) * M) (h2 : |y - u| ≤ (h - 1) * |u|) (h3 : |v| ≤ M)
    (hu : u ≠ 0) (hh1 : 1 ≤ h) (hh : h ≤ 3 / 2) (hg : 1 ≤ g) : y ≠ 0 ∧ |x / y - v / u| ≤ (g * h ^ 2 - 1) * (M / |u|) := by
  have hu0 : 0 < |u| := abs_pos.2 hu
  have hM : 0 ≤ M := (abs_nonneg _).trans h3
  have hy : (2 - h) * |u| ≤ |y| := by
    have := abs_sub_abs_le_abs_sub u y
    rw [abs_sub_comm] at this
    linarith
  have hy0 : 0 < |y| := lt_of_lt_of_le (by nlinarith) hy
  have hyne : y ≠ 0 := abs_pos.1 hy0
  refine ⟨hyne, ?_⟩
  have e : x / y - v / u = ((x - v) * u - v * (y - u)) / (y * u) := by field_simp; ring
  rw [e, abs_div, abs_mul y u, div_le_iff₀ (by positivity)]
  have a1 : |(x - v) * u| ≤ (g - 1) * M * |u| := by rw [abs_mul]; gcongr
  have a2 : |v * (y - u)| ≤ M * ((h - 1) * |u|) := by rw [abs_mul]; gcongr
  have a3 := (abs_sub ((x - v) * u) (v * (y - u)))
  have e2 : (g * h ^ 2 - 1) * (M / |u|) * (|y| * |u|) = (g * h ^ 2 - 1) * M * |y| := by field_simp
  rw [e2]
  have hgh : 0 ≤ g * h ^ 2 - 1 := by nlinarith
  have a4 : (g * h ^ 2 - 1) * M * ((2 - h) * |u|) ≤ (g * h ^ 2 - 1) * M * |y| := by gcongr
  have a5 : 0 ≤ ((g * h ^ 2 - 1) * (2 - h) - (g - 1) - (h - 1)) := by
    have t : (g * h ^ 2 - 1) * (2 - h) - (g - 1) - (h - 1) = g * (h ^ 2 * (2 - h) - 1) := by ring
    rw [t]
    have : 0 ≤ h ^ 2 * (2 - h) - 1 := by
      have : h ^ 2 * (2 - h) - 1 = (h - 1) * (1 + h - h ^ 2) := by ring
      rw [this]
      apply mul_nonneg <;> nlinarith
    positivity
  have a6 : 0 ≤ ((g * h ^ 2 - 1) * (2 - h) - (g - 1) - (h - 1)) * (M * |u|) := by positivity
  nlinarith

theorem Ap.one_le {x : PyFloat} {v M g : ℝ} (h : Ap x v M g) (hM : 0 < M) : 1 ≤ g := by
  have : 0 ≤ (g - 1) * M := (abs_nonneg _).trans h.err
  by_contra hc
  have : (g - 1) * M < 0 := mul_neg_of_neg_of_pos (by linarith) hM
  linarith

theorem Ap.div {x y : PyFloat} {v u M g h : ℝ} (hx : Ap x v M g) (hy : Ap y u |u| h) (hu : u ≠ 0) (hg : 1 ≤ g)
    (hh : h ≤ 3 / 2) (hl : low ≤ M / |u|) (hb : g * h ^ 2 * (M / |u|) ≤ high) :
    Ap (PyFloat.div x y) (v / u) (M / |u|) (g * h ^ 2 * w) := by
  have hh1 := hy.one_le (abs_pos.2 hu)
  obtain ⟨⟨s, a, rfl, ha⟩, h1, h2⟩ := hx
  obtain ⟨⟨t, b, rfl, hb'⟩, h3, -⟩ := hy
  have key := quot_err h1 h3 h2 hu hh1 hh hg
  have hb0 : b ≠ 0 := by
    rintro rfl
    apply key.1
    rw [num_zero]; simp
  simp only [PyFloat.div, hb0, if_false]
  refine ap_ofMag (div_nonneg ha.nonneg hb'.nonneg) ?_ ?_ hl hb
  · rw [num_div]
    push_cast
    exact key.2
  · rw [abs_div]
    gcongr

/-! ### Complex numbers -/

/-- A pair of floats approximates a complex number, both parts of size at most `M`. -/
structure CAp (z : PyFloat × PyFloat) (v : ℂ) (M g : ℝ) : Prop where
  re : Ap z.1 v.re M g
  im : Ap z.2 v.im M g

theorem CAp.mono {z : PyFloat × PyFloat} {v : ℂ} {M g M' g' : ℝ} (h : CAp z v M g) (hM : M ≤ M') (h1 : 1 ≤ g')
    (hg : g ≤ g') : CAp z v M' g' := ⟨h.re.mono hM h1 hg, h.im.mono hM h1 hg⟩

/-- Times a real number. -/
theorem CAp.mulReal {z : PyFloat × PyFloat} {v : ℂ} {M g : ℝ} {c : PyFloat} {r N h : ℝ} (hz : CAp z v M g) (hc : Ap c r N h)
    (hl : low ≤ M * N) (hh : g * h * (M * N) ≤ high) : CAp (cmul z (c, fin false 0)) (v * r) (M * N) (g * h * w) := by
  obtain ⟨s1, e1⟩ := (mul_finzero hz.re.fd.isFin false).1
  obtain ⟨s2, e2⟩ := (mul_finzero hz.im.fd.isFin false).1
  constructor
  · simp only [cmul, e2, PyFloat.neg, Complex.mul_re, Complex.ofReal_re, Complex.ofReal_im, mul_zero, sub_zero]
    exact (hz.re.mul hc hl hh).add_zero _
  · simp only [cmul, e1, Complex.mul_im, Complex.ofReal_re, Complex.ofReal_im, mul_zero, _root_.zero_add]
    exact (hz.im.mul hc hl hh).zero_add _

/-- Times the imaginary unit. -/
theorem CAp.mulI {z : PyFloat × PyFloat} {v : ℂ} {M g : ℝ} (hz : CAp z v M g) :
    CAp (cmul z (fin false 0, fin false 1)) (v * Complex.I) M g := by
  obtain ⟨s1, e1⟩ := (mul_finzero hz.re.fd.isFin false).1
  obtain ⟨s2, e2⟩ := (mul_finzero hz.im.fd.isFin false).1
  constructor
  · simp only [cmul, e1, Complex.mul_I_re]
    exact hz.im.mul_one.neg.zero_add _
  · simp only [cmul, e2, Complex.mul_I_im]
    exact hz.re.mul_one.add_zero _

/-- Product of complex numbers. -/
theorem CAp.mul {z y : PyFloat × PyFloat} {v u : ℂ} {M g N h : ℝ} (hz : CAp z v M g) (hy : CAp y u N h)
    (hl : low ≤ M * N) (hh : g * h * w * (M * N + M * N) ≤ high) :
    CAp (cmul z y) (v * u) (M * N + M * N) (g * h * w * w) := by
  have hp : 0 < M * N := lt_of_lt_of_le low_pos hl
  have hl2 : low ≤ M * N + M * N := by linarith
  have h0 : g * h * (M * N) ≤ high := by
    have hM : 0 < M := lt_of_le_of_ne hz.re.size_nonneg (by rintro rfl; simp at hp)
    have hN : 0 < N := lt_of_le_of_ne hy.re.size_nonneg (by rintro rfl; simp at hp)
    have h1 := hz.re.one_le hM
    have h2 := hy.re.one_le hN
    refine le_trans ?_ hh
    have := one_le_w
    calc g * h * (M * N) = g * h * 1 * (M * N + 0) := by ring
      _ ≤ g * h * w * (M * N + M * N) := by gcongr
  constructor
  · rw [Complex.mul_re]
    exact (hz.re.mul hy.re hl h0).sub (hz.im.mul hy.im hl h0) hl2 hh
  · rw [Complex.mul_im]
    exact (hz.re.mul hy.im hl h0).add (hz.im.mul hy.re hl h0) hl2 hh

theorem CAp.add {z y : PyFloat × PyFloat} {v u : ℂ} {M N g : ℝ} (hz : CAp z v M g) (hy : CAp y u N g) (hl : low ≤ M + N)
    (hh : g * (M + N) ≤ high) : CAp (cadd z y) (v + u) (M + N) (g * w) :=
  ⟨hz.re.add hy.re hl hh, hz.im.add hy.im hl hh⟩

theorem CAp.sub {z y : PyFloat × PyFloat} {v u : ℂ} {M N g : ℝ} (hz : CAp z v M g) (hy : CAp y u N g) (hl : low ≤ M + N)
    (hh : g * (M + N) ≤ high) : CAp (PyFloat.sub z.1 y.1, PyFloat.sub z.2 y.2) (v - u) (M + N) (g * w) :=
  ⟨hz.re.sub hy.re hl hh, hz.im.sub hy.im hl hh⟩

theorem CAp.neg {z : PyFloat × PyFloat} {v : ℂ} {M g : ℝ} (hz : CAp z v M g) : CAp (PyFloat.neg z.1, PyFloat.neg z.2) (-v) M g :=
  ⟨hz.re.neg, hz.im.neg⟩

/-- Division by a real number. -/
theorem CAp.divReal {z : PyFloat × PyFloat} {v : ℂ} {M g : ℝ} {x : PyFloat} {r h : ℝ} (hz : CAp z v M g)
    (hx : Ap x r |r| h) (hr : r ≠ 0) (hh : h ≤ 3 / 2) (h1 : low ≤ 1 / |r|) (h2 : h ^ 2 * (1 / |r|) ≤ high)
    (hl : low ≤ M * (1 / |r|)) (hb : g * (h ^ 2 * w) * (M * (1 / |r|)) ≤ high) :
    CAp (cdivReal z x) (v / r) (M * (1 / |r|)) (g * (h ^ 2 * w) * w) := by
  have hfx := hx.fd
  obtain ⟨s, a, rfl, ha⟩ := hfx
  have hh1 := hx.one_le (abs_pos.2 hr)
  have ha0 : a ≠ 0 := by
    rintro rfl
    exact (quot_err (x := 0) (v := 0) (M := 0) (g := 1) (by simp) hx.err (by simp) hr hh1 hh le_rfl).1 (by simp [num_zero])
  have hfa : isFin (fin s a) = true := rfl
  have erat : PyFloat.div (fin false 0) (fin s a) = fin (false != s) 0 := by
    simp [PyFloat.div, ha0, ofMag_zero]
  obtain ⟨t, et⟩ := (mul_finzero (x := fin (false != s) 0) rfl false).2
  have hone : Ap (fin false 1) 1 1 1 := by
    have := Ap.exact (x := fin false 1) ⟨_, _, rfl, isDouble_one⟩ (M := 1) (by simp [num])
    simpa [num] using this
  have hscl : Ap (PyFloat.div (fin false 1) (PyFloat.add (fin s a) (PyFloat.mul (fin false 0) (PyFloat.div (fin false 0) (fin s a)))))
      (1 / r) (1 / |r|) (h ^ 2 * w) := by
    rw [erat, et]
    have := hone.div (hx.add_zero t) hr le_rfl hh h1 (by rwa [one_mul])
    rwa [one_mul] at this
  obtain ⟨s1, e1⟩ := (mul_finzero hz.re.fd.isFin (false != s)).1
  obtain ⟨s2, e2⟩ := (mul_finzero hz.im.fd.isFin (false != s)).1
  have ev : v / (r : ℂ) = v * ((1 / r : ℝ) : ℂ) := by push_cast; ring
  unfold cdivReal
  simp only [ha0, if_false]
  rw [ev]
  constructor
  · simp only [Complex.mul_re, Complex.ofReal_re, Complex.ofReal_im, mul_zero, sub_zero]
    refine Ap.mul ?_ hscl hl hb
    rw [erat, e2]
    exact hz.re.add_zero _
  · simp only [Complex.mul_im, Complex.ofReal_re, Complex.ofReal_im, mul_zero, _root_.zero_add]
    refine Ap.mul ?_ hscl hl hb
    rw [erat, e1]
    exact hz.im.add_zero _

/-! ### Sums -/

theorem pow_w_le (n : ℕ) (h : n ≤ 2 ^ 50) : w ^ n ≤ 2 := by
  have hw : w ≤ Real.exp (1 / 2 ^ 52) := by
    unfold w
    have := Real.add_one_le_exp ((1 : ℝ) / 2 ^ 52)
    linarith
  have hn : (n : ℝ) ≤ 2 ^ 50 := by exact_mod_cast h
  have h1 : w ^ n ≤ Real.exp (n * (1 / 2 ^ 52)) := by
    rw [Real.exp_nat_mul]
    exact pow_le_pow_left₀ w_pos.le hw n
  have h2 : Real.exp (n * (1 / 2 ^ 52)) ≤ Real.exp (1 / 4) := by
    apply Real.exp_le_exp.2
    linarith
  have h3 : Real.exp (1 / 4) ≤ 2 := by
    have h4 := Real.add_one_le_exp (-(1 / 4) : ℝ)
    have h5 : Real.exp (1 / 4) * Real.exp (-(1 / 4)) = 1 := by rw [← Real.exp_add]; norm_num
    have h6 := Real.exp_pos (1 / 4)
    nlinarith
  linarith

/-- A loop that adds up terms. -/
theorem fold_add {α : Type*} {t : α → PyFloat × PyFloat} {v : α → ℂ} {M : α → ℝ} {g : ℝ}
    (rows : List α) (hg : 1 ≤ g) (h : ∀ r ∈ rows, CAp (t r) (v r) (M r) g) (hl : ∀ r ∈ rows, low ≤ M r) :
    ∀ (z : PyFloat × PyFloat) (u : ℂ) (S : ℝ) (k : ℕ), CAp z u S (g * w ^ k) →
      g * w ^ (k + rows.length) * (S + (rows.map M).sum) ≤ high →
      CAp (rows.foldl (fun acc r => cadd acc (t r)) z) (u + (rows.map v).sum) (S + (rows.map M).sum)
        (g * w ^ (k + rows.length)) := by
  induction rows with
  | nil => intro z u S k hz _; simpa using hz
  | cons r rows ih =>
    intro z u S k hz hb
    have hr := h r (by simp)
    have hlr := hl r (by simp)
    have hS := hz.re.size_nonneg
    have hsum : 0 ≤ (rows.map M).sum :=
      List.sum_nonneg fun x hx => by
        obtain ⟨r', hr', rfl⟩ := List.mem_map.1 hx
        exact low_pos.le.trans (hl r' (by simp [hr']))
    have hk := one_le_pow_w k
    have hgk : 1 ≤ g * w ^ k := one_le_mul_of_one_le_of_one_le hg hk
    have h1 : CAp (cadd z (t r)) (u + v r) (S + M r) (g * w ^ (k + 1)) := by
      rw [pow_succ, ← mul_assoc]
      refine hz.add (hr.mono le_rfl hgk (le_mul_of_one_le_right (by linarith) hk)) (by linarith) ?_
      refine le_trans ?_ hb
      simp only [List.map_cons, List.sum_cons, List.length_cons]
      have hp : w ^ k ≤ w ^ (k + (rows.length + 1)) := pow_le_pow_right₀ one_le_w (by omega)
      have hlow := low_pos
      have : 0 ≤ S + M r := by linarith
      calc g * w ^ k * (S + M r) ≤ g * w ^ (k + (rows.length + 1)) * (S + M r) := by gcongr
        _ ≤ g * w ^ (k + (rows.length + 1)) * (S + (M r + (rows.map M).sum)) := by
          have hw0 := w_pos
          gcongr; linarith
    have h2 := ih (fun r' hr' => h r' (by simp [hr'])) (fun r' hr' => hl r' (by simp [hr'])) _ _ _ _ h1 (by
      convert hb using 2
      · simp only [List.length_cons]; congr 2; omega
      · simp only [List.map_cons, List.sum_cons]; ring)
    simp only [List.foldl_cons, List.map_cons, List.sum_cons, List.length_cons]
    convert h2 using 1
    · ring
    · ring
    · congr 2; omega

end FloatError
end Verif
