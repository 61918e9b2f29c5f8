import Verif.Model.FloatField
import Verif.Lemmas.FloatError
import Verif.Lemmas.Zdi
import Verif.Props.FloatRange

/-!
# Property C112: how accurate the field of a ZDI magnetogram is in double precision
-/

set_option exponentiation.threshold 4000

namespace Verif
open Spec PyFloat FloatRange FloatError FloatField

/-- The complex number a pair of finite floats stands for. -/
noncomputable def Spec.cnum (z : PyFloat × PyFloat) : ℂ := ⟨z.1.num, z.2.num⟩

/-- The size of a coefficient; never less than 2^-200. -/
noncomputable def Spec.sizeC (z : PyFloat × PyFloat) : ℝ := max (max |(z.1.num : ℝ)| |(z.2.num : ℝ)|) (2 ^ (-200 : ℤ))

/-- The row of the exact magnetogram with the same coefficients. -/
noncomputable def Spec.exactRow (r : ZFloat) : ZRow := ⟨r.l, r.m, cnum r.a, cnum r.b, cnum r.g⟩

/-- A finite coefficient of moderate size. -/
def Spec.GoodCoef (z : PyFloat × PyFloat) : Prop := FinD z.1 ∧ FinD z.2 ∧ sizeC z ≤ 2 ^ (300 : ℤ)

/-- What is assumed of the row of a magnetogram at a point: finite coefficients, degrees for which `c_lm` is right (C105), and
values of the Legendre function, its derivative and the exponential within `ε` of the exact ones, measured against the bounds
`P` and `D` of the first two. -/
structure Spec.GoodRow (ε θ φ : ℝ) (P D : ℤ → ℤ → ℝ) (r : ZFloat) : Prop where
  order_nonneg : 0 ≤ r.m
  order_le : r.m ≤ r.l
  degree : r.l + r.m ≤ 170
  degree' : ¬(r.l = 170 ∧ r.m = 0)
  ca : GoodCoef r.a
  cb : GoodCoef r.b
  cg : GoodCoef r.g
  p_fin : FinD r.p
  p_close : |(r.p.num : ℝ) - lpmv r.m r.l (Real.cos θ)| ≤ ε * P r.l r.m
  p_size : |lpmv r.m r.l (Real.cos θ)| ≤ P r.l r.m
  p_low : 2 ^ (-150 : ℤ) ≤ P r.l r.m
  p_high : cLm r.l r.m * P r.l r.m ≤ 2 ^ (400 : ℤ)
  d_fin : FinD r.d
  d_close : |(r.d.num : ℝ) - deriv (Spec.legendreP r.l.toNat r.m.toNat) (Real.cos θ)| ≤ ε * D r.l r.m
  d_size : |deriv (Spec.legendreP r.l.toNat r.m.toNat) (Real.cos θ)| ≤ D r.l r.m
  d_low : 2 ^ (-40 : ℤ) ≤ D r.l r.m
  d_high : cLm r.l r.m * D r.l r.m ≤ 2 ^ (400 : ℤ)
  e_fin : FinD r.e.1 ∧ FinD r.e.2
  e_re : |(r.e.1.num : ℝ) - Real.cos (r.m * φ)| ≤ ε
  e_im : |(r.e.2.num : ℝ) - Real.sin (r.m * φ)| ≤ ε

/-- What is assumed of a sine: a relative error of at most `ε`, and not too close to the axis. -/
structure Spec.GoodSine (ε θ : ℝ) (s : PyFloat) : Prop where
  fin : FinD s
  close : |(s.num : ℝ) - Real.sin θ| ≤ ε * |Real.sin θ|
  low : 2 ^ (-100 : ℤ) ≤ |Real.sin θ|

namespace FloatField

/-! ### Powers of two -/

theorem up {x y : ℝ} {i j : ℤ} (hx : x ≤ 2 ^ i) (hy : y ≤ 2 ^ j) (hy0 : 0 ≤ y) : x * y ≤ 2 ^ (i + j) := by
  rw [zpow_add₀ (by norm_num)]
  gcongr

theorem dn {x y : ℝ} {i j : ℤ} (hx : 2 ^ i ≤ x) (hy : 2 ^ j ≤ y) : 2 ^ (i + j) ≤ x * y := by
  rw [zpow_add₀ (by norm_num)]
  have : (0 : ℝ) < 2 ^ i := by positivity
  gcongr
  linarith

theorem z2 {i j : ℤ} (h : i ≤ j) : (2 : ℝ) ^ i ≤ 2 ^ j := zpow_le_zpow_right₀ (by norm_num) h

theorem low_le {x : ℝ} {i : ℤ} (h : 2 ^ i ≤ x) (hi : -1020 ≤ i) : low ≤ x := (z2 hi).trans h

theorem le_high {g x : ℝ} {i : ℤ} (hg : g ≤ 64) (hx : x ≤ 2 ^ i) (h0 : 0 ≤ x) (hi : i ≤ 1017) : g * x ≤ high := by
  have h : (64 : ℝ) = 2 ^ (6 : ℤ) := by norm_num
  rw [h] at hg
  exact (up hg hx h0).trans (z2 (by omega))

theorem w_le : w ≤ 11 / 10 := by unfold w; norm_num

theorem pos_of_low {x : ℝ} {i : ℤ} (h : 2 ^ i ≤ x) : 0 < x := lt_of_lt_of_le (by positivity) h

/-! ### Parts of a row -/

theorem cap_coef {z : PyFloat × PyFloat} (h : GoodCoef z) : CAp z (cnum z) (sizeC z) 1 :=
  ⟨Ap.exact h.1 ((le_max_left _ _).trans (le_max_left _ _)), Ap.exact h.2.1 ((le_max_right _ _).trans (le_max_left _ _))⟩

theorem sizeC_low (z : PyFloat × PyFloat) : 2 ^ (-200 : ℤ) ≤ sizeC z := le_max_right _ _

theorem expi_re (m : ℤ) (φ : ℝ) : (Zdi.expi m φ).re = Real.cos (m * φ) := by
  unfold Zdi.expi
  rw [show Complex.I * (m : ℂ) * (φ : ℂ) = ((m * φ : ℝ) : ℂ) * Complex.I by push_cast; ring, Complex.exp_ofReal_mul_I_re]

theorem expi_im (m : ℤ) (φ : ℝ) : (Zdi.expi m φ).im = Real.sin (m * φ) := by
  unfold Zdi.expi
  rw [show Complex.I * (m : ℂ) * (φ : ℂ) = ((m * φ : ℝ) : ℂ) * Complex.I by push_cast; ring, Complex.exp_ofReal_mul_I_im]

variable {N : NumLib} {ε θ φ : ℝ} {P D : ℤ → ℤ → ℝ} {r : ZFloat}

theorem cap_exp (h : GoodRow ε θ φ P D r) : CAp r.e (Zdi.expi r.m φ) 1 (1 + ε) := by
  constructor
  · rw [expi_re]
    exact ⟨h.e_fin.1, by have := h.e_re; simpa using this, Real.abs_cos_le_one _⟩
  · rw [expi_im]
    exact ⟨h.e_fin.2, by have := h.e_im; simpa using this, Real.abs_sin_le_one _⟩

theorem ap_p (h : GoodRow ε θ φ P D r) : Ap r.p (lpmv r.m r.l (Real.cos θ)) (P r.l r.m) (1 + ε) :=
  ⟨h.p_fin, by have := h.p_close; simpa using this, h.p_size⟩

theorem ap_d (h : GoodRow ε θ φ P D r) :
    Ap r.d (deriv (Spec.legendreP r.l.toNat r.m.toNat) (Real.cos θ)) (D r.l r.m) (1 + ε) :=
  ⟨h.d_fin, by have := h.d_close; simpa using this, h.d_size⟩

theorem ap_c (hN : Spec.Accurate N) (h : GoodRow ε θ φ P D r) :
    Ap (FloatRange.cLm N r.l r.m) (Verif.cLm r.l r.m) (Verif.cLm r.l r.m) (1 + 1 / 10 ^ 5) := by
  obtain ⟨c, e, -, hc⟩ := C105_accurate hN r.l r.m h.order_nonneg h.order_le h.degree h.degree'
  have hd : Dbl (FloatRange.cLm N r.l r.m) := hN.sqrt_dbl _
  rw [e] at hd ⊢
  refine ⟨⟨_, _, rfl, hd⟩, ?_, ?_⟩
  · simpa [num] using hc
  · rw [abs_of_pos (C105_exact_positive r.l r.m h.order_nonneg h.order_le)]

theorem cLm_low (h : GoodRow ε θ φ P D r) : 2 ^ (-600 : ℤ) ≤ Verif.cLm r.l r.m := by
  have h0 := h.order_nonneg
  have h1 := h.order_le
  unfold Verif.cLm
  rw [spFact (by omega), spFact (by have := h.degree; omega)]
  apply Real.le_sqrt_of_sq_le
  have e1 := one_le_fact (r.l - r.m).toNat
  have e2 := fact_le (n := (r.l + r.m).toNat) (k := 170) (by have := h.degree; omega)
  have e3 := one_le_fact (r.l + r.m).toNat
  have e4 := f170
  have hl : (0 : ℝ) ≤ r.l := by exact_mod_cast (by omega : (0 : ℤ) ≤ r.l)
  have hpi := Real.pi_lt_four
  have hpi0 := Real.pi_pos
  have e5 : ((2 : ℝ) ^ (-600 : ℤ)) ^ 2 = (2 ^ 1200)⁻¹ := by
    rw [← zpow_natCast, ← zpow_mul, ← zpow_natCast, ← zpow_neg]; norm_num
  rw [e5, inv_eq_one_div, div_le_div_iff₀ (by positivity) (by linarith), one_mul]
  have e6 : 1 / 16 ≤ (2 * (r.l : ℝ) + 1) / (4 * Real.pi) := by
    rw [div_le_div_iff₀ (by norm_num) (by positivity)]; nlinarith
  calc ((r.l + r.m).toNat.factorial : ℝ) ≤ 2 ^ 1020 := e2.trans e4
    _ ≤ 1 / 16 * 1 * 2 ^ 1200 := by norm_num
    _ ≤ (2 * (r.l : ℝ) + 1) / (4 * Real.pi) * (r.l - r.m).toNat.factorial * 2 ^ 1200 := by gcongr

theorem cLm_high (h : GoodRow ε θ φ P D r) : Verif.cLm r.l r.m ≤ 2 ^ (550 : ℤ) := by
  have h1 := h.p_high
  have h2 := h.p_low
  have hc := (C105_exact_positive r.l r.m h.order_nonneg h.order_le).le
  by_contra hcon
  rw [not_le] at hcon
  have h3 : (2 : ℝ) ^ (400 : ℤ) < Verif.cLm r.l r.m * P r.l r.m := by
    have e : (2 : ℝ) ^ (400 : ℤ) = 2 ^ (550 : ℤ) * 2 ^ (-150 : ℤ) := by rw [← zpow_add₀ (by norm_num)]; norm_num
    rw [e]
    have hp := pos_of_low h2
    calc (2 : ℝ) ^ (550 : ℤ) * 2 ^ (-150 : ℤ) ≤ 2 ^ (550 : ℤ) * P r.l r.m := by gcongr
      _ < _ := by gcongr
  linarith

/-- The factor of the errors of the library functions. -/
theorem range_eps (hε : ε ≤ 1 / 4) : 1 + ε ≤ 5 / 4 := by linarith

theorem eps_nonneg (h : GoodRow ε θ φ P D r) : 0 ≤ ε := (abs_nonneg _).trans h.e_re

/-- `k * c_lm * p_lm`. -/
theorem cap_kcp (hN : Spec.Accurate N) (h : GoodRow ε θ φ P D r) (hε : ε ≤ 1 / 4) {k : PyFloat × PyFloat} (hk : GoodCoef k) :
    CAp (cmul (cmul k (FloatRange.cLm N r.l r.m, fin false 0)) (r.p, fin false 0))
      (cnum k * (Verif.cLm r.l r.m : ℝ) * (lpmv r.m r.l (Real.cos θ) : ℝ)) (sizeC k * Verif.cLm r.l r.m * P r.l r.m)
      (1 * (1 + 1 / 10 ^ 5) * w * (1 + ε) * w) := by
  have hA := sizeC_low k
  have hA' := hk.2.2
  have hC := cLm_low h
  have hC' := cLm_high h
  have hP := h.p_low
  have hCP := h.p_high
  have hC0 := pos_of_low hC
  have hP0 := pos_of_low hP
  have h1 := (cap_coef hk).mulReal (ap_c hN h) (low_le (dn hA hC) (by norm_num))
    (le_high (by norm_num) (up hA' hC' hC0.le) (by have := pos_of_low hA; positivity) (by norm_num))
  have hw := w_le
  have hw0 := w_pos
  have hE := range_eps hε
  have hE0 := eps_nonneg h
  refine h1.mulReal (ap_p h) (low_le (dn (dn hA hC) hP) (by norm_num)) ?_
  rw [mul_assoc (sizeC k)]
  refine le_high ?_ (up hA' hCP (by positivity)) (by have := pos_of_low hA; positivity) (by norm_num)
  calc 1 * (1 + 1 / 10 ^ 5) * w * (1 + ε) ≤ 1 * (1 + 1 / 10 ^ 5) * (11 / 10) * (5 / 4) := by gcongr
    _ ≤ 64 := by norm_num

/-- The summand of the radial field. -/
theorem cap_radial (hN : Spec.Accurate N) (h : GoodRow ε θ φ P D r) (hε : ε ≤ 1 / 4) :
    CAp (FloatRange.term N ⟨r.l, r.m, r.a, r.p, r.e⟩)
      (cnum r.a * (Verif.cLm r.l r.m : ℝ) * (lpmv r.m r.l (Real.cos θ) : ℝ) * Zdi.expi r.m φ)
      (2 * (sizeC r.a * Verif.cLm r.l r.m * P r.l r.m)) ((1 + 1 / 10 ^ 5) * (1 + ε) ^ 2 * w ^ 4) := by
  have hA := sizeC_low r.a
  have hA' := h.ca.2.2
  have hC := cLm_low h
  have hP := h.p_low
  have hCP := h.p_high
  have hA0 := pos_of_low hA
  have hC0 := pos_of_low hC
  have hP0 := pos_of_low hP
  have hw := w_le
  have hw0 := w_pos
  have hE := range_eps hε
  have hE0 := eps_nonneg h
  have hx := dn (dn hA hC) hP
  have hx' : sizeC r.a * Verif.cLm r.l r.m * P r.l r.m ≤ 2 ^ (300 + 400 : ℤ) := by
    rw [mul_assoc]; exact up hA' hCP (by positivity)
  have h1 := (cap_kcp hN h hε h.ca).mul (cap_exp h) (by rw [mul_one]; exact low_le hx (by norm_num)) (by
    rw [mul_one, ← two_mul]
    refine le_high ?_ (up (i := 1) (by norm_num) hx' (by positivity)) (by positivity) (by norm_num)
    calc 1 * (1 + 1 / 10 ^ 5) * w * (1 + ε) * w * (1 + ε) * w
        ≤ 1 * (1 + 1 / 10 ^ 5) * (11 / 10) * (5 / 4) * (11 / 10) * (5 / 4) * (11 / 10) := by gcongr
      _ ≤ 64 := by norm_num)
  have e1 : sizeC r.a * Verif.cLm r.l r.m * P r.l r.m * 1 + sizeC r.a * Verif.cLm r.l r.m * P r.l r.m * 1
      = 2 * (sizeC r.a * Verif.cLm r.l r.m * P r.l r.m) := by ring
  have e2 : 1 * (1 + 1 / 10 ^ 5) * w * (1 + ε) * w * (1 + ε) * w * w = (1 + 1 / 10 ^ 5) * (1 + ε) ^ 2 * w ^ 4 := by ring
  rw [e1, e2] at h1
  exact h1

theorem ofInt_small {n : ℤ} (h0 : 0 ≤ n) (h : n ≤ 200) : Fd (ofInt n) ∧ (ofInt n).num = n := by
  have hd : IsDouble (n : ℚ) := ⟨n.toNat, 0, by omega, by norm_num, by norm_num, by
    rw [zpow_zero, mul_one]
    have : ((n.toNat : ℤ) : ℚ) = n := by rw [Int.toNat_of_nonneg h0]
    exact_mod_cast this.symm⟩
  have h0' : (0 : ℚ) ≤ n := by exact_mod_cast h0
  have e : ofInt n = fin false n := by
    unfold ofInt
    rw [abs_of_nonneg h0', ofMag_of_le h0' hd.le_max, fl0_of_isDouble hd]
    simp [h0]
  rw [e]
  exact ⟨⟨_, _, rfl, hd⟩, by simp [num]⟩

theorem ap_int {n : ℤ} (h0 : 0 ≤ n) (h : n ≤ 200) {M : ℝ} (hM : (n : ℝ) ≤ M) : Ap (ofInt n) n M 1 := by
  obtain ⟨h1, h2⟩ := ofInt_small h0 h
  have h3 : (0 : ℝ) ≤ n := by exact_mod_cast h0
  have := Ap.exact h1 (M := M) (by rw [h2]; push_cast; rwa [abs_of_nonneg h3])
  rw [h2] at this
  simpa using this

theorem ap_sine {s : PyFloat} (h : GoodSine ε θ s) : Ap s (Real.sin θ) |Real.sin θ| (1 + ε) :=
  ⟨h.fin, by have := h.close; simpa using this, le_rfl⟩

/-- Reciprocals of the divisors. -/
theorem inv_low {x : ℝ} {i : ℤ} (h : |x| ≤ 2 ^ i) (h0 : x ≠ 0) : 2 ^ (-i) ≤ 1 / |x| := by
  have := abs_pos.2 h0
  rw [zpow_neg, one_div]
  exact inv_anti₀ this h

theorem inv_high {x : ℝ} {i : ℤ} (h : 2 ^ i ≤ |x|) : 1 / |x| ≤ 2 ^ (-i) := by
  rw [zpow_neg, one_div]
  exact inv_anti₀ (by positivity) h

section
variable {s : PyFloat} (hN : Spec.Accurate N) (h : GoodRow ε θ φ P D r) (hs : GoodSine ε θ s) (hε : ε ≤ 1 / 4)
include h

theorem deg_facts : (1 : ℝ) ≤ r.l + 1 ∧ (r.l : ℝ) + 1 ≤ 2 ^ (8 : ℤ) ∧ (r.m : ℝ) ≤ r.l + 1 := by
  have h0 := h.order_nonneg
  have h1 := h.order_le
  have h2 := h.degree
  have e1 : (0 : ℝ) ≤ r.l := by exact_mod_cast (by omega : (0 : ℤ) ≤ r.l)
  have e2 : (r.l : ℝ) ≤ 170 := by exact_mod_cast (by omega : r.l ≤ 170)
  have e3 : (r.m : ℝ) ≤ r.l := by exact_mod_cast h1
  refine ⟨by linarith, ?_, by linarith⟩
  norm_num
  linarith

/-- Division by `l + 1`. -/
theorem cap_deg {z : PyFloat × PyFloat} {v : ℂ} {M g : ℝ} (hz : CAp z v M g) {i j : ℤ} (hi : 2 ^ i ≤ M) (hj : M ≤ 2 ^ j)
    (hi' : -1000 ≤ i) (hj' : j ≤ 1000) (hg : g ≤ 50) :
    CAp (cdivReal z (ofInt (r.l + 1))) (v / ((r.l : ℂ) + 1)) (M * (1 / (r.l + 1))) (g * w ^ 2) := by
  obtain ⟨d1, d2, d3⟩ := deg_facts h
  have h0 := h.order_nonneg
  have h1 := h.order_le
  have h2 := h.degree
  have hpos : (0 : ℝ) < r.l + 1 := by linarith
  have habs : |(r.l : ℝ) + 1| = r.l + 1 := abs_of_pos hpos
  have hx := ap_int (n := r.l + 1) (by omega) (by omega) (M := |((r.l + 1 : ℤ) : ℝ)|) (le_abs_self _)
  push_cast at hx
  have hlow := inv_low (x := (r.l : ℝ) + 1) (by rw [habs]; exact d2) hpos.ne'
  have hhigh := inv_high (x := (r.l : ℝ) + 1) (i := 0) (by rw [habs]; simpa using d1)
  have hM := pos_of_low hi
  have hw := w_le
  have hw0 := w_pos
  have hw1 := one_le_w
  have hg0 : 0 ≤ g := by have := hz.re.one_le hM; linarith
  have := hz.divReal hx hpos.ne' (by norm_num) (low_le hlow (by norm_num))
    (le_high (by norm_num) hhigh (by positivity) (by norm_num)) (low_le (dn hi hlow) (by omega))
    (le_high (by
      calc g * (1 ^ 2 * w) ≤ 50 * (1 ^ 2 * (11 / 10)) := by gcongr
        _ ≤ 64 := by norm_num) (up hj hhigh (by positivity)) (by positivity) (by omega))
  rw [habs] at this
  convert this using 1
  · push_cast; rfl
  · ring

include hs hε

/-- Division by the sine. -/
theorem cap_sine {z : PyFloat × PyFloat} {v : ℂ} {M g : ℝ} (hz : CAp z v M g) {i j : ℤ} (hi : 2 ^ i ≤ M) (hj : M ≤ 2 ^ j)
    (hi' : -1000 ≤ i) (hj' : j ≤ 900) (hg : g ≤ 35) :
    CAp (cdivReal z s) (v / (Real.sin θ : ℂ)) (M * (1 / |Real.sin θ|)) (g * (1 + ε) ^ 2 * w ^ 2) := by
  have hne : Real.sin θ ≠ 0 := abs_pos.1 (pos_of_low hs.low)
  have hlow := inv_low (x := Real.sin θ) (i := 0) (by simpa using Real.abs_sin_le_one θ) hne
  have hhigh := inv_high hs.low
  have hM := pos_of_low hi
  have hw := w_le
  have hw0 := w_pos
  have hE := range_eps hε
  have hE0 := eps_nonneg h
  have hg0 : 0 ≤ g := by have := hz.re.one_le hM; linarith
  have := hz.divReal (ap_sine hs) hne (by linarith) (low_le hlow (by norm_num))
    (le_high (by
      calc (1 + ε) ^ 2 ≤ (5 / 4) ^ 2 := by gcongr
        _ ≤ 64 := by norm_num) hhigh (by positivity) (by norm_num)) (low_le (dn hi hlow) (by omega))
    (le_high (by
      calc g * ((1 + ε) ^ 2 * w) ≤ 35 * ((5 / 4) ^ 2 * (11 / 10)) := by gcongr
        _ ≤ 64 := by norm_num) (up hj hhigh (by positivity)) (by positivity) (by omega))
  convert this using 1
  ring

include hN

/-- The summand of the components divided by the sine. -/
theorem cap_overSin {k : PyFloat × PyFloat} (hk : GoodCoef k) :
    CAp (FloatAxis.overSin s ⟨r.l, r.m, k, FloatRange.cLm N r.l r.m, r.p, r.e⟩)
      (cnum k * (Verif.cLm r.l r.m : ℝ) * (lpmv r.m r.l (Real.cos θ) : ℝ) * Complex.I * r.m * Zdi.expi r.m φ
        / (r.l + 1) / (Real.sin θ : ℂ))
      (2 * (sizeC k * Verif.cLm r.l r.m * P r.l r.m) / |Real.sin θ|) ((1 + 1 / 10 ^ 5) * (1 + ε) ^ 4 * w ^ 9) := by
  obtain ⟨d1, d2, d3⟩ := deg_facts h
  have hA := sizeC_low k
  have hA' := hk.2.2
  have hC := cLm_low h
  have hP := h.p_low
  have hCP := h.p_high
  have hA0 := pos_of_low hA
  have hC0 := pos_of_low hC
  have hP0 := pos_of_low hP
  have hw := w_le
  have hw0 := w_pos
  have hE := range_eps hε
  have hE0 := eps_nonneg h
  have hx := dn (dn hA hC) hP
  set X := sizeC k * Verif.cLm r.l r.m * P r.l r.m with hX
  have hx' : X ≤ 2 ^ (300 + 400 : ℤ) := by
    rw [hX, mul_assoc]; exact up hA' hCP (by positivity)
  have hX0 : 0 < X := pos_of_low hx
  have hl1 : (2 : ℝ) ^ (0 : ℤ) ≤ r.l + 1 := by simpa using d1
  have hl0 : (0 : ℝ) ≤ r.l + 1 := by linarith
  have h1 := (cap_kcp hN h hε hk).mulI.mulReal
    (ap_int (n := r.m) h.order_nonneg (by have := h.order_nonneg; have := h.order_le; have := h.degree; omega) d3)
    (low_le (dn hx hl1) (by norm_num))
    (le_high (by
      calc 1 * (1 + 1 / 10 ^ 5) * w * (1 + ε) * w * 1 ≤ 1 * (1 + 1 / 10 ^ 5) * (11 / 10) * (5 / 4) * (11 / 10) * 1 := by gcongr
        _ ≤ 64 := by norm_num) (up hx' d2 hl0) (by positivity) (by norm_num))
  have hy := dn hx hl1
  have hy' := up hx' d2 hl0
  rw [← hX] at h1
  have e0 : X * ((r.l : ℝ) + 1) * 1 + X * (r.l + 1) * 1 = 2 * (X * (r.l + 1)) := by ring
  have h2 := h1.mul (cap_exp h) (by rw [mul_one]; exact low_le hy (by norm_num)) (by
    rw [e0]
    refine le_high ?_ (up (i := 1) (by norm_num) hy' (by positivity)) (by positivity) (by norm_num)
    calc 1 * (1 + 1 / 10 ^ 5) * w * (1 + ε) * w * 1 * w * (1 + ε) * w
        ≤ 1 * (1 + 1 / 10 ^ 5) * (11 / 10) * (5 / 4) * (11 / 10) * 1 * (11 / 10) * (5 / 4) * (11 / 10) := by gcongr
      _ ≤ 64 := by norm_num)
  rw [e0] at h2
  have hz := dn (i := 1) (x := (2 : ℝ)) (by norm_num) hy
  have hz' := up (i := 1) (x := (2 : ℝ)) (by norm_num) hy' (by positivity)
  have h3 := cap_deg h h2 hz hz' (by norm_num) (by norm_num) (by
    calc 1 * (1 + 1 / 10 ^ 5) * w * (1 + ε) * w * 1 * w * (1 + ε) * w * w
        ≤ 1 * (1 + 1 / 10 ^ 5) * (11 / 10) * (5 / 4) * (11 / 10) * 1 * (11 / 10) * (5 / 4) * (11 / 10) * (11 / 10) := by gcongr
      _ ≤ 50 := by norm_num)
  have e1 : 2 * (X * ((r.l : ℝ) + 1)) * (1 / (r.l + 1)) = 2 * X := by field_simp
  rw [e1] at h3
  have h4 := cap_sine h hs hε h3 (dn (i := 1) (x := (2 : ℝ)) (by norm_num) hx)
    (up (i := 1) (x := (2 : ℝ)) (by norm_num) hx' hX0.le) (by norm_num) (by norm_num) (by
    calc 1 * (1 + 1 / 10 ^ 5) * w * (1 + ε) * w * 1 * w * (1 + ε) * w * w * w ^ 2
        ≤ 1 * (1 + 1 / 10 ^ 5) * (11 / 10) * (5 / 4) * (11 / 10) * 1 * (11 / 10) * (5 / 4) * (11 / 10) * (11 / 10)
          * (11 / 10) ^ 2 := by gcongr
      _ ≤ 35 := by norm_num)
  unfold FloatAxis.overSin
  convert h4 using 1
  · push_cast; ring
  · ring
  · ring

/-- The summand of the components with the derivative. -/
theorem cap_slope {k : PyFloat × PyFloat} (hk : GoodCoef k) :
    CAp (slopeTerm N s k r)
      (cnum k * Verif.cLm r.l r.m / (r.l + 1) * Zdi.expi r.m φ
        * (-(deriv (Spec.legendreP r.l.toNat r.m.toNat) (Real.cos θ) * -Real.sin θ) : ℝ))
      (2 * (sizeC k * Verif.cLm r.l r.m * D r.l r.m) * |Real.sin θ| / (r.l + 1)) ((1 + 1 / 10 ^ 5) * (1 + ε) ^ 3 * w ^ 7) := by
  obtain ⟨d1, d2, d3⟩ := deg_facts h
  have hA := sizeC_low k
  have hA' := hk.2.2
  have hC := cLm_low h
  have hC' := cLm_high h
  have hD := h.d_low
  have hCD := h.d_high
  have hA0 := pos_of_low hA
  have hC0 := pos_of_low hC
  have hD0 := pos_of_low hD
  have hw := w_le
  have hw0 := w_pos
  have hE := range_eps hε
  have hE0 := eps_nonneg h
  have hS := hs.low
  have hS0 := pos_of_low hS
  have hS1 : |Real.sin θ| ≤ 2 ^ (0 : ℤ) := by simpa using Real.abs_sin_le_one θ
  have hl1 : (0 : ℝ) < r.l + 1 := by linarith
  have hD' : D r.l r.m ≤ 2 ^ (1000 : ℤ) := by
    by_contra hcon
    rw [not_le] at hcon
    have e := dn hC hcon.le
    have e' : (2 : ℝ) ^ (-600 + 1000 : ℤ) = 2 ^ (400 : ℤ) := by norm_num
    rw [e'] at e
    have : Verif.cLm r.l r.m * D r.l r.m ≤ 2 ^ (400 : ℤ) := hCD
    have h3 : Verif.cLm r.l r.m * 2 ^ (1000 : ℤ) < Verif.cLm r.l r.m * D r.l r.m := by gcongr
    have h4 := dn hC (le_refl ((2 : ℝ) ^ (1000 : ℤ)))
    rw [e'] at h4
    linarith
  have h1 := (cap_coef hk).mulReal (ap_c hN h) (low_le (dn hA hC) (by norm_num))
    (le_high (by norm_num) (up hA' hC' hC0.le) (by positivity) (by norm_num))
  have h2 := cap_deg h h1 (dn hA hC) (up hA' hC' hC0.le) (by norm_num) (by norm_num) (by
    calc 1 * (1 + 1 / 10 ^ 5) * w ≤ 1 * (1 + 1 / 10 ^ 5) * (11 / 10) := by gcongr
      _ ≤ 50 := by norm_num)
  have hinv := inv_low (x := (r.l : ℝ) + 1) (by rw [abs_of_pos hl1]; exact d2) hl1.ne'
  have hinv' := inv_high (x := (r.l : ℝ) + 1) (i := 0) (by rw [abs_of_pos hl1]; simpa using d1)
  rw [abs_of_pos hl1] at hinv hinv'
  have hy := dn (dn hA hC) hinv
  have hy' := up (up hA' hC' hC0.le) hinv' (by positivity)
  have h3 := h2.mul (cap_exp h) (by rw [mul_one]; exact low_le hy (by norm_num)) (by
    rw [mul_one, ← two_mul]
    refine le_high ?_ (up (i := 1) (by norm_num) hy' (by positivity)) (by positivity) (by norm_num)
    calc 1 * (1 + 1 / 10 ^ 5) * w * w ^ 2 * (1 + ε) * w
        ≤ 1 * (1 + 1 / 10 ^ 5) * (11 / 10) * (11 / 10) ^ 2 * (5 / 4) * (11 / 10) := by gcongr
      _ ≤ 64 := by norm_num)
  rw [mul_one, ← two_mul] at h3
  have hd := ((ap_d h).mul (ap_sine hs).neg (low_le (dn hD hS) (by norm_num)) (le_high (by
    calc (1 + ε) * (1 + ε) ≤ (5 / 4) * (5 / 4) := by gcongr
      _ ≤ 64 := by norm_num) (up hD' hS1 hS0.le) (by positivity) (by norm_num))).neg
  have hz := dn (i := 1) (x := (2 : ℝ)) (by norm_num) hy
  have e0 : 2 * (sizeC k * Verif.cLm r.l r.m * (1 / (r.l + 1))) * (D r.l r.m * |Real.sin θ|)
      = 2 * (sizeC k * Verif.cLm r.l r.m * D r.l r.m) * |Real.sin θ| / (r.l + 1) := by ring
  have h4 := h3.mulReal hd (low_le (dn hz (dn hD hS)) (by norm_num)) (by
    have e : 2 * (sizeC k * Verif.cLm r.l r.m * (1 / (r.l + 1))) * (D r.l r.m * |Real.sin θ|)
      = 2 * (sizeC k * (Verif.cLm r.l r.m * D r.l r.m)) * (1 / (r.l + 1)) * |Real.sin θ| := by ring
    rw [e]
    refine le_high ?_ (up (up (up (i := 1) (by norm_num) (up hA' hCD (by positivity)) (by positivity)) hinv' (by positivity))
      hS1 hS0.le) (by positivity) (by norm_num)
    calc 1 * (1 + 1 / 10 ^ 5) * w * w ^ 2 * (1 + ε) * w * w * ((1 + ε) * (1 + ε) * w)
        ≤ 1 * (1 + 1 / 10 ^ 5) * (11 / 10) * (11 / 10) ^ 2 * (5 / 4) * (11 / 10) * (11 / 10)
          * ((5 / 4) * (5 / 4) * (11 / 10)) := by gcongr
      _ ≤ 64 := by norm_num)
  rw [e0] at h4
  unfold slopeTerm
  convert h4 using 1
  · push_cast; ring

end

/-! ### Sums over the rows -/

theorem sum_le {α : Type*} (rows : List α) {M : α → ℝ} {j : ℤ} (hM : ∀ r ∈ rows, M r ≤ 2 ^ j) (hn : rows.length ≤ 2 ^ 20) :
    (rows.map M).sum ≤ 2 ^ (20 + j) := by
  have h1 : (rows.map M).sum ≤ rows.length * 2 ^ j := by
    have := List.sum_le_card_nsmul (rows.map M) (2 ^ j) (by
      intro x hx
      obtain ⟨r, hr, rfl⟩ := List.mem_map.1 hx
      exact hM r hr)
    simpa using this
  have h2 : (rows.length : ℝ) ≤ 2 ^ (20 : ℤ) := by exact_mod_cast hn
  exact h1.trans (up h2 le_rfl (by positivity))

theorem sum_pos {α : Type*} (rows : List α) {M : α → ℝ} {j : ℤ} (hM : ∀ r ∈ rows, 2 ^ j ≤ M r) : 0 ≤ (rows.map M).sum :=
  List.sum_nonneg fun x hx => by
    obtain ⟨r, hr, rfl⟩ := List.mem_map.1 hx
    exact (pos_of_low (hM r hr)).le

/-- The loops. -/
theorem loop_add {α : Type*} {t : α → PyFloat × PyFloat} {v : α → ℂ} {M : α → ℝ} {g : ℝ} {i j : ℤ} (rows : List α)
    (hg : 1 ≤ g) (hg' : g ≤ 32) (h : ∀ r ∈ rows, CAp (t r) (v r) (M r) g) (hi : ∀ r ∈ rows, 2 ^ i ≤ M r)
    (hj : ∀ r ∈ rows, M r ≤ 2 ^ j) (hi' : -1000 ≤ i) (hj' : j ≤ 990) (hn : rows.length ≤ 2 ^ 20) :
    CAp (rows.foldl (fun acc r => cadd acc (t r)) (fin false 0, fin false 0)) (rows.map v).sum (rows.map M).sum
      (g * w ^ rows.length) := by
  have hz : CAp (fin false 0, fin false 0) 0 0 (g * w ^ 0) := by
    rw [pow_zero, mul_one]
    exact ⟨(Ap.zero false le_rfl).mono le_rfl hg hg, (Ap.zero false le_rfl).mono le_rfl hg hg⟩
  have := fold_add rows hg h (fun r hr => low_le (hi r hr) (by omega)) _ 0 0 0 hz (by
    rw [zero_add, zero_add]
    refine le_high ?_ (sum_le rows hj hn) (sum_pos rows hi) (by omega)
    have h2 := pow_w_le rows.length (hn.trans (by norm_num))
    have := w_pos
    calc g * w ^ rows.length ≤ 32 * 2 := by gcongr
      _ ≤ 64 := by norm_num)
  simpa using this

theorem RowTree.rows_pos (t : RowTree) : 1 ≤ t.rows.length := by
  induction t with
  | leaf r => simp [RowTree.rows]
  | node x y ihx ihy => simp only [RowTree.rows, List.length_append]; omega

/-- Sums in any order. -/
theorem tree_add {f : ZFloat → PyFloat × PyFloat} {v : ZFloat → ℂ} {M : ZFloat → ℝ} {g : ℝ} {i j : ℤ} (hg : 1 ≤ g)
    (hg' : g ≤ 32) (hi' : -1000 ≤ i) (hj' : j ≤ 990) (t : RowTree) (h : ∀ r ∈ t.rows, CAp (f r) (v r) (M r) g)
    (hi : ∀ r ∈ t.rows, 2 ^ i ≤ M r) (hj : ∀ r ∈ t.rows, M r ≤ 2 ^ j) (hn : t.rows.length ≤ 2 ^ 20) :
    CAp (t.sum f) (t.rows.map v).sum (t.rows.map M).sum (g * w ^ t.rows.length) := by
  induction t with
  | leaf r =>
    have h1 := one_le_w
    have h2 : g ≤ g * w ^ 1 := by rw [pow_one]; exact le_mul_of_one_le_right (by linarith) h1
    have := (h r (by simp [RowTree.rows])).mono le_rfl (hg.trans h2) h2
    simpa [RowTree.rows, RowTree.sum] using this
  | node x y ihx ihy =>
    have hx := x.rows_pos
    have hy := y.rows_pos
    have hl : (RowTree.node x y).rows.length = x.rows.length + y.rows.length := by simp [RowTree.rows]
    have mx : ∀ r ∈ x.rows, r ∈ (RowTree.node x y).rows := fun r hr => by simp [RowTree.rows, hr]
    have my : ∀ r ∈ y.rows, r ∈ (RowTree.node x y).rows := fun r hr => by simp [RowTree.rows, hr]
    have kx := ihx (fun r hr => h r (mx r hr)) (fun r hr => hi r (mx r hr)) (fun r hr => hj r (mx r hr)) (by omega)
    have ky := ihy (fun r hr => h r (my r hr)) (fun r hr => hi r (my r hr)) (fun r hr => hj r (my r hr)) (by omega)
    set n := x.rows.length + y.rows.length - 1 with hn'
    have hw0 := w_pos
    have p1 : w ^ x.rows.length ≤ w ^ n := pow_le_pow_right₀ one_le_w (by omega)
    have p2 : w ^ y.rows.length ≤ w ^ n := pow_le_pow_right₀ one_le_w (by omega)
    have hgn : 1 ≤ g * w ^ n := one_le_mul_of_one_le_of_one_le hg (one_le_pow_w n)
    have s1 := sum_pos x.rows fun r hr => hi r (mx r hr)
    have s2 := sum_pos y.rows fun r hr => hi r (my r hr)
    have s3 : 2 ^ i ≤ (x.rows.map M).sum + (y.rows.map M).sum := by
      obtain ⟨r, hr⟩ := List.exists_mem_of_length_pos hx
      have : M r ≤ (x.rows.map M).sum := List.single_le_sum (by
        intro z hz
        obtain ⟨r', hr', rfl⟩ := List.mem_map.1 hz
        exact (pos_of_low (hi r' (mx r' hr'))).le) _ (List.mem_map_of_mem hr)
      have := hi r (mx r hr)
      linarith
    have s4 : (x.rows.map M).sum + (y.rows.map M).sum ≤ 2 ^ (20 + j) := by
      have := sum_le (RowTree.node x y).rows hj hn
      simpa [RowTree.rows] using this
    have h2 := pow_w_le n (by omega)
    have := (kx.mono le_rfl hgn (by gcongr)).add (ky.mono le_rfl hgn (by gcongr)) (low_le s3 (by omega))
      (le_high (by
        calc g * w ^ n ≤ 32 * 2 := by gcongr
          _ ≤ 64 := by norm_num) s4 (by linarith) (by omega))
    rw [hl, show x.rows.length + y.rows.length = n + 1 by omega, pow_succ, ← mul_assoc]
    simpa [RowTree.rows, RowTree.sum] using this

/-! ### Sizes of the summands -/

section
variable (h : GoodRow ε θ φ P D r) {k : PyFloat × PyFloat} (hk : GoodCoef k)
include h hk

theorem size_p : 2 ^ (-949 : ℤ) ≤ 2 * (sizeC k * Verif.cLm r.l r.m * P r.l r.m) ∧
    2 * (sizeC k * Verif.cLm r.l r.m * P r.l r.m) ≤ 2 ^ (701 : ℤ) := by
  have hC0 := pos_of_low (cLm_low h)
  have hP0 := pos_of_low h.p_low
  have hA0 := pos_of_low (sizeC_low k)
  have h1 := dn (i := 1) (x := (2 : ℝ)) (by norm_num) (dn (dn (sizeC_low k) (cLm_low h)) h.p_low)
  have h2 := up (i := 1) (x := (2 : ℝ)) (by norm_num) (up hk.2.2 h.p_high (by positivity)) (by positivity)
  rw [← mul_assoc (sizeC k)] at h2
  exact ⟨(z2 (by norm_num)).trans h1, h2.trans (z2 (by norm_num))⟩

theorem size_over {s : PyFloat} (hs : GoodSine ε θ s) : 2 ^ (-949 : ℤ) ≤ 2 * (sizeC k * Verif.cLm r.l r.m * P r.l r.m) / |Real.sin θ| ∧
    2 * (sizeC k * Verif.cLm r.l r.m * P r.l r.m) / |Real.sin θ| ≤ 2 ^ (801 : ℤ) := by
  obtain ⟨h1, h2⟩ := size_p h hk
  have hS0 := pos_of_low hs.low
  have h3 := inv_low (x := Real.sin θ) (i := 0) (by simpa using Real.abs_sin_le_one θ) (abs_pos.1 hS0)
  have h4 := inv_high hs.low
  rw [div_eq_mul_one_div]
  exact ⟨(z2 (by norm_num)).trans (dn h1 h3), (up h2 h4 (by positivity)).trans (z2 (by norm_num))⟩

theorem size_slope {s : PyFloat} (hs : GoodSine ε θ s) :
    2 ^ (-949 : ℤ) ≤ 2 * (sizeC k * Verif.cLm r.l r.m * D r.l r.m) * |Real.sin θ| / (r.l + 1) ∧
    2 * (sizeC k * Verif.cLm r.l r.m * D r.l r.m) * |Real.sin θ| / (r.l + 1) ≤ 2 ^ (801 : ℤ) := by
  obtain ⟨d1, d2, d3⟩ := deg_facts h
  have hl1 : (0 : ℝ) < r.l + 1 := by linarith
  have hC0 := pos_of_low (cLm_low h)
  have hD0 := pos_of_low h.d_low
  have hA0 := pos_of_low (sizeC_low k)
  have hS0 := pos_of_low hs.low
  have hS1 : |Real.sin θ| ≤ 2 ^ (0 : ℤ) := by simpa using Real.abs_sin_le_one θ
  have hinv := inv_low (x := (r.l : ℝ) + 1) (by rw [abs_of_pos hl1]; exact d2) hl1.ne'
  have hinv' := inv_high (x := (r.l : ℝ) + 1) (i := 0) (by rw [abs_of_pos hl1]; simpa using d1)
  rw [abs_of_pos hl1] at hinv hinv'
  have h1 := dn (dn (dn (i := 1) (x := (2 : ℝ)) (by norm_num) (dn (dn (sizeC_low k) (cLm_low h)) h.d_low)) hs.low) hinv
  have h2 := up (up (up (i := 1) (x := (2 : ℝ)) (by norm_num) (up hk.2.2 h.d_high (by positivity)) (by positivity))
    hS1 hS0.le) hinv' (by positivity)
  rw [← mul_assoc (sizeC k)] at h2
  rw [div_eq_mul_one_div]
  exact ⟨(z2 (by norm_num)).trans h1, h2.trans (z2 (by norm_num))⟩

end

theorem facts_of_mem {rows : List ZFloat} (h : ∀ r ∈ rows, GoodRow ε θ φ P D r) :
    ∀ r ∈ rows.map exactRow, 0 ≤ r.m ∧ r.m ≤ r.l := by
  intro x hx
  obtain ⟨r, hr, rfl⟩ := List.mem_map.1 hx
  exact ⟨(h r hr).order_nonneg, (h r hr).order_le⟩

/-- From the sums to the statements. -/
theorem done {x : PyFloat} {v M g : ℝ} (h : Ap x v M g) : FinD x ∧ |(x.num : ℝ) - v| ≤ (g - 1) * M := ⟨h.fd, h.err⟩

theorem fac_le (hE0 : 0 ≤ ε) (hε : ε ≤ 1 / 4) {a b : ℕ} (ha : a ≤ 4) (hb : b ≤ 9) :
    1 ≤ (1 + 1 / 10 ^ 5) * (1 + ε) ^ a * w ^ b ∧ (1 + 1 / 10 ^ 5) * (1 + ε) ^ a * w ^ b ≤ 32 := by
  have h1 := one_le_pow_w b
  have h2 : 1 ≤ (1 + ε) ^ a := one_le_pow₀ (by linarith)
  have h3 : (1 + ε) ^ a ≤ (5 / 4) ^ 4 := (pow_le_pow_right₀ (by linarith) ha).trans (by gcongr; linarith)
  have h4 : w ^ b ≤ (11 / 10) ^ 9 := (pow_le_pow_right₀ one_le_w hb).trans (by have := w_pos; have := w_le; gcongr)
  constructor
  · nlinarith
  · have := w_pos
    calc (1 + 1 / 10 ^ 5) * (1 + ε) ^ a * w ^ b ≤ (1 + 1 / 10 ^ 5) * (5 / 4) ^ 4 * (11 / 10) ^ 9 := by gcongr
      _ ≤ 32 := by norm_num

section
variable {rows : List ZFloat} (hN : Spec.Accurate N) (hE0 : 0 ≤ ε) (hε : ε ≤ 1 / 4) (hn : rows.length ≤ 2 ^ 20)
  (h : ∀ r ∈ rows, GoodRow ε θ φ P D r)
include hN hE0 hε hn h

theorem ap_radial : Ap (radialPoloidal N rows) (Zdi.radialPoloidal (rows.map exactRow) θ φ)
    (rows.map fun r => 2 * (sizeC r.a * Verif.cLm r.l r.m * P r.l r.m)).sum
    ((1 + 1 / 10 ^ 5) * (1 + ε) ^ 2 * w ^ 4 * w ^ rows.length) := by
  have hf := fac_le (a := 2) (b := 4) hE0 hε (by norm_num) (by norm_num)
  have := (loop_add rows hf.1 hf.2 (fun r hr => cap_radial hN (h r hr) hε) (fun r hr => (size_p (h r hr) (h r hr).ca).1)
    (fun r hr => (size_p (h r hr) (h r hr).ca).2) (by norm_num) (by norm_num) hn).re
  unfold radialPoloidal FloatRange.radial Zdi.radialPoloidal
  rw [List.foldl_map, List.map_map]
  exact this

theorem ap_azPol {s : PyFloat} (hs : GoodSine ε θ s) :
    Ap (azimuthalPoloidal N s rows) (Zdi.azimuthalPoloidal (rows.map exactRow) θ φ)
      (rows.map fun r => 2 * (sizeC r.b * Verif.cLm r.l r.m * P r.l r.m) / |Real.sin θ|).sum
      ((1 + 1 / 10 ^ 5) * (1 + ε) ^ 4 * w ^ 9 * w ^ rows.length) := by
  have hf := fac_le (a := 4) (b := 9) hE0 hε le_rfl le_rfl
  have := (loop_add rows hf.1 hf.2 (fun r hr => (cap_overSin hN (h r hr) hs hε (h r hr).cb).neg)
    (fun r hr => (size_over (h r hr) (h r hr).cb hs).1)
    (fun r hr => (size_over (h r hr) (h r hr).cb hs).2) (by norm_num) (by norm_num) hn).re
  unfold azimuthalPoloidal FloatAxis.azimuthalPoloidal Zdi.azimuthalPoloidal
  rw [List.foldl_map, List.map_map]
  exact this

theorem ap_polTor {s : PyFloat} (hs : GoodSine ε θ s) :
    Ap (polarToroidal N s rows) (Zdi.polarToroidal (rows.map exactRow) θ φ)
      (rows.map fun r => 2 * (sizeC r.g * Verif.cLm r.l r.m * P r.l r.m) / |Real.sin θ|).sum
      ((1 + 1 / 10 ^ 5) * (1 + ε) ^ 4 * w ^ 9 * w ^ rows.length) := by
  have hf := fac_le (a := 4) (b := 9) hE0 hε le_rfl le_rfl
  have := (loop_add rows hf.1 hf.2 (fun r hr => cap_overSin hN (h r hr) hs hε (h r hr).cg)
    (fun r hr => (size_over (h r hr) (h r hr).cg hs).1)
    (fun r hr => (size_over (h r hr) (h r hr).cg hs).2) (by norm_num) (by norm_num) hn).re
  unfold polarToroidal FloatAxis.polarToroidal Zdi.polarToroidal
  rw [List.foldl_map, List.map_map]
  exact this

end

theorem calc_rows {rows : List ZFloat} (hne : rows ≠ []) (h : ∀ r ∈ rows, GoodRow ε θ φ P D r) :
    calcLpmn (Zdi.lm (rows.map exactRow)) θ = .ok ((rows.map exactRow).map fun r =>
      (legendreP r.l.toNat r.m.toNat (Real.cos θ), deriv (legendreP r.l.toNat r.m.toNat) (Real.cos θ) * -Real.sin θ)) := by
  have hz : NonnegOrders (rows.map exactRow) := ⟨by simpa using hne, facts_of_mem h⟩
  rw [calcLpmn_ok (Zdi.lm_ne hz) (Zdi.lm_ok hz), Zdi.lm, List.map_map]
  rfl

section
variable {t : RowTree} {s : PyFloat} (hN : Spec.Accurate N) (hE0 : 0 ≤ ε) (hε : ε ≤ 1 / 4) (hn : t.rows.length ≤ 2 ^ 20)
  (h : ∀ r ∈ t.rows, GoodRow ε θ φ P D r) (hs : GoodSine ε θ s)
include hN hE0 hε hn h hs

theorem tree_ne : t.rows ≠ [] := by
  have := t.rows_pos
  intro e
  simp [e] at this

theorem ap_slope {k : ZFloat → PyFloat × PyFloat} (hk : ∀ r ∈ t.rows, GoodCoef (k r)) :
    Ap (t.sum fun r => slopeTerm N s (k r) r).1
      ((t.rows.map fun r => cnum (k r) * Verif.cLm r.l r.m / (r.l + 1) * Zdi.expi r.m φ
        * (-(deriv (Spec.legendreP r.l.toNat r.m.toNat) (Real.cos θ) * -Real.sin θ) : ℝ)).sum).re
      (t.rows.map fun r => 2 * (sizeC (k r) * Verif.cLm r.l r.m * D r.l r.m) * |Real.sin θ| / (r.l + 1)).sum
      ((1 + 1 / 10 ^ 5) * (1 + ε) ^ 3 * w ^ 7 * w ^ t.rows.length) := by
  have hf := fac_le (a := 3) (b := 7) hE0 hε (by norm_num) (by norm_num)
  exact (tree_add hf.1 hf.2 (by norm_num) (by norm_num) t (fun r hr => cap_slope hN (h r hr) hs hε (hk r hr))
    (fun r hr => (size_slope (h r hr) (hk r hr) hs).1) (fun r hr => (size_slope (h r hr) (hk r hr) hs).2) hn).re

theorem ap_polPol : ∃ v, Zdi.polarPoloidal (t.rows.map exactRow) θ φ = .ok v ∧ Ap (polarPoloidal N s t) v
    (t.rows.map fun r => 2 * (sizeC r.b * Verif.cLm r.l r.m * D r.l r.m) * |Real.sin θ| / (r.l + 1)).sum
    ((1 + 1 / 10 ^ 5) * (1 + ε) ^ 3 * w ^ 7 * w ^ t.rows.length) := by
  refine ⟨_, ?_, ap_slope hN hE0 hε hn h hs (k := fun r => r.b) fun r hr => (h r hr).cb⟩
  unfold Zdi.polarPoloidal
  rw [calc_rows (tree_ne hN hE0 hε hn h hs) h]
  show Except.ok _ = _
  rw [Zdi.zipWith_map_self, List.map_map]
  rfl

theorem ap_azTor : ∃ v, Zdi.azimuthalToroidal (t.rows.map exactRow) θ φ = .ok v ∧ Ap (azimuthalToroidal N s t) v
    (t.rows.map fun r => 2 * (sizeC r.g * Verif.cLm r.l r.m * D r.l r.m) * |Real.sin θ| / (r.l + 1)).sum
    ((1 + 1 / 10 ^ 5) * (1 + ε) ^ 3 * w ^ 7 * w ^ t.rows.length) := by
  refine ⟨_, ?_, ap_slope hN hE0 hε hn h hs (k := fun r => r.g) fun r hr => (h r hr).cg⟩
  unfold Zdi.azimuthalToroidal
  rw [calc_rows (tree_ne hN hE0 hε hn h hs) h]
  show Except.ok _ = _
  rw [Zdi.zipWith_map_self, List.map_map]
  rfl

/-- Two sums added. -/
theorem ap_both {x y : PyFloat} {v u : ℝ} {M M' : ZFloat → ℝ}
    (hx : Ap x v (t.rows.map M).sum ((1 + 1 / 10 ^ 5) * (1 + ε) ^ 3 * w ^ 7 * w ^ t.rows.length))
    (hy : Ap y u (t.rows.map M').sum ((1 + 1 / 10 ^ 5) * (1 + ε) ^ 4 * w ^ 9 * w ^ t.rows.length))
    (h1 : ∀ r ∈ t.rows, 2 ^ (-949 : ℤ) ≤ M r ∧ M r ≤ 2 ^ (801 : ℤ))
    (h2 : ∀ r ∈ t.rows, 2 ^ (-949 : ℤ) ≤ M' r ∧ M' r ≤ 2 ^ (801 : ℤ)) :
    Ap (PyFloat.add x y) (v + u) ((t.rows.map M).sum + (t.rows.map M').sum)
        ((1 + 1 / 10 ^ 5) * (1 + ε) ^ 4 * w ^ (t.rows.length + 10)) ∧
      Ap (PyFloat.add y x) (u + v) ((t.rows.map M').sum + (t.rows.map M).sum)
        ((1 + 1 / 10 ^ 5) * (1 + ε) ^ 4 * w ^ (t.rows.length + 10)) ∧
      2 ^ (-949 : ℤ) ≤ (t.rows.map M).sum + (t.rows.map M').sum ∧
      (t.rows.map M).sum + (t.rows.map M').sum ≤ 2 ^ (822 : ℤ) := by
  have hw0 := w_pos
  have hf := fac_le (a := 4) (b := 9) hE0 hε le_rfl le_rfl
  have hwn := one_le_pow_w t.rows.length
  have hwn2 := pow_w_le t.rows.length (hn.trans (by norm_num))
  have hge : 1 ≤ (1 + 1 / 10 ^ 5) * (1 + ε) ^ 4 * w ^ 9 * w ^ t.rows.length := one_le_mul_of_one_le_of_one_le hf.1 hwn
  have hle : (1 + 1 / 10 ^ 5) * (1 + ε) ^ 3 * w ^ 7 * w ^ t.rows.length
      ≤ (1 + 1 / 10 ^ 5) * (1 + ε) ^ 4 * w ^ 9 * w ^ t.rows.length := by
    have a1 : (1 + ε) ^ 3 ≤ (1 + ε) ^ 4 := pow_le_pow_right₀ (by linarith) (by norm_num)
    have a2 : w ^ 7 ≤ w ^ 9 := pow_le_pow_right₀ one_le_w (by norm_num)
    gcongr
  have s1 := sum_pos t.rows fun r hr => (h1 r hr).1
  have s2 := sum_pos t.rows fun r hr => (h2 r hr).1
  have s3 : 2 ^ (-949 : ℤ) ≤ (t.rows.map M).sum := by
    obtain ⟨r, hr⟩ := List.exists_mem_of_length_pos t.rows_pos
    have : M r ≤ (t.rows.map M).sum := List.single_le_sum (by
      intro z hz
      obtain ⟨r', hr', rfl⟩ := List.mem_map.1 hz
      exact (pos_of_low (h1 r' hr').1).le) _ (List.mem_map_of_mem hr)
    have := (h1 r hr).1
    linarith
  have s4 := sum_le t.rows (fun r hr => (h1 r hr).2) hn
  have s5 := sum_le t.rows (fun r hr => (h2 r hr).2) hn
  have s6 : (t.rows.map M).sum + (t.rows.map M').sum ≤ 2 ^ (822 : ℤ) := by
    have e : (2 : ℝ) ^ (822 : ℤ) = 2 ^ (20 + 801 : ℤ) + 2 ^ (20 + 801 : ℤ) := by
      rw [← two_mul, ← zpow_one_add₀ (by norm_num)]; norm_num
    rw [e]
    exact add_le_add s4 s5
  have hlow : low ≤ (t.rows.map M).sum + (t.rows.map M').sum := (low_le s3 (by norm_num)).trans (by linarith)
  have hhigh : (1 + 1 / 10 ^ 5) * (1 + ε) ^ 4 * w ^ 9 * w ^ t.rows.length * ((t.rows.map M).sum + (t.rows.map M').sum)
      ≤ high := by
    refine le_high ?_ s6 (by linarith) (by norm_num)
    calc (1 + 1 / 10 ^ 5) * (1 + ε) ^ 4 * w ^ 9 * w ^ t.rows.length ≤ 32 * 2 := by
          have := hf.2
          gcongr
      _ ≤ 64 := by norm_num
  have e : (1 + 1 / 10 ^ 5) * (1 + ε) ^ 4 * w ^ 9 * w ^ t.rows.length * w
      = (1 + 1 / 10 ^ 5) * (1 + ε) ^ 4 * w ^ (t.rows.length + 10) := by ring
  have hx' := hx.mono le_rfl hge hle
  refine ⟨?_, ?_, by linarith, s6⟩
  · rw [← e]
    exact hx'.add hy hlow hhigh
  · rw [← e]
    exact hy.add hx' (by rwa [add_comm]) (by rwa [add_comm (List.sum _)])

end

end FloatField

open FloatField

variable {N : NumLib} {ε θ φ : ℝ} {P D : ℤ → ℤ → ℝ}

/-- The sum over the rows of the sizes of the terms of the radial field. -/
noncomputable def Spec.radialSize (P : ℤ → ℤ → ℝ) (rows : List ZFloat) : ℝ :=
  (rows.map fun r => 2 * (sizeC r.a * cLm r.l r.m * P r.l r.m)).sum

/-- The same for a component with the derivative of the coefficient `k` and the quotient by the sine of the coefficient
`k'`. -/
noncomputable def Spec.tangentSize (θ : ℝ) (P D : ℤ → ℤ → ℝ) (k k' : ZFloat → PyFloat × PyFloat) (rows : List ZFloat) : ℝ :=
  (rows.map fun r => 2 * (sizeC (k r) * cLm r.l r.m * D r.l r.m) * |Real.sin θ| / (r.l + 1)).sum
    + (rows.map fun r => 2 * (sizeC (k' r) * cLm r.l r.m * P r.l r.m) / |Real.sin θ|).sum

/-- **C112**: the radial field computed in doubles is a finite number within the stated distance of the exact one. -/
theorem C112_radial (hN : Spec.Accurate N) (rows : List ZFloat) (hE0 : 0 ≤ ε) (hε : ε ≤ 1 / 4) (hn : rows.length ≤ 2 ^ 20)
    (h : ∀ r ∈ rows, GoodRow ε θ φ P D r) :
    FinD (radial N rows) ∧ |((radial N rows).num : ℝ) - Zdi.radial (rows.map exactRow) θ φ|
      ≤ ((1 + 1 / 10 ^ 5) * (1 + ε) ^ 2 * (1 + 1 / 2 ^ 52) ^ (rows.length + 4) - 1) * radialSize P rows := by
  have h1 := ap_radial hN hE0 hε hn h
  have := FloatField.done (h1.add_zero false)
  unfold Zdi.radial Zdi.radialToroidal
  rw [Complex.zero_re, add_zero]
  have e : (1 + 1 / 10 ^ 5) * (1 + ε) ^ 2 * (1 + 1 / 2 ^ 52) ^ (rows.length + 4)
      = (1 + 1 / 10 ^ 5) * (1 + ε) ^ 2 * w ^ 4 * w ^ rows.length := by
    unfold w
    ring
  rw [e]
  exact this

/-- **C112**: so is the polar field. -/
theorem C112_polar (hN : Spec.Accurate N) (t : RowTree) (s : PyFloat) (hE0 : 0 ≤ ε) (hε : ε ≤ 1 / 4)
    (hn : t.rows.length ≤ 2 ^ 20) (h : ∀ r ∈ t.rows, GoodRow ε θ φ P D r) (hs : GoodSine ε θ s) :
    ∃ v, Zdi.polar (t.rows.map exactRow) θ φ = .ok v ∧ FinD (polar N s t) ∧ |((polar N s t).num : ℝ) - v|
      ≤ ((1 + 1 / 10 ^ 5) * (1 + ε) ^ 4 * (1 + 1 / 2 ^ 52) ^ (t.rows.length + 10) - 1)
        * tangentSize θ P D ZFloat.b ZFloat.g t.rows := by
  obtain ⟨v, e, h1⟩ := ap_polPol hN hE0 hε hn h hs
  have h2 := ap_polTor hN hE0 hε hn h hs
  have h3 := (ap_both hN hE0 hε hn h hs h1 h2 (fun r hr => size_slope (h r hr) (h r hr).cb hs)
    (fun r hr => size_over (h r hr) (h r hr).cg hs)).1
  refine ⟨v + Zdi.polarToroidal (t.rows.map exactRow) θ φ, ?_, FloatField.done h3⟩
  unfold Zdi.polar
  rw [e]
  rfl

/-- **C112**: and the azimuthal field. -/
theorem C112_azimuthal (hN : Spec.Accurate N) (t : RowTree) (s : PyFloat) (hE0 : 0 ≤ ε) (hε : ε ≤ 1 / 4)
    (hn : t.rows.length ≤ 2 ^ 20) (h : ∀ r ∈ t.rows, GoodRow ε θ φ P D r) (hs : GoodSine ε θ s) :
    ∃ v, Zdi.azimuthal (t.rows.map exactRow) θ φ = .ok v ∧ FinD (azimuthal N s t) ∧ |((azimuthal N s t).num : ℝ) - v|
      ≤ ((1 + 1 / 10 ^ 5) * (1 + ε) ^ 4 * (1 + 1 / 2 ^ 52) ^ (t.rows.length + 10) - 1)
        * tangentSize θ P D ZFloat.g ZFloat.b t.rows := by
  obtain ⟨v, e, h1⟩ := ap_azTor hN hE0 hε hn h hs
  have h2 := ap_azPol hN hE0 hε hn h hs
  have h3 := (ap_both hN hE0 hε hn h hs h1 h2 (fun r hr => size_slope (h r hr) (h r hr).cg hs)
    (fun r hr => size_over (h r hr) (h r hr).cb hs)).2.1
  refine ⟨Zdi.azimuthalPoloidal (t.rows.map exactRow) θ φ + v, ?_, ?_⟩
  · unfold Zdi.azimuthal
    rw [e]
    rfl
  · have := FloatField.done h3
    unfold tangentSize
    rw [add_comm (List.sum _)]
    exact this

/-- What is assumed of the sines and cosines in the transformation to cartesian components. -/
structure Spec.GoodTrig (ε θ φ : ℝ) (sθ cθ sφ cφ : PyFloat) : Prop where
  fin : FinD sθ ∧ FinD cθ ∧ FinD sφ ∧ FinD cφ
  sinθ : |(sθ.num : ℝ) - Real.sin θ| ≤ ε
  cosθ : |(cθ.num : ℝ) - Real.cos θ| ≤ ε
  sinφ : |(sφ.num : ℝ) - Real.sin φ| ≤ ε
  cosφ : |(cφ.num : ℝ) - Real.cos φ| ≤ ε

namespace FloatField

theorem ap_unit {x : PyFloat} {v : ℝ} (hx : FinD x) (h : |(x.num : ℝ) - v| ≤ ε) (hv : |v| ≤ 1) : Ap x v 1 (1 + ε) :=
  ⟨hx, by simpa using h, hv⟩

theorem ap_component {a b c : PyFloat} {α β γ v1 v2 v3 M1 M2 M3 g : ℝ} {f : PyFloat × PyFloat × PyFloat} {i j : ℤ}
    (hE0 : 0 ≤ ε) (hε : ε ≤ 1 / 4) (ha : Ap a α 1 ((1 + ε) ^ 2 * w)) (hb : Ap b β 1 ((1 + ε) ^ 2 * w))
    (hc : Ap c γ 1 ((1 + ε) ^ 2 * w)) (h1 : Ap f.1 v1 M1 g) (h2 : Ap f.2.1 v2 M2 g) (h3 : Ap f.2.2 v3 M3 g)
    (hg1 : 1 ≤ g) (hg : g ≤ 20) (hi : -1000 ≤ i) (hj : j ≤ 1000) (l1 : 2 ^ i ≤ M1) (l2 : 2 ^ i ≤ M2) (l3 : 2 ^ i ≤ M3)
    (hs : M1 + M2 + M3 ≤ 2 ^ j) :
    Ap (FloatAxis.component a b c f) (α * v1 + β * v2 + γ * v3) (M1 + M2 + M3) (g * (1 + ε) ^ 2 * w ^ 4) := by
  have p1 := pos_of_low l1
  have p2 := pos_of_low l2
  have p3 := pos_of_low l3
  have hw := w_le
  have hw0 := w_pos
  have hw1 := one_le_w
  have hE : (1 + ε) ^ 2 ≤ (5 / 4) ^ 2 := by gcongr; linarith
  have hE1 : 1 ≤ (1 + ε) ^ 2 := one_le_pow₀ (by linarith)
  have hG : (1 + ε) ^ 2 * w * g * w ^ 2 ≤ 64 := by
    calc (1 + ε) ^ 2 * w * g * w ^ 2 ≤ (5 / 4) ^ 2 * (11 / 10) * 20 * (11 / 10) ^ 2 := by gcongr
      _ ≤ 64 := by norm_num
  have hww : w ≤ w ^ 2 := by nlinarith
  have hG1 : (1 + ε) ^ 2 * w * g * w ≤ 64 := le_trans (by gcongr) hG
  have hG0 : (1 + ε) ^ 2 * w * g ≤ 64 :=
    le_trans (le_mul_of_one_le_right (by positivity) hw1) hG1
  have hge : 1 ≤ (1 + ε) ^ 2 * w * g * w := by
    have := one_le_mul_of_one_le_of_one_le (one_le_mul_of_one_le_of_one_le (one_le_mul_of_one_le_of_one_le hE1 hw1) hg1) hw1
    exact this
  have k1 := ha.mul h1 (by rw [one_mul]; exact low_le l1 (by omega)) (by
    rw [one_mul]; exact le_high hG0 (by linarith : M1 ≤ 2 ^ j) p1.le (by omega))
  have k2 := hb.mul h2 (by rw [one_mul]; exact low_le l2 (by omega)) (by
    rw [one_mul]; exact le_high hG0 (by linarith : M2 ≤ 2 ^ j) p2.le (by omega))
  have k3 := hc.mul h3 (by rw [one_mul]; exact low_le l3 (by omega)) (by
    rw [one_mul]; exact le_high hG0 (by linarith : M3 ≤ 2 ^ j) p3.le (by omega))
  rw [one_mul] at k1 k2 k3
  have k4 := k1.add k2 ((low_le l1 (by omega)).trans (by linarith)) (le_high hG1 (by linarith : M1 + M2 ≤ 2 ^ j) (by linarith) (by omega))
  have k5 := k4.add (k3.mono le_rfl (hge.trans (le_mul_of_one_le_right (by positivity) hw1))
    (le_mul_of_one_le_right (by positivity) hw1)) ((low_le l1 (by omega)).trans (by linarith)) (le_high (by
      rw [mul_assoc _ w w, ← pow_two]; exact hG) hs (by linarith) (by omega))
  unfold FloatAxis.component
  convert k5 using 1
  ring

/-- The transformation to cartesian components. -/
theorem ap_cartesian {sθ cθ sφ cφ : PyFloat} (ht : GoodTrig ε θ φ sθ cθ sφ cφ) (hε : ε ≤ 1 / 4) {v1 v2 v3 M1 M2 M3 g : ℝ}
    {f : PyFloat × PyFloat × PyFloat} {i j : ℤ} (h1 : Ap f.1 v1 M1 g) (h2 : Ap f.2.1 v2 M2 g) (h3 : Ap f.2.2 v3 M3 g)
    (hg1 : 1 ≤ g) (hg : g ≤ 20) (hi : -1000 ≤ i) (hj : j ≤ 1000) (l1 : 2 ^ i ≤ M1) (l2 : 2 ^ i ≤ M2) (l3 : 2 ^ i ≤ M3)
    (hs : M1 + M2 + M3 ≤ 2 ^ j) :
    Ap (FloatAxis.cartesian sθ cθ sφ cφ f).1 (toCartesian θ φ v1 v2 v3 0) (M1 + M2 + M3) (g * (1 + ε) ^ 2 * w ^ 4) ∧
    Ap (FloatAxis.cartesian sθ cθ sφ cφ f).2.1 (toCartesian θ φ v1 v2 v3 1) (M1 + M2 + M3) (g * (1 + ε) ^ 2 * w ^ 4) ∧
    Ap (FloatAxis.cartesian sθ cθ sφ cφ f).2.2 (toCartesian θ φ v1 v2 v3 2) (M1 + M2 + M3) (g * (1 + ε) ^ 2 * w ^ 4) := by
  have hE0 : 0 ≤ ε := (abs_nonneg _).trans ht.sinθ
  have hw0 := w_pos
  have hw := w_le
  have hw1 := one_le_w
  have a1 := ap_unit ht.fin.1 ht.sinθ (Real.abs_sin_le_one _)
  have a2 := ap_unit ht.fin.2.1 ht.cosθ (Real.abs_cos_le_one _)
  have a3 := ap_unit ht.fin.2.2.1 ht.sinφ (Real.abs_sin_le_one _)
  have a4 := ap_unit ht.fin.2.2.2 ht.cosφ (Real.abs_cos_le_one _)
  have hE1 : 1 ≤ (1 + ε) ^ 2 := one_le_pow₀ (by linarith)
  have hb : 1 ≤ (1 + ε) ^ 2 * w := one_le_mul_of_one_le_of_one_le hE1 hw1
  have hb' : 1 + ε ≤ (1 + ε) ^ 2 * w := by
    have : (1 + ε) ^ 2 ≤ (1 + ε) ^ 2 * w := le_mul_of_one_le_right (by positivity) hw1
    nlinarith
  have pr : ∀ {x y : PyFloat} {u v : ℝ}, Ap x u 1 (1 + ε) → Ap y v 1 (1 + ε) →
      Ap (PyFloat.mul x y) (u * v) 1 ((1 + ε) ^ 2 * w) := by
    intro x y u v hx hy
    have hone : (2 : ℝ) ^ (0 : ℤ) = 1 := zpow_zero _
    have := hx.mul hy (by rw [mul_one]; exact low_le hone.le (by norm_num)) (by
      rw [mul_one]
      refine le_high ?_ hone.ge zero_le_one (by norm_num)
      calc (1 + ε) * (1 + ε) ≤ (5 / 4) * (5 / 4) := by gcongr <;> linarith
        _ ≤ 64 := by norm_num)
    rwa [mul_one, ← pow_two] at this
  have si : ∀ {x : PyFloat} {u : ℝ}, Ap x u 1 (1 + ε) → Ap x u 1 ((1 + ε) ^ 2 * w) := fun hx => hx.mono le_rfl hb hb'
  have z0 : Ap (fin false 0) 0 1 ((1 + ε) ^ 2 * w) := (Ap.zero false zero_le_one).mono le_rfl hb hb
  have m0 : toCartesian θ φ v1 v2 v3 0 = Real.sin θ * Real.cos φ * v1 + Real.cos θ * Real.cos φ * v2 + -Real.sin φ * v3 := by
    simp [toCartesian, sphToRectMatrix, Matrix.mulVec, dotProduct, Fin.sum_univ_three]
  have m1 : toCartesian θ φ v1 v2 v3 1 = Real.sin θ * Real.sin φ * v1 + Real.cos θ * Real.sin φ * v2 + Real.cos φ * v3 := by
    simp [toCartesian, sphToRectMatrix, Matrix.mulVec, dotProduct, Fin.sum_univ_three]
  have m2 : toCartesian θ φ v1 v2 v3 2 = Real.cos θ * v1 + -Real.sin θ * v2 + 0 * v3 := by
    simp [toCartesian, sphToRectMatrix, Matrix.mulVec, dotProduct, Fin.sum_univ_three]
  rw [m0, m1, m2]
  exact ⟨ap_component hE0 hε (pr a1 a4) (pr a2 a4) (si a3.neg) h1 h2 h3 hg1 hg hi hj l1 l2 l3 hs,
    ap_component hE0 hε (pr a1 a3) (pr a2 a3) (si a4) h1 h2 h3 hg1 hg hi hj l1 l2 l3 hs,
    ap_component hE0 hε (si a2) (si a1.neg) z0 h1 h2 h3 hg1 hg hi hj l1 l2 l3 hs⟩

end FloatField

/-- **C112**: each cartesian component is within the stated distance of the exact one. -/
theorem C112_cartesian (hN : Spec.Accurate N) (t : RowTree) (sθ cθ sφ cφ : PyFloat) (hε : ε ≤ 1 / 4)
    (hn : t.rows.length ≤ 2 ^ 20) (h : ∀ r ∈ t.rows, GoodRow ε θ φ P D r) (hs : GoodSine ε θ sθ)
    (ht : GoodTrig ε θ φ sθ cθ sφ cφ) :
    ∃ B, Zdi.cartesian (t.rows.map exactRow) θ φ = .ok B ∧
      let F := cartesian N sθ cθ sφ cφ t
      let bound := ((1 + 1 / 10 ^ 5) * (1 + ε) ^ 6 * (1 + 1 / 2 ^ 52) ^ (t.rows.length + 14) - 1)
        * (radialSize P t.rows + tangentSize θ P D ZFloat.b ZFloat.g t.rows + tangentSize θ P D ZFloat.g ZFloat.b t.rows)
      (FinD F.1 ∧ |(F.1.num : ℝ) - B 0| ≤ bound) ∧ (FinD F.2.1 ∧ |(F.2.1.num : ℝ) - B 1| ≤ bound) ∧
        FinD F.2.2 ∧ |(F.2.2.num : ℝ) - B 2| ≤ bound := by
  have hE0 : 0 ≤ ε := (abs_nonneg _).trans ht.sinθ
  have k1 := (ap_radial hN hE0 hε hn h).add_zero false
  obtain ⟨v, e, hp1⟩ := ap_polPol hN hE0 hε hn h hs
  obtain ⟨k2, -, l2, u2⟩ := ap_both hN hE0 hε hn h hs hp1 (ap_polTor hN hE0 hε hn h hs)
    (fun r hr => size_slope (h r hr) (h r hr).cb hs) (fun r hr => size_over (h r hr) (h r hr).cg hs)
  obtain ⟨u, e', hp2⟩ := ap_azTor hN hE0 hε hn h hs
  obtain ⟨-, k3, l3, u3⟩ := ap_both hN hE0 hε hn h hs hp2 (ap_azPol hN hE0 hε hn h hs)
    (fun r hr => size_slope (h r hr) (h r hr).cg hs) (fun r hr => size_over (h r hr) (h r hr).cb hs)
  have hw0 := w_pos
  set n := t.rows.length with hnn
  set g := (1 + 1 / 10 ^ 5) * (1 + ε) ^ 4 * w ^ (n + 10) with hg
  have hE1 : 1 ≤ 1 + ε := by linarith
  have hle : (1 + 1 / 10 ^ 5) * (1 + ε) ^ 2 * w ^ 4 * w ^ n ≤ g := by
    have a1 : (1 + ε) ^ 2 ≤ (1 + ε) ^ 4 := pow_le_pow_right₀ hE1 (by norm_num)
    have a2 : w ^ (4 + n) ≤ w ^ (n + 10) := pow_le_pow_right₀ one_le_w (by omega)
    rw [mul_assoc _ (w ^ 4), ← pow_add, hg]
    gcongr
  have hg1 : 1 ≤ g := by
    have a1 : 1 ≤ (1 + ε) ^ 4 := one_le_pow₀ hE1
    have a2 := one_le_pow_w (n + 10)
    exact one_le_mul_of_one_le_of_one_le (one_le_mul_of_one_le_of_one_le (by norm_num) a1) a2
  have hg20 : g ≤ 20 := by
    have a1 : (1 + ε) ^ 4 ≤ (5 / 4) ^ 4 := by gcongr; linarith
    have a2 := pow_w_le (n + 10) (by omega)
    rw [hg]
    calc (1 + 1 / 10 ^ 5) * (1 + ε) ^ 4 * w ^ (n + 10) ≤ (1 + 1 / 10 ^ 5) * (5 / 4) ^ 4 * 2 := by gcongr
      _ ≤ 20 := by norm_num
  have s1 : ∀ r ∈ t.rows, 2 ^ (-949 : ℤ) ≤ 2 * (sizeC r.a * Verif.cLm r.l r.m * P r.l r.m) :=
    fun r hr => (size_p (h r hr) (h r hr).ca).1
  have l1 : 2 ^ (-949 : ℤ) ≤ (t.rows.map fun r => 2 * (sizeC r.a * Verif.cLm r.l r.m * P r.l r.m)).sum := by
    obtain ⟨r, hr⟩ := List.exists_mem_of_length_pos t.rows_pos
    have : 2 * (sizeC r.a * Verif.cLm r.l r.m * P r.l r.m)
        ≤ (t.rows.map fun r => 2 * (sizeC r.a * Verif.cLm r.l r.m * P r.l r.m)).sum := List.single_le_sum (by
      intro z hz
      obtain ⟨r', hr', rfl⟩ := List.mem_map.1 hz
      exact (pos_of_low (s1 r' hr')).le) _ (List.mem_map_of_mem (f := fun r : ZFloat => 2 * (sizeC r.a * Verif.cLm r.l r.m * P r.l r.m)) hr)
    exact (s1 r hr).trans this
  have u1 := sum_le t.rows (fun r hr => (size_p (h r hr) (h r hr).ca).2) hn
  rw [add_comm (List.sum _)] at l3 u3
  have key := ap_cartesian ht hε (f := (radial N t.rows, polar N sθ t, azimuthal N sθ t)) (k1.mono le_rfl hg1 hle) k2 k3 hg1
    hg20 (i := -949) (j := 824) (by norm_num) (by norm_num) l1 l2 l3 (by
      have e : (2 : ℝ) ^ (824 : ℤ) = 4 * 2 ^ (822 : ℤ) := by
        rw [show (824 : ℤ) = 2 + 822 by norm_num, zpow_add₀ (by norm_num)]; norm_num
      have u1' := u1.trans (z2 (show (20 + 701 : ℤ) ≤ 822 by norm_num))
      have := pos_of_low (le_refl ((2 : ℝ) ^ (822 : ℤ)))
      rw [e]
      linarith)
  have eg : g * (1 + ε) ^ 2 * w ^ 4 = (1 + 1 / 10 ^ 5) * (1 + ε) ^ 6 * (1 + 1 / 2 ^ 52) ^ (n + 14) := by
    rw [hg]; unfold w; ring
  rw [eg] at key
  have es : (t.rows.map fun r => 2 * (sizeC r.a * Verif.cLm r.l r.m * P r.l r.m)).sum
      + ((t.rows.map fun r => 2 * (sizeC r.b * Verif.cLm r.l r.m * D r.l r.m) * |Real.sin θ| / (r.l + 1)).sum
        + (t.rows.map fun r => 2 * (sizeC r.g * Verif.cLm r.l r.m * P r.l r.m) / |Real.sin θ|).sum)
      + ((t.rows.map fun r => 2 * (sizeC r.b * Verif.cLm r.l r.m * P r.l r.m) / |Real.sin θ|).sum
        + (t.rows.map fun r => 2 * (sizeC r.g * Verif.cLm r.l r.m * D r.l r.m) * |Real.sin θ| / (r.l + 1)).sum)
      = radialSize P t.rows + tangentSize θ P D ZFloat.b ZFloat.g t.rows + tangentSize θ P D ZFloat.g ZFloat.b t.rows := by
    unfold radialSize tangentSize
    ring
  rw [es] at key
  refine ⟨toCartesian θ φ (Zdi.radialPoloidal (t.rows.map exactRow) θ φ) (v + Zdi.polarToroidal (t.rows.map exactRow) θ φ)
    (Zdi.azimuthalPoloidal (t.rows.map exactRow) θ φ + u), ?_, FloatField.done key.1, FloatField.done key.2.1,
    FloatField.done key.2.2⟩
  unfold Zdi.cartesian Zdi.polar Zdi.azimuthal Zdi.radial Zdi.radialToroidal
  rw [e, e', Complex.zero_re, add_zero]
  rfl

/-- **C112**: with library functions accurate to 1e-6, all components are accurate to 2e-5 of the sizes of their terms. -/
theorem C112_digits (n : ℕ) (hn : n ≤ 2 ^ 20 + 14) (hE0 : 0 ≤ ε) (hε : ε ≤ 1 / 10 ^ 6) :
    (1 + 1 / 10 ^ 5) * (1 + ε) ^ 6 * (1 + 1 / 2 ^ 52) ^ n - 1 ≤ 2 / 10 ^ 5 := by
  have h1 : (1 + 1 / 2 ^ 52 : ℝ) ^ n ≤ 1 + 1 / 10 ^ 6 := by
    have h2 : (1 + 1 / 2 ^ 52 : ℝ) ^ n ≤ Real.exp (1 / 2 ^ 52) ^ n := by
      gcongr
      have := Real.add_one_le_exp ((1 : ℝ) / 2 ^ 52)
      linarith
    rw [← Real.exp_nat_mul] at h2
    have h3 : (n : ℝ) * (1 / 2 ^ 52) ≤ 1 / 10 ^ 7 := by
      have : (n : ℝ) ≤ 2 ^ 20 + 14 := by exact_mod_cast hn
      linarith
    have h4 := Real.exp_le_exp.2 h3
    have h5 := Real.add_one_le_exp (-(1 / 10 ^ 7) : ℝ)
    have h6 : Real.exp (1 / 10 ^ 7) * Real.exp (-(1 / 10 ^ 7)) = 1 := by rw [← Real.exp_add]; norm_num
    have h7 := Real.exp_pos (1 / 10 ^ 7)
    have h8 : Real.exp (1 / 10 ^ 7) ≤ 1 + 1 / 10 ^ 6 := by nlinarith
    linarith
  have h2 : (1 + ε) ^ 6 ≤ (1 + 1 / 10 ^ 6) ^ 6 := by gcongr
  have h3 : (1 + 1 / 10 ^ 5 : ℝ) * (1 + ε) ^ 6 * (1 + 1 / 2 ^ 52) ^ n
      ≤ (1 + 1 / 10 ^ 5) * (1 + 1 / 10 ^ 6) ^ 6 * (1 + 1 / 10 ^ 6) := by gcongr
  refine (sub_le_sub_right h3 1).trans ?_
  norm_num

/-! A dipole on the equator: `alpha = 1`, `beta = 2`, `gamma = 3` and the derivative of the Legendre function equal to 1. -/

private theorem exLeg : legendreP 1 0 = fun x => x := by
  funext x
  simp [legendreP, rodNorm, rod, rodBase]
  ring

private def exDipole : ZFloat :=
  ⟨1, 0, (fin false 1, fin false 0), (fin false 2, fin false 0), (fin false 3, fin false 0), fin false 0, fin false 1,
    (fin false 1, fin false 0)⟩

private theorem exCoef {q : ℚ} (h : IsDouble q) (h' : q ≤ 4) : GoodCoef (fin false q, fin false 0) := by
  refine ⟨⟨_, _, rfl, h⟩, ⟨_, _, rfl, isDouble_zero⟩, ?_⟩
  have h0 : (0 : ℝ) ≤ q := by exact_mod_cast h.nonneg
  have h1 : (q : ℝ) ≤ 4 := by exact_mod_cast h'
  have e : (4 : ℝ) = 2 ^ (2 : ℤ) := by norm_num
  simp only [sizeC, num, Bool.false_eq_true, if_false, Rat.cast_zero, abs_zero]
  refine max_le (max_le ?_ (by positivity)) (z2 (by norm_num))
  rw [abs_of_nonneg h0]
  exact (h1.trans e.le).trans (z2 (by norm_num))

private theorem exC : cLm 1 0 ≤ 2 ^ (400 : ℤ) := by
  have h1 : cLm 1 0 ≤ 1 := by
    unfold cLm
    rw [Real.sqrt_le_one, spFact (by norm_num), spFact (by norm_num)]
    have := Real.pi_gt_three
    norm_num
    rw [div_le_one (by positivity)]
    linarith
  exact h1.trans (one_le_zpow₀ (by norm_num) (by norm_num))

private theorem exGoodRow : GoodRow 0 (Real.pi / 2) 0 (fun _ _ => 1) (fun _ _ => 1) exDipole := by
  have h3 : IsDouble 3 := ⟨3, 0, by norm_num, by norm_num, by norm_num, by simp⟩
  have hp : lpmv 0 1 (Real.cos (Real.pi / 2)) = 0 := by
    rw [lpmv_nonneg le_rfl (by norm_num)]
    simp [exLeg]
  have hd : deriv (legendreP 1 0) (Real.cos (Real.pi / 2)) = 1 := by rw [exLeg]; simp
  have hlow : ∀ k : ℤ, k ≤ 0 → (2 : ℝ) ^ k ≤ 1 := fun k hk => by simpa using z2 hk
  constructor <;> try simp only [exDipole, Int.reduceToNat, mul_one]
  · exact le_rfl
  · norm_num
  · norm_num
  · norm_num
  · exact exCoef isDouble_one (by norm_num)
  · exact exCoef isDouble_two (by norm_num)
  · exact exCoef h3 (by norm_num)
  · exact ⟨_, _, rfl, isDouble_zero⟩
  · rw [hp]; simp [num]
  · rw [hp]; simp
  · exact hlow _ (by norm_num)
  · exact exC
  · exact ⟨_, _, rfl, isDouble_one⟩
  · rw [hd]; simp [num]
  · rw [hd]; simp
  · exact hlow _ (by norm_num)
  · exact exC
  · exact ⟨⟨_, _, rfl, isDouble_one⟩, ⟨_, _, rfl, isDouble_zero⟩⟩
  · simp [num]
  · simp [num]

example : ∃ v, Zdi.polar [exactRow exDipole] (Real.pi / 2) 0 = .ok v ∧
    |((polar exLib (fin false 1) (.leaf exDipole)).num : ℝ) - v|
      ≤ 2 / 10 ^ 5 * tangentSize (Real.pi / 2) (fun _ _ => 1) (fun _ _ => 1) ZFloat.b ZFloat.g [exDipole] := by
  have hs : GoodSine 0 (Real.pi / 2) (fin false 1) :=
    ⟨⟨_, _, rfl, isDouble_one⟩, by simp [num], by simpa using z2 (show (-100 : ℤ) ≤ 0 by norm_num)⟩
  obtain ⟨v, e, -, hv⟩ := C112_polar exLib_accurate (.leaf exDipole) (fin false 1) le_rfl (by norm_num) (by simp [RowTree.rows])
    (by simpa [RowTree.rows] using exGoodRow) hs
  refine ⟨v, e, hv.trans ?_⟩
  have hd := C112_digits (ε := 0) 11 (by norm_num) le_rfl (by norm_num)
  simp only [add_zero, one_pow] at hd ⊢
  have hpos : 0 ≤ tangentSize (Real.pi / 2) (fun _ _ => 1) (fun _ _ => 1) ZFloat.b ZFloat.g [exDipole] := by
    have h1 := pos_of_low (size_slope exGoodRow exGoodRow.cb hs).1
    have h2 := pos_of_low (size_over exGoodRow exGoodRow.cg hs).1
    simp only [tangentSize, List.map_cons, List.map_nil, List.sum_cons, List.sum_nil, add_zero]
    linarith
  exact mul_le_mul_of_nonneg_right hd hpos

end Verif
