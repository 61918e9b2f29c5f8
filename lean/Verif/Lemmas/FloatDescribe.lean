import Verif.Model.FloatDescribe
import Verif.Props.FloatClose
import Verif.Props.FloatEnergy

/-!
# Sums of products in double precision, for `numerical_description`
-/

set_option exponentiation.threshold 4000

namespace Verif
namespace FloatDescribe
open Spec PyFloat FloatRange FloatSets FloatCoords FloatError FloatRound FloatEnergy

theorem real_err (q : ℚ) : |((rnd q : ℚ) : ℝ) - q| ≤ |(q : ℝ)| / 2 ^ 53 + 1 / 2 ^ 1000 := by
  have h := (Rat.cast_le (K := ℝ)).2 (rnd_err q)
  have h0 : (2 : ℚ) ^ (-1075 : ℤ) ≤ 1 / 2 ^ 1000 := by
    rw [show (1 : ℚ) / 2 ^ 1000 = 2 ^ (-1000 : ℤ) by rw [zpow_neg, one_div]; norm_cast]
    exact two_zpow_le (by norm_num)
  have h1 : (((2 : ℚ) ^ (-1075 : ℤ) : ℚ) : ℝ) ≤ 1 / 2 ^ 1000 := by
    refine le_trans ((Rat.cast_le (K := ℝ)).2 h0) ?_
    rw [Rat.cast_div, Rat.cast_one, Rat.cast_pow, Rat.cast_ofNat]
  generalize (2 : ℚ) ^ (-1075 : ℤ) = t at h h1
  push_cast at h
  linarith

theorem nonneg_of {x : PyFloat} (hx : Fd x) (h : 0 ≤ x.num) : NonNeg x := by
  obtain ⟨s, a, rfl, ha⟩ := hx
  refine ⟨s, a, rfl, ha, ?_⟩
  rintro rfl
  simp only [num, if_true] at h
  have := ha.nonneg
  linarith

theorem NonNeg.fd {x : PyFloat} (h : NonNeg x) : Fd x := by
  obtain ⟨s, q, rfl, hd, -⟩ := h; exact ⟨s, q, rfl, hd⟩

theorem fabs_fd {x : PyFloat} (h : Fd x) : Fd (FloatParker.fabs x) ∧ (FloatParker.fabs x).num = |x.num| := by
  obtain ⟨s, a, rfl, ha⟩ := h
  refine ⟨⟨false, a, rfl, ha⟩, ?_⟩
  rw [num_abs s ha.nonneg]
  rfl

theorem le_max_of_real {q : ℚ} {k : ℕ} (h : |(q : ℝ)| ≤ 2 ^ k) (hk : k ≤ 1023) : |q| ≤ maxDouble :=
  FloatClose.real_le_max (k := k) (by rw [zpow_natCast]; exact h) (by omega)

theorem mul_real {x y : PyFloat} (hx : Fd x) (hy : Fd y) {k : ℕ} (h : |(x.num : ℝ) * y.num| ≤ 2 ^ k) (hk : k ≤ 1023) :
    Fd (mul x y) ∧ |((mul x y).num : ℝ) - x.num * y.num| ≤ |(x.num : ℝ) * y.num| / 2 ^ 53 + 1 / 2 ^ 1000 := by
  have := mul_num hx hy (le_max_of_real (k := k) (by push_cast; exact h) hk)
  refine ⟨this.1, ?_⟩
  rw [this.2]
  have := real_err (x.num * y.num)
  push_cast at this
  exact this

theorem add_real {x y : PyFloat} (hx : Fd x) (hy : Fd y) {k : ℕ} (h : |(x.num : ℝ) + y.num| ≤ 2 ^ k) (hk : k ≤ 1023) :
    Fd (add x y) ∧ |((add x y).num : ℝ) - (x.num + y.num)| ≤ |(x.num : ℝ) + y.num| / 2 ^ 53 + 1 / 2 ^ 1000 := by
  have := add_num hx hy (le_max_of_real (k := k) (by push_cast; exact h) hk)
  refine ⟨this.1, ?_⟩
  rw [this.2]
  have := real_err (x.num + y.num)
  push_cast at this
  exact this

theorem sub_real {x y : PyFloat} (hx : Fd x) (hy : Fd y) {k : ℕ} (h : |(x.num : ℝ) - y.num| ≤ 2 ^ k) (hk : k ≤ 1023) :
    Fd (sub x y) ∧ |((sub x y).num : ℝ) - (x.num - y.num)| ≤ |(x.num : ℝ) - y.num| / 2 ^ 53 + 1 / 2 ^ 1000 := by
  have := sub_num hx hy (le_max_of_real (k := k) (by push_cast; exact h) hk)
  refine ⟨this.1, ?_⟩
  rw [this.2]
  have := real_err (x.num - y.num)
  push_cast at this
  exact this

theorem mul_nonneg_num {x y : PyFloat} (hx : Fd x) (hy : Fd y) (h0 : 0 ≤ x.num * y.num) (h : x.num * y.num ≤ maxDouble) :
    0 ≤ (mul x y).num := by
  rw [(mul_num hx hy (by rwa [abs_of_nonneg h0])).2]
  exact rnd_nonneg h0

/-- `|v| a`. -/
theorem term_abs {v a : PyFloat} (hv : Fd v) (ha : Fd a) (h1 : |(v.num : ℝ)| ≤ 2 ^ 60) (h2 : 0 ≤ (a.num : ℝ)) (h3 : (a.num : ℝ) ≤ 16) :
    NonNeg (mul (FloatParker.fabs v) a) ∧
      |((mul (FloatParker.fabs v) a).num : ℝ) - |(v.num : ℝ)| * a.num| ≤ |(v.num : ℝ)| * a.num / 2 ^ 50 + 1 / 2 ^ 900 := by
  obtain ⟨f, e⟩ := fabs_fd hv
  have e' : ((FloatParker.fabs v).num : ℝ) = |(v.num : ℝ)| := by rw [e]; push_cast; rfl
  have hp : 0 ≤ |(v.num : ℝ)| * a.num := mul_nonneg (abs_nonneg _) h2
  have hb : |((FloatParker.fabs v).num : ℝ) * a.num| ≤ 2 ^ 64 := by
    rw [e', abs_of_nonneg hp]
    calc |(v.num : ℝ)| * a.num ≤ 2 ^ 60 * 16 := mul_le_mul h1 h3 h2 (by positivity)
      _ = 2 ^ 64 := by norm_num
  obtain ⟨g1, g2⟩ := mul_real f ha hb (by norm_num)
  rw [e', abs_of_nonneg hp] at g2
  refine ⟨nonneg_of g1 ?_, g2.trans ?_⟩
  · have hq : 0 ≤ (FloatParker.fabs v).num * a.num := by
      have : (0 : ℝ) ≤ (((FloatParker.fabs v).num * a.num : ℚ) : ℝ) := by push_cast; rw [e']; exact hp
      exact_mod_cast this
    refine mul_nonneg_num f ha hq ?_
    have := le_max_of_real (q := (FloatParker.fabs v).num * a.num) (k := 64) (by push_cast; exact hb) (by norm_num)
    exact (le_abs_self _).trans this
  · have : (1 : ℝ) / 2 ^ 1000 ≤ 1 / 2 ^ 900 := by gcongr <;> norm_num
    have : |(v.num : ℝ)| * a.num / 2 ^ 53 ≤ |(v.num : ℝ)| * a.num / 2 ^ 50 := by gcongr <;> norm_num
    linarith

/-- `x * x * a`. -/
theorem term_square {x a : PyFloat} (hx : Fd x) (ha : Fd a) (h1 : |(x.num : ℝ)| ≤ 2 ^ 63) (h2 : 0 ≤ (a.num : ℝ)) (h3 : (a.num : ℝ) ≤ 16) :
    NonNeg (mul (mul x x) a) ∧
      |((mul (mul x x) a).num : ℝ) - (x.num : ℝ) ^ 2 * a.num| ≤ (x.num : ℝ) ^ 2 * a.num / 2 ^ 51 + 1 / 2 ^ 950 := by
  have hs : (x.num : ℝ) * x.num = (x.num : ℝ) ^ 2 := by ring
  have hp : 0 ≤ (x.num : ℝ) ^ 2 := sq_nonneg _
  have hb : (x.num : ℝ) ^ 2 ≤ 2 ^ 126 := by
    rw [← sq_abs]
    calc |(x.num : ℝ)| ^ 2 ≤ (2 ^ 63) ^ 2 := by gcongr
      _ = 2 ^ 126 := by norm_num
  obtain ⟨g1, g2⟩ := mul_real hx hx (k := 126) (by rw [hs, abs_of_nonneg hp]; exact hb) (by norm_num)
  rw [hs, abs_of_nonneg hp] at g2
  have n1 : 0 ≤ (mul x x).num := by
    refine mul_nonneg_num hx hx (mul_self_nonneg _) ?_
    have := le_max_of_real (q := x.num * x.num) (k := 126) (by push_cast; rw [hs, abs_of_nonneg hp]; exact hb) (by norm_num)
    exact (le_abs_self _).trans this
  have n1' : (0 : ℝ) ≤ (mul x x).num := by exact_mod_cast n1
  set y : ℝ := ((mul x x).num : ℝ) with hy
  set p : ℝ := (x.num : ℝ) ^ 2 with hpdef
  set b : ℝ := (a.num : ℝ) with hbdef
  have t0 : (1 : ℝ) / 2 ^ 1000 ≤ 1 := by rw [div_le_one (by positivity)]; exact one_le_pow₀ (by norm_num)
  have hy2 : y ≤ 2 ^ 127 := by
    have := (abs_le.1 g2).2
    have : p / 2 ^ 53 ≤ 2 ^ 126 / 2 ^ 53 := by gcongr
    norm_num at *
    linarith
  have hb2 : |y * b| ≤ 2 ^ 131 := by
    rw [abs_of_nonneg (mul_nonneg n1' h2)]
    calc y * b ≤ 2 ^ 127 * 16 := mul_le_mul hy2 h3 h2 (by positivity)
      _ = 2 ^ 131 := by norm_num
  obtain ⟨k1, k2⟩ := mul_real g1 ha hb2 (by norm_num)
  refine ⟨nonneg_of k1 ?_, ?_⟩
  · have hq : 0 ≤ (mul x x).num * a.num := by
      have : (0 : ℝ) ≤ (((mul x x).num * a.num : ℚ) : ℝ) := by push_cast; exact mul_nonneg n1' h2
      exact_mod_cast this
    refine mul_nonneg_num g1 ha hq ?_
    have := le_max_of_real (q := (mul x x).num * a.num) (k := 131) (by push_cast; exact hb2) (by norm_num)
    exact (le_abs_self _).trans this
  · rw [← hy, ← hbdef, abs_of_nonneg (mul_nonneg n1' h2)] at k2
    have t1 : (1 : ℝ) / 2 ^ 1000 * 32 ≤ 1 / 2 ^ 950 := by
      rw [show (2 : ℝ) ^ 1000 = 2 ^ 950 * 2 ^ 50 by rw [← pow_add]]
      rw [one_div_mul_eq_div, div_le_div_iff₀ (by positivity) (by positivity)]
      have : (0 : ℝ) < 2 ^ 950 := by positivity
      nlinarith
    have tp : (0 : ℝ) ≤ 1 / 2 ^ 1000 := by positivity
    generalize (1 : ℝ) / 2 ^ 1000 = t at *
    generalize (1 : ℝ) / 2 ^ 950 = t' at *
    generalize ((mul (mul x x) a).num : ℝ) = z at *
    have e1 : |y * b - p * b| ≤ (p / 2 ^ 53 + t) * b := by
      rw [← sub_mul, abs_mul, abs_of_nonneg h2]
      exact mul_le_mul_of_nonneg_right g2 h2
    have e2 : t * b ≤ t * 16 := mul_le_mul_of_nonneg_left h3 tp
    have e3 : 0 ≤ p * b := mul_nonneg hp h2
    rw [abs_le] at *
    have e4 : (p / 2 ^ 53 + t) * b = p * b / 2 ^ 53 + t * b := by ring
    rw [e4] at e1
    generalize p * b = P at *
    generalize y * b = Y at *
    generalize t * b = T at *
    norm_num at *
    constructor <;> linarith

/-- The deviation from the mean. -/
theorem dev_real {v m : PyFloat} (hv : Fd v) (hm : Fd m) (h1 : |(v.num : ℝ)| ≤ 2 ^ 60) (m0 : 0 ≤ (m.num : ℝ)) (m1 : (m.num : ℝ) ≤ 2 ^ 62) :
    Fd (deviation m v) ∧ |((deviation m v).num : ℝ)| ≤ 2 ^ 63 ∧
      |((deviation m v).num : ℝ) - (|(v.num : ℝ)| - m.num)| ≤ |(|(v.num : ℝ)| - m.num)| / 2 ^ 53 + 1 / 2 ^ 1000 := by
  obtain ⟨f, e⟩ := fabs_fd hv
  have e' : ((FloatParker.fabs v).num : ℝ) = |(v.num : ℝ)| := by rw [e]; push_cast; rfl
  have h0 := abs_nonneg (v.num : ℝ)
  have hb : |(|(v.num : ℝ)| - m.num)| ≤ 2 ^ 62 := by
    rw [abs_le]
    constructor
    · linarith
    · refine le_trans (by linarith) (h1.trans ?_)
      norm_num
  obtain ⟨g1, g2⟩ := sub_real f hm (k := 62) (by rw [e']; exact hb) (by norm_num)
  rw [e'] at g2
  refine ⟨g1, ?_, g2⟩
  have t0 : (1 : ℝ) / 2 ^ 1000 ≤ 1 := by rw [div_le_one (by positivity)]; exact one_le_pow₀ (by norm_num)
  change |((sub (FloatParker.fabs v) m).num : ℝ)| ≤ _
  generalize (1 : ℝ) / 2 ^ 1000 = t at *
  generalize ((sub (FloatParker.fabs v) m).num : ℝ) = d at *
  generalize |(v.num : ℝ)| - m.num = δ at *
  have h3 : |d| ≤ |δ| + |d - δ| := by
    have := abs_add_le δ (d - δ)
    rwa [add_sub_cancel] at this
  norm_num at *
  linarith

/-- The square of a number known up to rounding. -/
theorem sq_err {d δ t T : ℝ} (h : |d - δ| ≤ |δ| / 2 ^ 53 + t) (hδ : |δ| ≤ 2 ^ 63) (t0 : 0 ≤ t) (t1 : t ≤ 1) (hT : t * 2 ^ 66 ≤ T) :
    |d ^ 2 - δ ^ 2| ≤ δ ^ 2 * (17 / 2 ^ 56) + T := by
  have e : d ^ 2 - δ ^ 2 = (d - δ) * (d - δ) + 2 * δ * (d - δ) := by ring
  have h1 : |d ^ 2 - δ ^ 2| ≤ |d - δ| * |d - δ| + 2 * |δ| * |d - δ| := by
    rw [e]
    refine (abs_add_le _ _).trans ?_
    rw [abs_mul, abs_mul, abs_mul, abs_of_pos (by norm_num : (0 : ℝ) < 2)]
  have hx := abs_nonneg δ
  refine h1.trans ?_
  rw [← sq_abs δ]
  have hy := abs_nonneg (d - δ)
  generalize |d - δ| = y at *
  generalize |δ| = x at *
  have h2 : y * y ≤ (x / 2 ^ 53 + t) * (x / 2 ^ 53 + t) := mul_le_mul h h hy (by positivity)
  have h3 : 2 * x * y ≤ 2 * x * (x / 2 ^ 53 + t) := mul_le_mul_of_nonneg_left h (by positivity)
  have h4 : x * t ≤ 2 ^ 63 * t := mul_le_mul_of_nonneg_right hδ t0
  have h5 : t * t ≤ 1 * t := mul_le_mul_of_nonneg_right t1 t0
  have e2 : (x / 2 ^ 53 + t) * (x / 2 ^ 53 + t) = x ^ 2 / 2 ^ 106 + 2 / 2 ^ 53 * (x * t) + t * t := by ring
  have e3 : 2 * x * (x / 2 ^ 53 + t) = 2 * x ^ 2 / 2 ^ 53 + 2 * (x * t) := by ring
  rw [e2] at h2
  rw [e3] at h3
  have h6 : 0 ≤ x ^ 2 := sq_nonneg x
  generalize x ^ 2 = X at *
  generalize x * t = Y at *
  generalize t * t = Z at *
  norm_num at *
  linarith

/-- `(|v| - m) ** 2 * a`. -/
theorem term_dev {v m a : PyFloat} (hv : Fd v) (hm : Fd m) (ha : Fd a) (h1 : |(v.num : ℝ)| ≤ 2 ^ 60) (m0 : 0 ≤ (m.num : ℝ))
    (m1 : (m.num : ℝ) ≤ 2 ^ 62) (h2 : 0 ≤ (a.num : ℝ)) (h3 : (a.num : ℝ) ≤ 16) :
    NonNeg (mul (mul (deviation m v) (deviation m v)) a) ∧
      |((mul (mul (deviation m v) (deviation m v)) a).num : ℝ) - (|(v.num : ℝ)| - m.num) ^ 2 * a.num| ≤
        (|(v.num : ℝ)| - m.num) ^ 2 * a.num / 2 ^ 50 + 1 / 2 ^ 900 := by
  obtain ⟨f, g1, g2⟩ := dev_real hv hm h1 m0 m1
  obtain ⟨k1, k2⟩ := term_square f ha g1 h2 h3
  refine ⟨k1, ?_⟩
  have h0 := abs_nonneg (v.num : ℝ)
  have hb : |(|(v.num : ℝ)| - m.num)| ≤ 2 ^ 63 := by
    rw [abs_le]
    constructor
    · refine le_trans ?_ (by linarith : -(m.num : ℝ) ≤ _)
      norm_num at m1 ⊢
      linarith
    · refine le_trans (by linarith) (h1.trans ?_)
      norm_num
  have c1 : (1 : ℝ) / 2 ^ 1000 * 2 ^ 66 ≤ 1 / 2 ^ 934 := by
    rw [show (2 : ℝ) ^ 1000 = 2 ^ 934 * 2 ^ 66 by rw [← pow_add], one_div_mul_eq_div, div_mul_cancel_right₀ (by positivity), one_div]
  have t0 : (1 : ℝ) / 2 ^ 1000 ≤ 1 := by rw [div_le_one (by positivity)]; exact one_le_pow₀ (by norm_num)
  have q := sq_err g2 hb (by positivity) t0 c1
  have c2 : (1 : ℝ) / 2 ^ 950 ≤ 1 / 2 ^ 934 := by gcongr <;> norm_num
  have c3 : (1 : ℝ) / 2 ^ 934 * 2 ^ 34 ≤ 1 / 2 ^ 900 := by
    rw [show (2 : ℝ) ^ 934 = 2 ^ 900 * 2 ^ 34 by rw [← pow_add], one_div_mul_eq_div, div_mul_cancel_right₀ (by positivity), one_div]
  have c4 : (0 : ℝ) ≤ 1 / 2 ^ 934 := by positivity
  generalize (1 : ℝ) / 2 ^ 950 = t1 at *
  generalize (1 : ℝ) / 2 ^ 934 = t2 at *
  generalize (1 : ℝ) / 2 ^ 900 = t3 at *
  generalize ((deviation m v).num : ℝ) = d at *
  generalize |(v.num : ℝ)| - m.num = δ at *
  generalize ((mul (mul (deviation m v) (deviation m v)) a).num : ℝ) = z at *
  generalize (a.num : ℝ) = b at *
  have e1 : |d ^ 2 * b - δ ^ 2 * b| ≤ (δ ^ 2 * (17 / 2 ^ 56) + t2) * b := by
    rw [← sub_mul, abs_mul, abs_of_nonneg h2]
    exact mul_le_mul_of_nonneg_right q h2
  have e2 : t2 * b ≤ t2 * 16 := mul_le_mul_of_nonneg_left h3 c4
  have e3 : 0 ≤ δ ^ 2 * b := mul_nonneg (sq_nonneg _) h2
  have e4 : (δ ^ 2 * (17 / 2 ^ 56) + t2) * b = δ ^ 2 * b * (17 / 2 ^ 56) + t2 * b := by ring
  rw [e4] at e1
  rw [abs_le] at *
  generalize δ ^ 2 * b = P at *
  generalize d ^ 2 * b = Y at *
  generalize t2 * b = T at *
  norm_num at *
  constructor <;> linarith

theorem pow_w_small {n : ℕ} (h : n ≤ 2 ^ 24) : w ^ n - 1 ≤ 1 / 2 ^ 27 := by
  have hw : w ≤ Real.exp (1 / 2 ^ 52) := by
    unfold w
    have := Real.add_one_le_exp ((1 : ℝ) / 2 ^ 52)
    linarith
  have hn : (n : ℝ) ≤ 2 ^ 24 := by exact_mod_cast h
  have h1 : w ^ n ≤ Real.exp (n * (1 / 2 ^ 52)) := by
    rw [Real.exp_nat_mul]
    exact pow_le_pow_left₀ w_pos.le hw n
  have h2 : (n : ℝ) * (1 / 2 ^ 52) ≤ 1 / 2 ^ 28 := by
    rw [mul_one_div, div_le_div_iff₀ (by positivity) (by positivity), one_mul]
    calc (n : ℝ) * 2 ^ 28 ≤ 2 ^ 24 * 2 ^ 28 := by gcongr
      _ = 2 ^ 52 := by norm_num
  have h3 : 0 ≤ (n : ℝ) * (1 / 2 ^ 52) := by positivity
  have h4 := Real.abs_exp_sub_one_le (x := (n : ℝ) * (1 / 2 ^ 52)) (by rw [abs_of_nonneg h3]; norm_num at h2 ⊢; linarith)
  rw [abs_of_nonneg h3] at h4
  have := (abs_le.1 h4).2
  norm_num at *
  linarith

theorem sum_err {α : Type*} (xs : List α) {T t : α → ℝ} {e : ℝ} (h : ∀ x ∈ xs, |T x - t x| ≤ t x / 2 ^ 50 + e) :
    |(xs.map T).sum - (xs.map t).sum| ≤ (xs.map t).sum / 2 ^ 50 + xs.length * e := by
  induction xs with
  | nil => simp
  | cons x xs ih =>
    have h1 := h x (by simp)
    have h2 := ih fun y hy => h y (by simp [hy])
    simp only [List.map_cons, List.sum_cons, List.length_cons, Nat.cast_add, Nat.cast_one]
    rw [abs_le] at *
    constructor <;> linarith

/-- A weighted mean. -/
theorem weighted {α : Type*} (xs : List α) {T : α → PyFloat} {t : α → ℝ} (hn : xs.length ≤ 2 ^ 24) (hT : ∀ x ∈ xs, NonNeg (T x))
    (he : ∀ x ∈ xs, |((T x).num : ℝ) - t x| ≤ t x / 2 ^ 50 + 1 / 2 ^ 900) (h0 : ∀ x ∈ xs, 0 ≤ t x) (hb : ∀ x ∈ xs, t x ≤ 2 ^ 200)
    {s : PyFloat} (hs : IsNpSum (xs.map T) s) :
    NonNeg (div s fourPi) ∧ |((div s fourPi).num : ℝ) - (xs.map t).sum / (4 * Real.pi)| ≤
      (xs.map t).sum / (4 * Real.pi) / 2 ^ 26 + 1 / 2 ^ 800 := by
  set W := (xs.map t).sum with hW
  have W0 : 0 ≤ W := List.sum_nonneg (by simpa using h0)
  have hlen : (xs.length : ℝ) ≤ 2 ^ 24 := by exact_mod_cast hn
  have W1 : W ≤ 2 ^ 224 := by
    have := List.sum_le_card_nsmul (xs.map t) (2 ^ 200) (by simpa using hb)
    rw [List.length_map, nsmul_eq_mul] at this
    refine this.trans ?_
    calc (xs.length : ℝ) * 2 ^ 200 ≤ 2 ^ 24 * 2 ^ 200 := by gcongr
      _ = 2 ^ 224 := by rw [← pow_add]
  have c0 : (2 : ℝ) ^ 24 * (1 / 2 ^ 900) ≤ 1 / 2 ^ 876 := by
    rw [show (2 : ℝ) ^ 900 = 2 ^ 876 * 2 ^ 24 by rw [← pow_add], mul_one_div, div_mul_cancel_right₀ (by positivity), one_div]
  have c1 : (1 : ℝ) / 2 ^ 876 * 16 ≤ 1 / 2 ^ 800 := by
    rw [show (2 : ℝ) ^ 876 = 2 ^ 800 * 2 ^ 76 by rw [← pow_add], one_div_mul_eq_div, div_le_div_iff₀ (by positivity) (by positivity)]
    have : (0 : ℝ) < 2 ^ 800 := by positivity
    nlinarith
  have c2 : (1 : ℝ) / 2 ^ 1000 ≤ 1 / 2 ^ 876 := by gcongr <;> norm_num
  have c3 : (1 : ℝ) / 2 ^ 876 ≤ 1 := by rw [div_le_one (by positivity)]; exact one_le_pow₀ (by norm_num)
  have c4 : (0 : ℝ) < 1 / 2 ^ 876 := by positivity
  set Q : ℝ := (((xs.map fun x => (T x).num).sum : ℚ) : ℝ) with hQ
  have hQ' : Q = (xs.map fun x => ((T x).num : ℝ)).sum := by
    rw [hQ, Rat.cast_list_sum, List.map_map]
    rfl
  have k1 : |Q - W| ≤ W / 2 ^ 50 + 1 / 2 ^ 876 := by
    rw [hQ']
    refine (sum_err xs he).trans ?_
    have : (xs.length : ℝ) * (1 / 2 ^ 900) ≤ 2 ^ 24 * (1 / 2 ^ 900) := by gcongr
    linarith
  have Q1 : Q ≤ 2 ^ 226 := by
    have := (abs_le.1 k1).2
    have : W / 2 ^ 50 ≤ W := div_le_self W0 (by norm_num)
    norm_num at *
    linarith
  -- the sum
  have k2 : NonNeg s ∧ |(s.num : ℝ) - Q| ≤ Q / 2 ^ 27 := by
    rcases hs with ⟨e, rfl⟩ | ⟨-, tr, ss, hp, rfl⟩
    · have : xs = [] := by simpa using e
      subst this
      refine ⟨nonneg_of (fd_zero _) (by rw [num_zero]), ?_⟩
      simp [hQ, num_zero]
    · have hz : ∀ x ∈ tr.terms, NonNeg x := by
        intro x hx
        rcases List.mem_append.1 (hp.mem_iff.1 hx) with hx | hx
        · obtain ⟨y, hy, rfl⟩ := List.mem_map.1 hx
          exact hT y hy
        · obtain ⟨b, -, rfl⟩ := List.mem_map.1 hx
          exact nonneg_of (fd_zero _) (by rw [num_zero])
      have ec : count tr.terms ≤ xs.length := by
        unfold FloatEnergy.count
        rw [(hp.filter _).length_eq, List.filter_append, List.length_append]
        have : (ss.map fun s => fin s 0).filter (fun x => decide (x.num ≠ 0)) = [] := by
          rw [List.filter_eq_nil_iff]
          intro x hx
          obtain ⟨b, -, rfl⟩ := List.mem_map.1 hx
          simp [num_zero]
        rw [this, List.length_nil, add_zero]
        exact (List.length_filter_le _ _).trans (by simp)
      have et : (FloatEnergy.total tr.terms : ℝ) = Q := by
        unfold FloatEnergy.total
        rw [(hp.map num).sum_eq, List.map_append, List.sum_append, List.map_map, List.map_map]
        have : (ss.map (num ∘ fun s => fin s 0)).sum = 0 := by
          apply List.sum_eq_zero
          intro x hx
          obtain ⟨b, -, rfl⟩ := List.mem_map.1 hx
          exact num_zero b
        rw [this, add_zero, hQ]
        rfl
      have ht : FloatEnergy.total tr.terms ≤ 2 ^ (1000 : ℤ) := by
        have : ((FloatEnergy.total tr.terms : ℚ) : ℝ) ≤ ((2 ^ (226 : ℤ) : ℚ) : ℝ) := by
          rw [et, FloatClose.pow_cast]
          refine Q1.trans (le_of_eq ?_)
          norm_cast
        exact ((Rat.cast_le (K := ℝ)).1 this).trans (two_zpow_le (by norm_num))
      obtain ⟨⟨b, q, e1, hd, -, hz'⟩, hr⟩ := tree_sum tr hz (by omega) ht
      refine ⟨⟨b, q, e1, hd, hz'⟩, ?_⟩
      have herr := hr.err
      rw [et] at herr
      have Q0 : 0 ≤ Q := by rw [← et]; exact hr.pos
      refine herr.trans ?_
      have := pow_w_small (ec.trans hn)
      calc (w ^ count tr.terms - 1) * Q ≤ 1 / 2 ^ 27 * Q := by gcongr
        _ = Q / 2 ^ 27 := by ring
  obtain ⟨ns, k2⟩ := k2
  have s0 : (0 : ℝ) ≤ s.num := by exact_mod_cast ns.num_nonneg
  -- the quotient
  have hF := FloatFactors.ap_fourPi.err
  have hFd := FloatFactors.ap_fourPi.fd
  have pp : (12 : ℝ) < 4 * Real.pi := by linarith [Real.pi_gt_three]
  have hFe : |(fourPi.num : ℝ) - 4 * Real.pi| ≤ 4 * Real.pi / 2 ^ 52 := by
    refine hF.trans (le_of_eq ?_)
    unfold w
    ring
  have F0 : (11 : ℝ) < fourPi.num := by
    have := (abs_le.1 hFe).1
    have : 4 * Real.pi / 2 ^ 52 ≤ 4 * Real.pi / 100 := by gcongr; norm_num
    linarith
  have F0' : fourPi.num ≠ 0 := by
    intro h
    rw [h] at F0
    norm_num at F0
  have q0 : 0 ≤ (s.num : ℝ) / fourPi.num := div_nonneg s0 (by linarith)
  have S1 : (s.num : ℝ) ≤ 2 ^ 227 := by
    have := (abs_le.1 k2).2
    have h5 : Q / 2 ^ 27 ≤ 2 ^ 226 / 2 ^ 27 := by gcongr
    norm_num at *
    linarith
  have q1 : (s.num : ℝ) / fourPi.num ≤ 2 ^ 227 := (div_le_self s0 (by linarith)).trans S1
  have hm : |s.num / fourPi.num| ≤ maxDouble := le_max_of_real (k := 227) (by push_cast; rw [abs_of_nonneg q0]; exact q1) (by norm_num)
  obtain ⟨g1, g2⟩ := div_num (NonNeg.fd ns) hFd F0' hm
  have hq : 0 ≤ s.num / fourPi.num := by
    have : (0 : ℝ) ≤ ((s.num / fourPi.num : ℚ) : ℝ) := by push_cast; exact q0
    exact_mod_cast this
  refine ⟨nonneg_of g1 (by rw [g2]; exact rnd_nonneg hq), ?_⟩
  have g3 := real_err (s.num / fourPi.num)
  push_cast at g3
  rw [← g2, abs_of_nonneg q0] at g3
  have g4 : |(s.num : ℝ) / fourPi.num - s.num / (4 * Real.pi)| ≤ s.num / (4 * Real.pi) / 2 ^ 51 := by
    have e : (s.num : ℝ) / fourPi.num - s.num / (4 * Real.pi) = s.num / (4 * Real.pi) * ((4 * Real.pi - fourPi.num) / fourPi.num) := by
      have : (fourPi.num : ℝ) ≠ 0 := by linarith
      field_simp
    rw [e, abs_mul, abs_of_nonneg (by positivity), div_eq_mul_one_div (_ / _) ((2 : ℝ) ^ 51)]
    refine mul_le_mul_of_nonneg_left ?_ (by positivity)
    rw [abs_div, abs_sub_comm, abs_of_pos (by linarith : (0 : ℝ) < fourPi.num), div_le_iff₀ (by linarith)]
    refine hFe.trans ?_
    have h6 := (abs_le.1 hFe).1
    have h7 : 4 * Real.pi / 2 ^ 52 ≤ 4 * Real.pi / 2 := by gcongr; norm_num
    have h8 : 4 * Real.pi ≤ 2 * fourPi.num := by linarith
    have h9 : 4 * Real.pi / 2 ^ 52 ≤ 2 * fourPi.num / 2 ^ 52 := by gcongr
    norm_num at h9 ⊢
    linarith
  -- together
  have eS : (s.num : ℝ) / (4 * Real.pi) - Q / (4 * Real.pi) = (s.num - Q) / (4 * Real.pi) := by ring
  have eW : Q / (4 * Real.pi) - W / (4 * Real.pi) = (Q - W) / (4 * Real.pi) := by ring
  have z1 : |(s.num : ℝ) / (4 * Real.pi) - Q / (4 * Real.pi)| ≤ Q / (4 * Real.pi) / 2 ^ 27 := by
    rw [eS, abs_div, abs_of_pos (by linarith : (0 : ℝ) < 4 * Real.pi), div_right_comm]
    gcongr
  have z2 : |Q / (4 * Real.pi) - W / (4 * Real.pi)| ≤ W / (4 * Real.pi) / 2 ^ 50 + 1 / 2 ^ 876 := by
    rw [eW, abs_div, abs_of_pos (by linarith : (0 : ℝ) < 4 * Real.pi), div_le_iff₀ (by linarith)]
    refine k1.trans ?_
    have e : (W / (4 * Real.pi) / 2 ^ 50 + 1 / 2 ^ 876) * (4 * Real.pi) = W / 2 ^ 50 + 1 / 2 ^ 876 * (4 * Real.pi) := by
      field_simp
    rw [e]
    have : (1 : ℝ) / 2 ^ 876 * 1 ≤ 1 / 2 ^ 876 * (4 * Real.pi) := by gcongr; linarith
    linarith
  have W0' : 0 ≤ W / (4 * Real.pi) := by positivity
  generalize (1 : ℝ) / 2 ^ 876 = t1 at *
  generalize (1 : ℝ) / 2 ^ 1000 = t2 at *
  generalize (1 : ℝ) / 2 ^ 800 = t3 at *
  generalize W / (4 * Real.pi) = A at *
  generalize Q / (4 * Real.pi) = B at *
  generalize (s.num : ℝ) / (4 * Real.pi) = C at *
  generalize (s.num : ℝ) / fourPi.num = D at *
  generalize ((div s fourPi).num : ℝ) = E at *
  clear * - z1 z2 g3 g4 W0' c1 c2 c4
  rw [abs_le] at *
  norm_num at *
  constructor <;> linarith

theorem tol_size {A R M t : ℝ} (h1 : 0 ≤ A) (h2 : A ≤ 1) (h3 : 0 ≤ R) (h4 : R ≤ 2 ^ 200) (h5 : |M - R| ≤ R / 2 ^ 53 + t) (h6 : t ≤ 1 / 2 ^ 100)
    : |A + M| ≤ A + (2 * R + 1 / 2 ^ 100) ∧ |A + M| ≤ 2 ^ 202 := by
  rw [abs_le] at h5
  rw [abs_le, abs_le]
  norm_num at *
  refine ⟨⟨?_, ?_⟩, ?_, ?_⟩ <;> linarith

/-- Numbers that are close enough are found close. -/
theorem close_ok {x y : PyFloat} (hx : Fd x) (hy : Fd y) (x1 : |(x.num : ℝ)| ≤ 2 ^ 200) (y1 : |(y.num : ℝ)| ≤ 2 ^ 200)
    (h : |(x.num : ℝ) - y.num| ≤ 1 / 10 ^ 9 + 9 / 10 ^ 6 * |(y.num : ℝ)|) : close x y = true := by
  obtain ⟨⟨⟨r1, r2, r3⟩, ⟨a1, a2, a3⟩⟩, d1, d2⟩ := FloatClose.defaults_good
  have t0 : (1 : ℝ) / 2 ^ 1000 ≤ 1 / 2 ^ 100 := by gcongr <;> norm_num
  have hd : |(x.num : ℝ) - y.num| ≤ 2 ^ 202 := by
    refine (abs_sub _ _).trans ?_
    norm_num at *
    linarith
  obtain ⟨f1, f2⟩ := sub_real hx hy hd (by norm_num)
  obtain ⟨g1, g2⟩ := fabs_fd f1
  obtain ⟨k1, k2⟩ := fabs_fd hy
  have k2' : ((FloatParker.fabs y).num : ℝ) = |(y.num : ℝ)| := by rw [k2]; push_cast; rfl
  have g2' : ((FloatParker.fabs (sub x y)).num : ℝ) = |((sub x y).num : ℝ)| := by rw [g2]; push_cast; rfl
  have y0 := abs_nonneg (y.num : ℝ)
  have r2' : (0 : ℝ) ≤ FloatClose.defaults.rtol.num := by exact_mod_cast r2
  have a2' : (0 : ℝ) ≤ FloatClose.defaults.atol.num := by exact_mod_cast a2
  have r4 : (FloatClose.defaults.rtol.num : ℝ) ≤ 1 := by
    have := (abs_le.1 d1).2
    norm_num at this ⊢
    linarith
  have a4 : (FloatClose.defaults.atol.num : ℝ) ≤ 1 := by
    have := (abs_le.1 d2).2
    norm_num at this ⊢
    linarith
  have m0 : 0 ≤ (FloatClose.defaults.rtol.num : ℝ) * |(y.num : ℝ)| := mul_nonneg r2' y0
  have m1 : (FloatClose.defaults.rtol.num : ℝ) * |(y.num : ℝ)| ≤ 2 ^ 200 :=
    (mul_le_of_le_one_left y0 r4).trans y1
  obtain ⟨p1, p2⟩ := mul_real r1 k1 (k := 200) (by rw [k2', abs_of_nonneg m0]; exact m1) (by norm_num)
  rw [k2', abs_of_nonneg m0] at p2
  obtain ⟨e3, m2⟩ := tol_size a2' a4 m0 m1 p2 t0
  obtain ⟨q1, q2⟩ := add_real a1 p1 m2 (by norm_num)
  have hle : FloatClose.le (FloatParker.fabs (sub x y)) (add FloatClose.defaults.atol (mul FloatClose.defaults.rtol (FloatParker.fabs y))) = true := by
    rw [FloatClose.le_fin g1 q1, ← Rat.cast_le (K := ℝ), g2']
    have e1 : |((sub x y).num : ℝ)| ≤ |(x.num : ℝ) - y.num| + |((sub x y).num : ℝ) - (x.num - y.num)| := by
      have := abs_add_le ((x.num : ℝ) - y.num) ((sub x y).num - (x.num - y.num))
      rwa [add_sub_cancel] at this
    have e2 : (1 / 10 ^ 5 - 1 / 10 ^ 5 / 2 ^ 53) * |(y.num : ℝ)| ≤ FloatClose.defaults.rtol.num * |(y.num : ℝ)| := by
      refine mul_le_mul_of_nonneg_right ?_ y0
      have := (abs_le.1 d1).1
      linarith
    have e4 : FloatClose.defaults.rtol.num * |(y.num : ℝ)| ≤ (1 / 10 ^ 5 + 1 / 10 ^ 5 / 2 ^ 53) * |(y.num : ℝ)| := by
      refine mul_le_mul_of_nonneg_right ?_ y0
      have := (abs_le.1 d1).2
      linarith
    have q3 := (abs_le.1 q2).1
    have p3 := (abs_le.1 p2).1
    have a5 := (abs_le.1 d2).1
    have a6 := (abs_le.1 d2).2
    clear p2 q2 d1 d2 m2
    generalize (FloatClose.defaults.rtol.num : ℝ) * |(y.num : ℝ)| = R at *
    generalize |(FloatClose.defaults.atol.num : ℝ) + (mul FloatClose.defaults.rtol (FloatParker.fabs y)).num| = U at *
    generalize ((add FloatClose.defaults.atol (mul FloatClose.defaults.rtol (FloatParker.fabs y))).num : ℝ) = V at *
    generalize ((mul FloatClose.defaults.rtol (FloatParker.fabs y)).num : ℝ) = M at *
    generalize (FloatClose.defaults.atol.num : ℝ) = A at *
    generalize |((sub x y).num : ℝ) - (x.num - y.num)| = D at *
    generalize |(x.num : ℝ) - y.num| = Z at *
    generalize |((sub x y).num : ℝ)| = N at *
    generalize |(y.num : ℝ)| = Y at *
    generalize (1 : ℝ) / 2 ^ 1000 = t at *
    clear * - h t0 f2 y0 e1 e2 e3 e4 q3 p3 a5 a6
    norm_num at *
    linarith
  simp [close, hle, FloatClose.isFin_of hy]

/-- The square of a root known up to rounding. -/
theorem root_sq {q r : ℝ} (hq : 0 ≤ q) (h : |r - Real.sqrt q| ≤ Real.sqrt q / 2 ^ 50) : |r ^ 2 - q| ≤ q / 2 ^ 48 := by
  have hs := Real.sqrt_nonneg q
  have e := Real.sq_sqrt hq
  generalize Real.sqrt q = s at *
  rw [← e]
  have e1 : r ^ 2 - s ^ 2 = (r - s) * (r - s) + 2 * s * (r - s) := by ring
  have h1 : |r ^ 2 - s ^ 2| ≤ |r - s| * |r - s| + 2 * s * |r - s| := by
    rw [e1]
    refine (abs_add_le _ _).trans ?_
    rw [abs_mul, abs_mul (2 * s), abs_of_nonneg (by positivity : 0 ≤ 2 * s)]
  refine h1.trans ?_
  have hy := abs_nonneg (r - s)
  generalize |r - s| = y at *
  have h2 : y * y ≤ s / 2 ^ 50 * (s / 2 ^ 50) := mul_le_mul h h hy (by positivity)
  have h3 : 2 * s * y ≤ 2 * s * (s / 2 ^ 50) := mul_le_mul_of_nonneg_left h (by positivity)
  have e2 : s / 2 ^ 50 * (s / 2 ^ 50) = s ^ 2 / 2 ^ 100 := by ring
  have e3 : 2 * s * (s / 2 ^ 50) = 2 * s ^ 2 / 2 ^ 50 := by ring
  rw [e2] at h2
  rw [e3] at h3
  have := sq_nonneg s
  generalize s ^ 2 = q at *
  norm_num at *
  linarith

/-- A rounded square of a rounded root. -/
theorem square_root {q r x t : ℝ} (hq : 0 ≤ q) (h : |r - Real.sqrt q| ≤ Real.sqrt q / 2 ^ 50) (hx : |x - r ^ 2| ≤ r ^ 2 / 2 ^ 50 + t) :
    |x - q| ≤ q / 2 ^ 47 + t := by
  have h1 := root_sq hq h
  generalize r ^ 2 = p at *
  rw [abs_le] at *
  norm_num at *
  constructor <;> linarith

/-- The statistical identity up to rounding. -/
theorem identity {M R m A V Q W X Y₁ Y₂ Y τ t : ℝ} (M0 : 0 ≤ M) (M1 : M ≤ 2 ^ 62) (m0 : 0 ≤ m) (R0 : 0 ≤ R) (V0 : 0 ≤ V) (hV : V = R - 2 * M * m + M ^ 2 * A)
    (hA : |A - 1| ≤ 1 / 2 ^ 17) (hM : |M - m| ≤ m / 2 ^ 26 + τ) (hQ : |Q - R| ≤ R / 2 ^ 26 + τ) (hW : |W - V| ≤ V / 2 ^ 26 + τ)
    (hX : |X - Q| ≤ Q / 2 ^ 47 + t) (h1 : |Y₁ - M ^ 2| ≤ M ^ 2 / 2 ^ 50 + t) (h2 : |Y₂ - W| ≤ W / 2 ^ 47 + t)
    (hY : |Y - (Y₁ + Y₂)| ≤ |Y₁ + Y₂| / 2 ^ 53 + t) (τ0 : 0 ≤ τ) (τ1 : τ ≤ 1 / 2 ^ 200) (t0 : 0 ≤ t) (t1 : t ≤ 1 / 2 ^ 200) :
    |X - Y| ≤ 1 / 10 ^ 9 + 9 / 10 ^ 6 * |Y| := by
  have p0 : 0 ≤ M ^ 2 := sq_nonneg M
  have a1 : |(M ^ 2 + V) - R| ≤ M ^ 2 * (1 / 2 ^ 17 + 1 / 2 ^ 23) + 1 / 2 ^ 130 := by
    have e : M ^ 2 + V - R = 2 * M * (M - m) + M ^ 2 * (A - 1) := by rw [hV]; ring
    rw [e]
    refine (abs_add_le _ _).trans ?_
    rw [abs_mul (2 * M), abs_mul (M ^ 2), abs_of_nonneg (by positivity : 0 ≤ 2 * M), abs_of_nonneg p0]
    have b1 : M ^ 2 * |A - 1| ≤ M ^ 2 * (1 / 2 ^ 17) := mul_le_mul_of_nonneg_left hA p0
    have b2 : m ≤ 2 * M + 2 * τ := by
      have := (abs_le.1 hM).1
      norm_num at this
      linarith
    have b3 : |M - m| ≤ M / 2 ^ 25 + 2 * τ := by
      refine hM.trans ?_
      norm_num at *
      linarith
    have b4 : 2 * M * |M - m| ≤ 2 * M * (M / 2 ^ 25 + 2 * τ) := mul_le_mul_of_nonneg_left b3 (by positivity)
    have b5 : M * τ ≤ 2 ^ 62 * (1 / 2 ^ 200) := mul_le_mul M1 τ1 τ0 (by positivity)
    have b6 : 2 * M * (M / 2 ^ 25 + 2 * τ) = M ^ 2 * (1 / 2 ^ 24) + 4 * (M * τ) := by ring
    rw [b6] at b4
    generalize M ^ 2 = P at *
    generalize M * τ = N at *
    norm_num at *
    linarith
  generalize M ^ 2 = P at *
  have s0 : 0 ≤ Y₁ + Y₂ + 1 / 2 ^ 190 := by
    rw [abs_le] at *
    norm_num at *
    linarith
  have hY' : |Y - (Y₁ + Y₂)| ≤ (Y₁ + Y₂) / 2 ^ 53 + 1 / 2 ^ 180 := by
    refine hY.trans ?_
    have : |Y₁ + Y₂| ≤ Y₁ + Y₂ + 2 * (1 / 2 ^ 190) := by
      rw [abs_le]
      constructor <;> linarith
    norm_num at *
    linarith
  have hYY := le_abs_self Y
  clear hY hV hM hA
  have c1 : |X - R| ≤ R / 2 ^ 25 + 1 / 2 ^ 150 := by
    rw [abs_le] at *
    norm_num at *
    constructor <;> linarith
  have c2 : |Y - (P + V)| ≤ (P + V) / 2 ^ 25 + 1 / 2 ^ 150 := by
    rw [abs_le] at *
    norm_num at *
    constructor <;> linarith
  clear hX hQ hW h1 h2 hY' s0
  generalize |Y| = Z at *
  rw [abs_le] at *
  norm_num at *
  constructor <;> linarith

end FloatDescribe
end Verif
