import Verif.Lemmas.FloatError
import Verif.Props.EnergyText

/-!
# Rounding to the nearest double, with sign

`rnd` is the value of a rounded operation as long as nothing overflows. It is odd and monotone, commutes with doubling outside
the subnormal numbers, and a sum of two doubles never suffers from underflow.

`Rel n x v` says that `x` and `v`, both not negative, differ at most by `n` factors `w = 1 + 2^-52`.
-/

set_option exponentiation.threshold 4000

namespace Verif
namespace FloatRound
open Spec PyFloat FloatRange FloatSets FloatCoords FloatError

/-- The double nearest to a number. -/
def rnd (q : ℚ) : ℚ := if 0 ≤ q then fl0 q else -fl0 (-q)

theorem rnd_nonneg_eq {q : ℚ} (h : 0 ≤ q) : rnd q = fl0 q := if_pos h

theorem rnd_zero : rnd 0 = 0 := by rw [rnd_nonneg_eq le_rfl, fl0_zero]

theorem rnd_neg (q : ℚ) : rnd (-q) = -rnd q := by
  unfold rnd
  rcases lt_trichotomy q 0 with h | rfl | h
  · rw [if_pos (by linarith), if_neg (by linarith), neg_neg]
  · simp [fl0_zero]
  · rw [if_neg (by linarith), if_pos h.le, neg_neg]

theorem rnd_abs (q : ℚ) : |rnd q| = fl0 |q| := by
  unfold rnd
  split_ifs with h
  · rw [abs_of_nonneg (fl0_nonneg h), abs_of_nonneg h]
  · have h' : 0 ≤ -q := by linarith
    rw [abs_neg, abs_of_nonneg (fl0_nonneg h'), abs_of_neg (by linarith)]

theorem rnd_nonneg {q : ℚ} (h : 0 ≤ q) : 0 ≤ rnd q := by rw [rnd_nonneg_eq h]; exact fl0_nonneg h

theorem rnd_mono {p q : ℚ} (h : p ≤ q) (hp : |p| ≤ maxDouble) (hq : |q| ≤ maxDouble) : rnd p ≤ rnd q := by
  rw [abs_le] at hp hq
  unfold rnd
  split_ifs with h1 h2 h2
  · exact EnergyText.fl0_mono h1 h hq.2
  · linarith
  · have := fl0_nonneg (q := -p) (by linarith)
    have := fl0_nonneg h2
    linarith
  · have := EnergyText.fl0_mono (p := -q) (q := -p) (by linarith) (by linarith) (by linarith)
    linarith

theorem num_fin (s : Bool) (a : ℚ) (h : 0 ≤ a) : (fin s (fl0 a)).num = rnd (fin s a).num := by
  cases s
  · simp only [num, Bool.false_eq_true, if_false]; rw [rnd_nonneg_eq h]
  · simp only [num, if_true]; rw [rnd_neg, rnd_nonneg_eq h]

theorem rnd_num {x : PyFloat} (h : Fd x) : rnd x.num = x.num := by
  obtain ⟨s, a, rfl, ha⟩ := h
  rw [← num_fin s a ha.nonneg, fl0_of_isDouble ha]

theorem abs_num {x : PyFloat} (h : Fd x) : IsDouble |x.num| := by
  obtain ⟨s, a, rfl, ha⟩ := h
  rw [num_abs s ha.nonneg]; exact ha

theorem rnd_double {q : ℚ} (h : IsDouble |q|) : rnd q = q := by
  unfold rnd
  split_ifs with h0
  · rw [abs_of_nonneg h0] at h; exact fl0_of_isDouble h
  · rw [abs_of_neg (by linarith)] at h; rw [fl0_of_isDouble h, neg_neg]

theorem ofMag_num (s : Bool) {q : ℚ} (hq : 0 ≤ q) (h : q ≤ maxDouble) :
    Fd (ofMag s q) ∧ (ofMag s q).num = rnd (fin s q).num := by
  rw [ofMag_of_le hq h]
  exact ⟨⟨s, _, rfl, fl0_dbl hq h⟩, num_fin s q hq⟩

theorem mul_num {x y : PyFloat} (hx : Fd x) (hy : Fd y) (h : |x.num * y.num| ≤ maxDouble) :
    Fd (PyFloat.mul x y) ∧ (PyFloat.mul x y).num = rnd (x.num * y.num) := by
  obtain ⟨s, a, rfl, ha⟩ := hx
  obtain ⟨t, b, rfl, hb⟩ := hy
  rw [← num_mul, num_abs _ (mul_nonneg ha.nonneg hb.nonneg)] at h
  rw [← num_mul]
  exact ofMag_num _ (mul_nonneg ha.nonneg hb.nonneg) h

theorem div_num {x y : PyFloat} (hx : Fd x) (hy : Fd y) (h0 : y.num ≠ 0) (h : |x.num / y.num| ≤ maxDouble) :
    Fd (PyFloat.div x y) ∧ (PyFloat.div x y).num = rnd (x.num / y.num) := by
  obtain ⟨s, a, rfl, ha⟩ := hx
  obtain ⟨t, b, rfl, hb⟩ := hy
  have hb0 : b ≠ 0 := by rintro rfl; exact h0 (num_zero t)
  rw [← num_div, num_abs _ (div_nonneg ha.nonneg hb.nonneg)] at h
  rw [← num_div]
  simp only [PyFloat.div, if_neg hb0]
  exact ofMag_num _ (div_nonneg ha.nonneg hb.nonneg) h

theorem add_num {x y : PyFloat} (hx : Fd x) (hy : Fd y) (h : |x.num + y.num| ≤ maxDouble) :
    Fd (PyFloat.add x y) ∧ (PyFloat.add x y).num = rnd (x.num + y.num) := by
  obtain ⟨s, a, rfl, ha⟩ := hx
  obtain ⟨t, b, rfl, hb⟩ := hy
  simp only [PyFloat.add]
  split_ifs with h0
  · rw [h0, rnd_zero]; exact ⟨fd_zero _, num_zero _⟩
  · have := ofMag_num (decide ((fin s a).num + (fin t b).num < 0)) (abs_nonneg _) h
    rw [num_add_core h0] at this
    exact this

theorem neg_num {x : PyFloat} (hx : Fd x) : Fd (PyFloat.neg x) ∧ (PyFloat.neg x).num = -x.num := by
  obtain ⟨s, a, rfl, ha⟩ := hx
  exact ⟨⟨!s, a, rfl, ha⟩, by cases s <;> simp [PyFloat.neg, num]⟩

theorem sub_num {x y : PyFloat} (hx : Fd x) (hy : Fd y) (h : |x.num - y.num| ≤ maxDouble) :
    Fd (PyFloat.sub x y) ∧ (PyFloat.sub x y).num = rnd (x.num - y.num) := by
  have := neg_num hy
  rw [sub_eq_add_neg] at h ⊢
  rw [← this.2] at h ⊢
  exact add_num hx this.1 h

/-! ### The size of the error -/

theorem rnd_sub_abs (q : ℚ) : |rnd q - q| = abs (fl0 |q| - |q|) := by
  unfold rnd
  split_ifs with h
  · rw [abs_of_nonneg h]
  · rw [abs_of_neg (a := q) (by linarith), ← abs_neg]; congr 1; ring

theorem rnd_rel {q : ℚ} (h : (2 : ℚ) ^ (-1022 : ℤ) ≤ |q| ∨ q = 0) : |rnd q - q| ≤ |q| / 2 ^ 53 := by
  rcases h with h | rfl
  · rw [rnd_sub_abs]; exact fl0_rel h
  · simp [rnd_zero]

theorem fd_multiple {x : PyFloat} (h : Fd x) : ∃ n : ℤ, x.num = n * 2 ^ (-1074 : ℤ) := by
  obtain ⟨s, a, rfl, ha⟩ := h
  obtain ⟨n, hn⟩ := ha.multiple
  cases s
  · exact ⟨n, by simp [num, hn]⟩
  · exact ⟨-n, by simp [num, hn]⟩

/-- A sum of two doubles is rounded with a small relative error, however small it is. -/
theorem rnd_add_rel {x y : PyFloat} (hx : Fd x) (hy : Fd y) : |rnd (x.num + y.num) - (x.num + y.num)| ≤ |x.num + y.num| / 2 ^ 53 := by
  by_cases h : (2 : ℚ) ^ (-1022 : ℤ) ≤ |x.num + y.num|
  · exact rnd_rel (Or.inl h)
  · rw [not_le] at h
    obtain ⟨n, hn⟩ := fd_multiple hx
    obtain ⟨k, hk⟩ := fd_multiple hy
    have e : |x.num + y.num| = ((n + k).natAbs : ℚ) * 2 ^ (-1074 : ℤ) := by
      rw [hn, hk, ← add_mul, abs_mul, abs_of_pos (a := (2 : ℚ) ^ (-1074 : ℤ)) (by positivity)]
      congr 1
      rw [Nat.cast_natAbs]; push_cast; rfl
    have hlt : (n + k).natAbs < 2 ^ 53 := by
      by_contra hc
      rw [not_lt] at hc
      have h1 : ((2 : ℚ) ^ 53) * 2 ^ (-1074 : ℤ) ≤ |x.num + y.num| := by
        rw [e]
        have : ((2 ^ 53 : ℕ) : ℚ) ≤ ((n + k).natAbs : ℚ) := by exact_mod_cast hc
        push_cast at this
        refine mul_le_mul_of_nonneg_right ?_ (by positivity)
        linarith
      have h2 : (2 : ℚ) ^ (-1022 : ℤ) ≤ (2 : ℚ) ^ 53 * 2 ^ (-1074 : ℤ) := by
        rw [← zpow_natCast, ← zpow_add₀ (by norm_num)]
        exact zpow_le_zpow_right₀ (by norm_num) (by norm_num)
      linarith
    have hd : IsDouble |x.num + y.num| := ⟨(n + k).natAbs, -1074, hlt, by norm_num, by norm_num, e⟩
    rw [rnd_double hd]
    simp only [sub_self, abs_zero]
    positivity

theorem fl0_two {q : ℚ} (h : (2 : ℚ) ^ (-1022 : ℤ) ≤ q) : fl0 (2 * q) = 2 * fl0 q := by
  have hq : 0 < q := lt_of_lt_of_le (by positivity) h
  have hl : Int.log 2 (2 * q) = Int.log 2 q + 1 := by
    have h1 := log_le (b := 2) (by norm_num) hq
    have h2 := lt_log (b := 2) (by norm_num) q
    push_cast at h1 h2
    refine log_eq (by norm_num) ?_ ?_
    · push_cast
      rw [zpow_add₀ (by norm_num), zpow_one]; linarith
    · push_cast
      rw [zpow_add₀ (a := (2 : ℚ)) (by norm_num) (Int.log 2 q + 1), zpow_one]; linarith
  have hl' : -1022 ≤ Int.log 2 q := by
    by_contra hc
    have h2 := lt_log (b := 2) (by norm_num) q
    push_cast at h2
    have : (2 : ℚ) ^ (Int.log 2 q + 1) ≤ 2 ^ (-1022 : ℤ) := zpow_le_zpow_right₀ (by norm_num) (by omega)
    linarith
  have e1 : flExp q = Int.log 2 q - 52 := max_eq_left (by omega)
  have e2 : flExp (2 * q) = flExp q + 1 := by
    rw [e1]; unfold flExp; rw [hl, max_eq_left (by omega)]; ring
  unfold fl0
  rw [e2, zpow_add₀ (by norm_num), zpow_one]
  have : 2 * q / (2 ^ flExp q * 2) = q / 2 ^ flExp q := by
    rw [mul_comm (2 ^ flExp q) 2, mul_div_mul_left _ _ (by norm_num)]
  rw [this]; ring

/-! ### Relative errors -/

/-- Both are not negative and differ by at most `n` factors `w`. -/
structure Rel (n : ℕ) (x v : ℝ) : Prop where
  pos : 0 ≤ v
  lower : v ≤ x * w ^ n
  upper : x ≤ v * w ^ n

namespace Rel
variable {n k : ℕ} {x y v u : ℝ}

theorem x_nonneg (h : Rel n x v) : 0 ≤ x := by
  have := h.pos.trans h.lower
  exact nonneg_of_mul_nonneg_left this (pow_pos w_pos n)

theorem refl (h : 0 ≤ v) : Rel n v v :=
  ⟨h, le_mul_of_one_le_right h (one_le_pow_w n), le_mul_of_one_le_right h (one_le_pow_w n)⟩

theorem mono (h : Rel n x v) (hk : n ≤ k) : Rel k x v := by
  have : w ^ n ≤ w ^ k := pow_le_pow_right₀ one_le_w hk
  exact ⟨h.pos, h.lower.trans (mul_le_mul_of_nonneg_left this h.x_nonneg),
    h.upper.trans (mul_le_mul_of_nonneg_left this h.pos)⟩

theorem trans (h : Rel n x v) (h' : Rel k y x) : Rel (n + k) y v := by
  refine ⟨h.pos, ?_, ?_⟩
  · calc v ≤ x * w ^ n := h.lower
      _ ≤ y * w ^ k * w ^ n := mul_le_mul_of_nonneg_right h'.lower (pow_nonneg w_pos.le _)
      _ = _ := by rw [pow_add]; ring
  · calc y ≤ x * w ^ k := h'.upper
      _ ≤ v * w ^ n * w ^ k := mul_le_mul_of_nonneg_right h.upper (pow_nonneg w_pos.le _)
      _ = _ := by rw [pow_add]; ring

theorem add (h : Rel n x v) (h' : Rel n y u) : Rel n (x + y) (v + u) :=
  ⟨add_nonneg h.pos h'.pos, by rw [add_mul]; exact add_le_add h.lower h'.lower,
    by rw [add_mul]; exact add_le_add h.upper h'.upper⟩

theorem mul (h : Rel n x v) (h' : Rel k y u) : Rel (n + k) (x * y) (v * u) := by
  have p := pow_nonneg w_pos.le n
  have q := pow_nonneg w_pos.le k
  refine ⟨mul_nonneg h.pos h'.pos, ?_, ?_⟩
  · calc v * u ≤ (x * w ^ n) * (y * w ^ k) := mul_le_mul h.lower h'.lower h'.pos (mul_nonneg h.x_nonneg p)
      _ = _ := by rw [pow_add]; ring
  · calc x * y ≤ (v * w ^ n) * (u * w ^ k) := mul_le_mul h.upper h'.upper h'.x_nonneg (mul_nonneg h.pos p)
      _ = _ := by rw [pow_add]; ring

theorem inv (h : Rel k y u) : Rel k y⁻¹ u⁻¹ := by
  have q := pow_pos w_pos k
  rcases h.pos.eq_or_lt with e | e
  · have : y = 0 := le_antisymm (by simpa [← e] using h.upper) h.x_nonneg
    rw [this, ← e, inv_zero]; exact refl le_rfl
  · have hy : 0 < y := by
      by_contra hc
      have := le_antisymm (not_lt.1 hc) h.x_nonneg
      have h1 := h.lower
      rw [this, zero_mul] at h1
      linarith
    refine ⟨inv_nonneg.2 h.pos, ?_, ?_⟩
    · rw [inv_eq_one_div, div_le_iff₀ e]
      calc (1 : ℝ) = y⁻¹ * y := (inv_mul_cancel₀ hy.ne').symm
        _ ≤ y⁻¹ * (u * w ^ k) := mul_le_mul_of_nonneg_left h.upper (inv_nonneg.2 hy.le)
        _ = _ := by ring
    · rw [inv_eq_one_div, div_le_iff₀ hy]
      calc (1 : ℝ) = u⁻¹ * u := (inv_mul_cancel₀ e.ne').symm
        _ ≤ u⁻¹ * (y * w ^ k) := mul_le_mul_of_nonneg_left h.lower (inv_nonneg.2 h.pos)
        _ = _ := by ring

theorem div (h : Rel n x v) (h' : Rel k y u) : Rel (n + k) (x / y) (v / u) := by
  rw [div_eq_mul_inv, div_eq_mul_inv]; exact h.mul h'.inv

theorem eq_zero (h : Rel n x 0) : x = 0 := le_antisymm (by simpa using h.upper) h.x_nonneg

theorem half (h : Rel n x v) : Rel n (x / 2) (v / 2) :=
  ⟨by have := h.pos; linarith, by have := h.lower; linarith, by have := h.upper; linarith⟩

/-- The error. -/
theorem err (h : Rel n x v) : |x - v| ≤ (w ^ n - 1) * v := by
  have p := one_le_pow_w n
  have h1 := h.lower
  have h2 := h.upper
  have h3 := h.pos
  rw [abs_le]
  constructor
  · have h4 : v - x ≤ (w ^ n - 1) * x := by linarith
    rcases le_total x v with hxv | hxv
    · have : (w ^ n - 1) * x ≤ (w ^ n - 1) * v := mul_le_mul_of_nonneg_left hxv (by linarith)
      linarith
    · have : 0 ≤ (w ^ n - 1) * v := mul_nonneg (by linarith) h3
      linarith
  · linarith

end Rel

/-- One rounding is one factor. -/
theorem rel_of_err {x v : ℝ} (hv : 0 ≤ v) (h : |x - v| ≤ v / 2 ^ 53) : Rel 1 x v := by
  rw [abs_le] at h
  refine ⟨hv, ?_, ?_⟩
  · rw [pow_one]
    have h1 : v * (1 - 1 / 2 ^ 53) ≤ x := by linarith [h.1]
    have h2 : v * (1 - 1 / 2 ^ 53) * w ≤ x * w := mul_le_mul_of_nonneg_right h1 w_pos.le
    have h3 : (1 : ℝ) ≤ (1 - 1 / 2 ^ 53) * w := by unfold w; norm_num
    calc v = v * 1 := (mul_one v).symm
      _ ≤ v * ((1 - 1 / 2 ^ 53) * w) := mul_le_mul_of_nonneg_left h3 hv
      _ ≤ _ := by linarith
  · rw [pow_one]
    unfold w
    linarith [h.2]

theorem rel_rnd {q : ℚ} (hq : 0 ≤ q) (h : (2 : ℚ) ^ (-1022 : ℤ) ≤ q ∨ q = 0) : Rel 1 (rnd q : ℚ) (q : ℝ) := by
  have := rnd_rel (q := q) (by rwa [abs_of_nonneg hq])
  rw [abs_of_nonneg hq] at this
  have h2 := (Rat.cast_le (K := ℝ)).2 this
  push_cast at h2
  exact rel_of_err (by exact_mod_cast hq) h2

theorem rel_rnd_add {x y : PyFloat} (hx : Fd x) (hy : Fd y) (h : 0 ≤ x.num + y.num) :
    Rel 1 (rnd (x.num + y.num) : ℚ) ((x.num : ℝ) + y.num) := by
  have := rnd_add_rel hx hy
  rw [abs_of_nonneg h] at this
  have h2 := (Rat.cast_le (K := ℝ)).2 this
  push_cast at h2
  exact rel_of_err (by exact_mod_cast h) h2

end FloatRound
end Verif
