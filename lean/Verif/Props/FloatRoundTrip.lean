import Verif.Props.FloatCoords

/-!
# Property C110: to spherical coordinates and back in double precision
-/

set_option exponentiation.threshold 4000

namespace Verif
open Spec PyFloat FloatRange FloatSets FloatCoords

/-- What is assumed of numpy's sine and cosine: for arguments of magnitude at most 4 they are doubles of magnitude at most
1, right to 2^-50, and exact at zero. -/
structure Spec.GoodSines (T : SineLib) : Prop where
  sin_close : ∀ x, FinD x → |x.num| ≤ 4 → FinD (T.sin x) ∧ |(T.sin x).num| ≤ 1 ∧ |((T.sin x).num : ℝ) - Real.sin x.num| ≤ 1 / 2 ^ 50
  cos_close : ∀ x, FinD x → |x.num| ≤ 4 → FinD (T.cos x) ∧ |(T.cos x).num| ≤ 1 ∧ |((T.cos x).num : ℝ) - Real.cos x.num| ≤ 1 / 2 ^ 50
  sin_zero : T.sin (fin false 0) = fin false 0
  cos_zero : T.cos (fin false 0) = fin false 1

/-- What is assumed of numpy's `arctan2`: the angle is a double of magnitude at most 4 whose cosine and sine are those of the
direction, up to 2^-49; at the origin it is just a number of magnitude at most 4. -/
structure Spec.GoodAzimuth (A : AngleLib) : Prop where
  num : ∀ y x, FinD y → FinD x → FinD (A.atan2 y x) ∧ |(A.atan2 y x).num| ≤ 4
  cos_close : ∀ y x, FinD y → FinD x → (x.num ≠ 0 ∨ y.num ≠ 0) →
    |Real.cos (A.atan2 y x).num - x.num / √((x.num : ℝ) ^ 2 + (y.num : ℝ) ^ 2)| ≤ 1 / 2 ^ 49
  sin_close : ∀ y x, FinD y → FinD x → (x.num ≠ 0 ∨ y.num ≠ 0) →
    |Real.sin (A.atan2 y x).num - y.num / √((x.num : ℝ) ^ 2 + (y.num : ℝ) ^ 2)| ≤ 1 / 2 ^ 49

namespace FloatCoords

/-- The error of a product. -/
theorem mul_err {x y : PyFloat} (hx : FinD x) (hy : FinD y) (h : |x.num * y.num| ≤ maxDouble) :
    FinD (PyFloat.mul x y) ∧ |(PyFloat.mul x y).num - x.num * y.num| ≤ |x.num * y.num| / 2 ^ 53 + 2 ^ (-1075 : ℤ) := by
  obtain ⟨s, a, rfl, da⟩ := hx
  obtain ⟨t, b, rfl, db⟩ := hy
  have hab : |(fin s a).num * (fin t b).num| = a * b := by rw [abs_mul, abs_num _ da.nonneg, abs_num _ db.nonneg]
  rw [hab] at h ⊢
  have h0 : 0 ≤ a * b := mul_nonneg da.nonneg db.nonneg
  have e : PyFloat.mul (fin s a) (fin t b) = fin (s != t) (fl0 (a * b)) := ofMag_of_le h0 h
  rw [e]
  refine ⟨⟨_, _, rfl, fl0_dbl h0 h⟩, ?_⟩
  have h1 := fl0_err h0
  cases s <;> cases t <;> simp only [PyFloat.num, bne_self_eq_false, Bool.false_eq_true, if_false, if_true, Bool.true_bne,
    Bool.false_bne, Bool.not_false, neg_mul, mul_neg, neg_neg] <;>
    first | exact h1 | (rw [← neg_sub', abs_neg]; exact h1)

/-- Magnitudes for the product of radius, sine and cosine. -/
theorem mul_le_max {x y : ℚ} (hx : |x| ≤ 2 ^ (1000 : ℤ)) (hy : |y| ≤ 1) : |x * y| ≤ maxDouble := by
  rw [abs_mul]
  calc |x| * |y| ≤ 2 ^ (1000 : ℤ) * 1 := mul_le_mul hx hy (abs_nonneg _) (by positivity)
    _ ≤ _ := by rw [mul_one]; exact (zpow_le (by norm_num)).trans big_le_max

/-- One product, in reals. -/
theorem mul_real {x y : PyFloat} (hx : FinD x) (hy : FinD y) (h : |x.num| ≤ 2 ^ (1000 : ℤ)) (hy1 : |y.num| ≤ 1) {ρ : ℝ}
    (hρ : (2 : ℝ) ^ (-511 : ℤ) ≤ ρ) (hx' : |(x.num : ℝ)| ≤ 2 * ρ) :
    FinD (PyFloat.mul x y) ∧ |((PyFloat.mul x y).num : ℝ) - x.num * y.num| ≤ ρ / 2 ^ 51 := by
  obtain ⟨h1, h2⟩ := mul_err hx hy (mul_le_max h hy1)
  refine ⟨h1, ?_⟩
  have h3 := (Rat.cast_le (K := ℝ)).2 h2
  rw [Rat.cast_abs, Rat.cast_sub, Rat.cast_mul, Rat.cast_add, Rat.cast_div, Rat.cast_abs, Rat.cast_mul, Rat.cast_zpow,
    Rat.cast_pow, Rat.cast_ofNat] at h3
  refine h3.trans ?_
  have h4 : |(x.num : ℝ) * y.num| ≤ 2 * ρ := by
    rw [abs_mul]
    have : |(y.num : ℝ)| ≤ 1 := by exact_mod_cast hy1
    calc _ ≤ |(x.num : ℝ)| * 1 := mul_le_mul_of_nonneg_left this (abs_nonneg _)
      _ ≤ _ := by rw [mul_one]; exact hx'
  have h5 : (2 : ℝ) ^ (-1075 : ℤ) ≤ ρ / 2 ^ 53 := by
    calc (2 : ℝ) ^ (-1075 : ℤ) ≤ 2 ^ (-511 - 53 : ℤ) := zpow_le_zpow_right₀ (by norm_num) (by norm_num)
      _ = 2 ^ (-511 : ℤ) / 2 ^ 53 := by rw [zpow_sub₀ (by norm_num), show (2 : ℝ) ^ (53 : ℤ) = 2 ^ 53 by norm_num]
      _ ≤ _ := div_le_div_of_nonneg_right hρ (by positivity)
  have h6 : 0 < ρ := lt_of_lt_of_le (by positivity) hρ
  generalize (2 : ℝ) ^ (-1075 : ℤ) = t at *
  linarith

/-- Errors of a product of two real numbers. -/
theorem prod_err {a b A B α β : ℝ} (h1 : |a - A| ≤ α) (h2 : |b - B| ≤ β) : |a * b - A * B| ≤ α * |b| + |A| * β := by
  have e : a * b - A * B = (a - A) * b + A * (b - B) := by ring
  rw [e]
  refine (abs_add_le _ _).trans ?_
  rw [abs_mul, abs_mul]
  gcongr

theorem toRect_ok {T : SineLib} {os : List (PyFloat × PyFloat × PyFloat)}
    (h : ∀ o ∈ os, FinD (rawRect T o).1 ∧ FinD (rawRect T o).2.1 ∧ FinD (rawRect T o).2.2) :
    toRect T os = .ok (os.map (rawRect T)) := by
  have k : ∀ {x : PyFloat}, FinD x → isNan x = false := by
    rintro x ⟨s, a, rfl, -⟩; rfl
  have h1 : ∀ o ∈ os, isNan (rawRect T o).1 = false := fun o ho => k (h o ho).1
  have h2 : ∀ o ∈ os, isNan (rawRect T o).2.1 = false := fun o ho => k (h o ho).2.1
  have h3 : ∀ o ∈ os, isNan (rawRect T o).2.2 = false := fun o ho => k (h o ho).2.2
  simp only [toRect, resAssert, if_pos h1, if_pos h2, if_pos h3]
  rfl

/-- A horizontal coordinate: the distance from the axis times a cosine or sine of the azimuth. -/
theorem horizontal {m C : PyFloat} (hm : FinD m) (hC : FinD C) (hC1 : |C.num| ≤ 1) (hm' : |m.num| ≤ 2 ^ (1000 : ℤ))
    {ρ s X D : ℝ} (hρ : (2 : ℝ) ^ (-511 : ℤ) ≤ ρ) (hs0 : 0 ≤ s) (hs : s ≤ ρ) (h1 : |(m.num : ℝ) - s| ≤ ρ * (9 / 8 / 2 ^ 22))
    (hD : s * D = X) (hCD : |(C.num : ℝ) - D| ≤ 1 / 2 ^ 48) :
    FinD (PyFloat.mul m C) ∧ |((PyFloat.mul m C).num : ℝ) - X| ≤ ρ / 2 ^ 21 := by
  have hρ0 : 0 < ρ := lt_of_lt_of_le (by positivity) hρ
  have hm2 : |(m.num : ℝ)| ≤ 2 * ρ := by
    rw [abs_le] at h1 ⊢
    constructor <;> linarith [h1.1, h1.2]
  obtain ⟨h2, h3⟩ := mul_real hm hC hm' hC1 hρ hm2
  refine ⟨h2, ?_⟩
  have hC1' : |(C.num : ℝ)| ≤ 1 := by exact_mod_cast hC1
  have h4 := prod_err h1 hCD
  rw [hD, abs_of_nonneg hs0] at h4
  have h5 : ρ * (9 / 8 / 2 ^ 22) * |(C.num : ℝ)| ≤ ρ * (9 / 8 / 2 ^ 22) * 1 := by gcongr
  have h6 : s * (1 / 2 ^ 48) ≤ ρ * (1 / 2 ^ 48) := by gcongr
  have h7 : |(m.num : ℝ) * C.num - X| ≤ ρ * (9 / 8 / 2 ^ 22) * 1 + ρ * (1 / 2 ^ 48) := h4.trans (add_le_add h5 h6)
  rw [abs_le] at h3 h7 ⊢
  constructor <;> linarith [h3.1, h3.2, h7.1, h7.2]

/-- A direction cosine to multiply the distance from the axis with. -/
theorem direction {a b X : ℚ} {c g s : ℝ} (hs : s = √((a : ℝ) ^ 2 + (b : ℝ) ^ 2)) (h1 : |c - g| ≤ 1 / 2 ^ 50)
    (h2 : (X : ℝ) ^ 2 ≤ s * s) (h3 : (a ≠ 0 ∨ b ≠ 0) → |g - X / s| ≤ 1 / 2 ^ 49) :
    ∃ D : ℝ, s * D = X ∧ |c - D| ≤ 1 / 2 ^ 48 := by
  by_cases h4 : a ≠ 0 ∨ b ≠ 0
  · have spos : 0 < s := by
      rw [hs]
      apply Real.sqrt_pos.2
      rcases h4 with h | h
      · have : (a : ℝ) ≠ 0 := by exact_mod_cast h
        positivity
      · have : (b : ℝ) ≠ 0 := by exact_mod_cast h
        positivity
    refine ⟨X / s, mul_div_cancel₀ _ spos.ne', ?_⟩
    have h5 := h3 h4
    rw [abs_le] at h1 h5 ⊢
    constructor <;> linarith [h1.1, h1.2, h5.1, h5.2]
  · rw [not_or, not_not, not_not] at h4
    have s0 : s = 0 := by rw [hs, h4.1, h4.2]; simp
    rw [s0, mul_zero] at h2
    have hX : (X : ℝ) = 0 := pow_eq_zero_iff (two_ne_zero) |>.1 (le_antisymm h2 (sq_nonneg _))
    exact ⟨c, by rw [s0, zero_mul, hX], by rw [sub_self, abs_zero]; positivity⟩

theorem finD_fin {s : Bool} {a : ℚ} (h : IsDouble a) : FinD (fin s a) := ⟨s, a, rfl, h⟩

set_option maxHeartbeats 800000 in
/-- One point there and back. -/
theorem back {A : AngleLib} (hA : GoodAngles A) (hZ : GoodAzimuth A) {T : SineLib} (hT : GoodSines T)
    {p : PyFloat × PyFloat × PyFloat} (hin : InRange p) :
    (FinD (rawRect T (raw A p)).1 ∧ FinD (rawRect T (raw A p)).2.1 ∧ FinD (rawRect T (raw A p)).2.2) ∧
      |((rawRect T (raw A p)).1.num : ℝ) - p.1.num| ≤ distance p / 2 ^ 21 ∧
      |((rawRect T (raw A p)).2.1.num : ℝ) - p.2.1.num| ≤ distance p / 2 ^ 21 ∧
      |((rawRect T (raw A p)).2.2.num : ℝ) - p.2.2.num| ≤ distance p / 2 ^ 47 := by
  obtain ⟨r, θ, er, eθ, -, dr, dθ, hle, hr, hcos, hθ⟩ := located hA hin
  obtain ⟨fx, fy, fz⟩ := hin.fin
  have eφ : (raw A p).2.2 = A.atan2 p.2.1 p.1 := rfl
  obtain ⟨dφ, kφ⟩ := hZ.num p.2.1 p.1 fy fx
  set φ := A.atan2 p.2.1 p.1 with hφ
  set ρ := distance p with hρdef
  have hsq : ρ * ρ = (p.1.num : ℝ) ^ 2 + (p.2.1.num : ℝ) ^ 2 + (p.2.2.num : ℝ) ^ 2 := by
    rw [hρdef, distance, Real.mul_self_sqrt (by positivity)]
  have hρ0 : 0 ≤ ρ := Real.sqrt_nonneg _
  have habs : ∀ {v : ℝ}, v ^ 2 ≤ ρ * ρ → |v| ≤ ρ := by
    intro v hv
    rw [← pow_two] at hv
    exact abs_le_of_sq_le_sq hv hρ0
  have qx := sq_nonneg (p.1.num : ℝ)
  have qy := sq_nonneg (p.2.1.num : ℝ)
  have qz := sq_nonneg (p.2.2.num : ℝ)
  have ax : |(p.1.num : ℝ)| ≤ ρ := habs (by rw [hsq]; linarith)
  have ay : |(p.2.1.num : ℝ)| ≤ ρ := habs (by rw [hsq]; linarith)
  have az : |(p.2.2.num : ℝ)| ≤ ρ := habs (by rw [hsq]; linarith)
  have hρ : (2 : ℝ) ^ (-511 : ℤ) ≤ ρ := by
    have k : ∀ {q : ℚ}, (2 : ℚ) ^ (-511 : ℤ) ≤ |q| → (2 : ℝ) ^ (-511 : ℤ) ≤ |(q : ℝ)| := by
      intro q hq
      have := (Rat.cast_le (K := ℝ)).2 hq
      rwa [Rat.cast_abs, Rat.cast_zpow, Rat.cast_ofNat] at this
    rcases hin.ge with h | h | h
    · exact (k h).trans ax
    · exact (k h).trans ay
    · exact (k h).trans az
  have hρpos : 0 < ρ := lt_of_lt_of_le (by positivity) hρ
  have hρup : ρ ≤ 2 ^ (511 : ℤ) := by
    have k : ∀ {q : ℚ}, |q| ≤ (2 : ℚ) ^ (510 : ℤ) → (q : ℝ) ^ 2 ≤ (2 ^ (510 : ℤ)) ^ 2 := by
      intro q hq
      have := (Rat.cast_le (K := ℝ)).2 hq
      rw [Rat.cast_abs, Rat.cast_zpow, Rat.cast_ofNat] at this
      rw [← sq_abs (q : ℝ)]
      gcongr
    have k1 := k hin.le.1
    have k2 := k hin.le.2.1
    have k3 := k hin.le.2.2
    have e : (2 : ℝ) ^ (511 : ℤ) = 2 * 2 ^ (510 : ℤ) := by
      rw [show (511 : ℤ) = 1 + 510 by norm_num, zpow_add₀ (by norm_num), zpow_one]
    have hp : (0 : ℝ) < 2 ^ (510 : ℤ) := by positivity
    rw [e]
    generalize (2 : ℝ) ^ (510 : ℤ) = w at *
    have h4 : ρ ^ 2 ≤ (2 * w) ^ 2 := by nlinarith
    exact (le_abs_self _).trans (abs_le_of_sq_le_sq h4 (by positivity))
  have r0 : (0 : ℝ) ≤ r := by exact_mod_cast dr.nonneg
  have hr2 : (r : ℝ) ≤ 2 * ρ := by linarith [(abs_le.1 hr).2]
  have hrQ : r ≤ 2 ^ (999 : ℤ) := by
    have h1 : (r : ℝ) ≤ ((2 ^ (999 : ℤ) : ℚ) : ℝ) := by
      rw [Rat.cast_zpow, Rat.cast_ofNat]
      calc (r : ℝ) ≤ 2 * 2 ^ (511 : ℤ) := hr2.trans (by linarith)
        _ = 2 ^ (1 + 511 : ℤ) := by rw [zpow_add₀ (by norm_num), zpow_one]
        _ ≤ _ := zpow_le_zpow_right₀ (by norm_num) (by norm_num)
    exact Rat.cast_le.1 h1
  have θ4 : |(fin false θ).num| ≤ 4 := by
    rw [abs_num _ dθ.nonneg]
    have h1 : (θ : ℝ) ≤ 4 := by
      have := Real.arccos_le_pi (p.2.2.num / ρ)
      have := Real.pi_lt_d2
      linarith [(abs_le.1 hθ).2]
    exact_mod_cast h1
  obtain ⟨fS, kS, hS⟩ := hT.sin_close _ (finD_fin (s := false) dθ) θ4
  obtain ⟨fK, kK, hK⟩ := hT.cos_close _ (finD_fin (s := false) dθ) θ4
  obtain ⟨fC, kC, hC⟩ := hT.cos_close _ dφ kφ
  obtain ⟨fD, kD, hD⟩ := hT.sin_close _ dφ kφ
  have eθn : ((fin false θ).num : ℝ) = θ := by simp [PyFloat.num]
  have ern : ((fin false r).num : ℝ) = r := by simp [PyFloat.num]
  rw [eθn] at hS hK
  have kS' : |((T.sin (fin false θ)).num : ℝ)| ≤ 1 := by exact_mod_cast kS
  have kK' : |((T.cos (fin false θ)).num : ℝ)| ≤ 1 := by exact_mod_cast kK
  have hrn : |(fin false r).num| ≤ 2 ^ (1000 : ℤ) := by
    rw [abs_num _ dr.nonneg]; exact hrQ.trans (zpow_le (by norm_num))
  have hrn' : |((fin false r).num : ℝ)| ≤ 2 * ρ := by rw [ern, abs_of_nonneg r0]; exact hr2
  -- the height
  have hz : FinD (PyFloat.mul (fin false r) (T.cos (fin false θ))) ∧
      |((PyFloat.mul (fin false r) (T.cos (fin false θ))).num : ℝ) - p.2.2.num| ≤ ρ / 2 ^ 47 := by
    obtain ⟨h1, h2⟩ := mul_real (finD_fin dr) fK hrn kK hρ hrn'
    refine ⟨h1, ?_⟩
    have h3 : |((T.cos (fin false θ)).num : ℝ) - p.2.2.num / ρ| ≤ 1 / 2 ^ 50 + 1 / 2 ^ 48 := by
      rw [abs_le] at hK hcos ⊢
      constructor <;> linarith [hK.1, hK.2, hcos.1, hcos.2]
    have h4 := prod_err hr h3
    rw [mul_div_cancel₀ _ hρpos.ne', abs_of_nonneg hρ0] at h4
    rw [ern] at h2
    have h5 : ρ / 2 ^ 49 * |((T.cos (fin false θ)).num : ℝ)| ≤ ρ / 2 ^ 49 * 1 := by gcongr
    have h6 := h4.trans (add_le_add_left h5 _)
    rw [abs_le] at h2 h6 ⊢
    constructor <;> linarith [h2.1, h2.2, h6.1, h6.2]
  -- the distance from the axis
  set s := √((p.1.num : ℝ) ^ 2 + (p.2.1.num : ℝ) ^ 2) with hs
  have hs0 : 0 ≤ s := Real.sqrt_nonneg _
  have hss : s * s = (p.1.num : ℝ) ^ 2 + (p.2.1.num : ℝ) ^ 2 := Real.mul_self_sqrt (by positivity)
  have hsρ : s ≤ ρ := by
    rw [← abs_of_nonneg hs0]
    exact habs (by rw [pow_two, hss, hsq]; linarith)
  have hsin : Real.sin (Real.arccos (p.2.2.num / ρ)) = s / ρ := by
    rw [Real.sin_arccos]
    rw [Real.sqrt_eq_iff_mul_self_eq (by
      have : ((p.2.2.num : ℝ) / ρ) ^ 2 ≤ 1 := by
        rw [div_pow, div_le_one (by positivity)]
        nlinarith
      linarith) (by positivity)]
    field_simp
    nlinarith
  have hm : FinD (PyFloat.mul (fin false r) (T.sin (fin false θ))) ∧
      |((PyFloat.mul (fin false r) (T.sin (fin false θ))).num : ℝ) - s| ≤ ρ * (9 / 8 / 2 ^ 22) := by
    obtain ⟨h1, h2⟩ := mul_real (finD_fin dr) fS hrn kS hρ hrn'
    refine ⟨h1, ?_⟩
    have h0 := (Real.abs_sin_sub_sin_le θ (Real.arccos (p.2.2.num / ρ))).trans hθ
    rw [hsin] at h0
    have h3 : |((T.sin (fin false θ)).num : ℝ) - s / ρ| ≤ 1 / 2 ^ 50 + 1 / 2 ^ 22 := by
      rw [abs_le] at hS h0 ⊢
      constructor <;> linarith [hS.1, hS.2, h0.1, h0.2]
    have h4 := prod_err hr h3
    rw [mul_div_cancel₀ _ hρpos.ne', abs_of_nonneg hρ0] at h4
    rw [ern] at h2
    have h5 : ρ / 2 ^ 49 * |((T.sin (fin false θ)).num : ℝ)| ≤ ρ / 2 ^ 49 * 1 := by gcongr
    have h6 := h4.trans (add_le_add_left h5 _)
    rw [abs_le] at h2 h6 ⊢
    constructor <;> linarith [h2.1, h2.2, h6.1, h6.2]
  obtain ⟨fm, hm⟩ := hm
  have hmQ : |(PyFloat.mul (fin false r) (T.sin (fin false θ))).num| ≤ 2 ^ (1000 : ℤ) := by
    have h1 : ((|(PyFloat.mul (fin false r) (T.sin (fin false θ))).num| : ℚ) : ℝ) ≤ ((2 ^ (1000 : ℤ) : ℚ) : ℝ) := by
      rw [Rat.cast_zpow, Rat.cast_ofNat, Rat.cast_abs]
      calc _ ≤ 2 * ρ := by
            rw [abs_le] at hm ⊢
            constructor <;> linarith [hm.1, hm.2]
        _ ≤ 2 * 2 ^ (511 : ℤ) := by linarith
        _ = 2 ^ (1 + 511 : ℤ) := by rw [zpow_add₀ (by norm_num), zpow_one]
        _ ≤ _ := zpow_le_zpow_right₀ (by norm_num) (by norm_num)
    exact Rat.cast_le.1 h1
  obtain ⟨D1, e1, k1⟩ := direction (X := p.1.num) hs hC (by rw [hss]; linarith) (fun h => hZ.cos_close _ _ fy fx h)
  obtain ⟨D2, e2, k2⟩ := direction (X := p.2.1.num) hs hD (by rw [hss]; linarith) (fun h => hZ.sin_close _ _ fy fx h)
  obtain ⟨gx, hx⟩ := horizontal fm fC kC hmQ hρ hs0 hsρ hm e1 k1
  obtain ⟨gy, hy⟩ := horizontal fm fD kD hmQ hρ hs0 hsρ hm e2 k2
  have eraw : rawRect T (raw A p) = (PyFloat.mul (PyFloat.mul (fin false r) (T.sin (fin false θ))) (T.cos φ),
      PyFloat.mul (PyFloat.mul (fin false r) (T.sin (fin false θ))) (T.sin φ), PyFloat.mul (fin false r) (T.cos (fin false θ))) := by
    simp only [rawRect, er, eθ, eφ]
  rw [eraw]
  exact ⟨⟨gx, gy, hz.1⟩, hx, hy, hz.2⟩

end FloatCoords

/-- **C110**: converting points (not beyond 2^510 and not within 2^-511 of the origin) to spherical coordinates and back
raises nothing and gives the height to 2^-47 of the distance and the other two coordinates to 2^-21 of the distance. -/
theorem C110_round_trip {A : AngleLib} (hA : GoodAngles A) (hZ : GoodAzimuth A) {T : SineLib} (hT : GoodSines T)
    (ps : List (PyFloat × PyFloat × PyFloat)) (h : ∀ p ∈ ps, InRange p) :
    ∃ qs, (fromRect A ps >>= toRect T) = .ok qs ∧ List.Forall₂ (fun p q => (FinD q.1 ∧ FinD q.2.1 ∧ FinD q.2.2) ∧
      |(q.1.num : ℝ) - p.1.num| ≤ distance p / 2 ^ 21 ∧ |(q.2.1.num : ℝ) - p.2.1.num| ≤ distance p / 2 ^ 21 ∧
      |(q.2.2.num : ℝ) - p.2.2.num| ≤ distance p / 2 ^ 47) ps qs := by
  have h1 : fromRect A ps = .ok (ps.map (raw A)) := by
    refine fromRect_ok ?_ ?_
    · intro p hp
      obtain ⟨r, θ, -, h2, -⟩ := located hA (h p hp)
      rw [h2]; rfl
    · intro p hp
      obtain ⟨r, θ, -, -, h3, -⟩ := located hA (h p hp)
      exact isNan_false h3
  have h2 : toRect T (ps.map (raw A)) = .ok ((ps.map (raw A)).map (rawRect T)) := by
    refine toRect_ok fun o ho => ?_
    obtain ⟨p, hp, rfl⟩ := List.mem_map.1 ho
    exact (back hA hZ hT (h p hp)).1
  refine ⟨_, by rw [h1]; exact h2, ?_⟩
  · rw [List.map_map, List.forall₂_map_right_iff, List.forall₂_same]
    exact fun p hp => back hA hZ hT (h p hp)

/-- **C110**: the bound for the horizontal coordinates cannot be better than 2^-28: a point with |x|, |y| ≤ 2^-28 z comes
back on the axis, at exactly the same height. -/
theorem C110_cone {A : AngleLib} (hA : GoodAngles A) (hZ : GoodAzimuth A) {T : SineLib} (hT : GoodSines T)
    (p : PyFloat × PyFloat × PyFloat) (hp : FinPoint p)
    (hz : (2 : ℚ) ^ (-500 : ℤ) ≤ p.2.2.num) (hz' : p.2.2.num ≤ 2 ^ (510 : ℤ)) (hx : |p.1.num| ≤ p.2.2.num / 2 ^ 28)
    (hy : |p.2.1.num| ≤ p.2.2.num / 2 ^ 28) :
    ∃ q, (fromRect A [p] >>= toRect T) = .ok [q] ∧ q.1.num = 0 ∧ q.2.1.num = 0 ∧ q.2.2 = p.2.2 := by
  have z0 : 0 < p.2.2.num := lt_of_lt_of_le (by positivity) hz
  have ea : |p.2.2.num| = p.2.2.num := abs_of_pos z0
  have h := C109_near_axis hA p hp (by rw [ea]; exact hz) (by rw [ea]; exact hz') (by rw [ea]; exact hx) (by rw [ea]; exact hy)
  rw [decide_eq_false (not_lt.2 z0.le), hA.acos_one] at h
  obtain ⟨fx, fy, fz⟩ := hp
  obtain ⟨dφ, kφ⟩ := hZ.num p.2.1 p.1 fy fx
  obtain ⟨s1, v1, e1, d1⟩ := (hT.cos_close _ dφ kφ).1
  obtain ⟨s2, v2, e2, d2⟩ := (hT.sin_close _ dφ kφ).1
  obtain ⟨s3, v3, e3, d3⟩ := fz
  have dz : IsDouble p.2.2.num := by
    have := isNum_num (x := p.2.2) ⟨s3, v3, e3, d3⟩
    rwa [IsNum, ea] at this
  have e4 : p.2.2 = fin false p.2.2.num := by
    rw [e3] at z0 ⊢
    cases s3
    · simp [PyFloat.num]
    · simp only [PyFloat.num, if_true] at z0
      linarith [d3.nonneg]
  have m0 : ∀ (t : Bool) (v : ℚ), PyFloat.mul (fin t 0) (fin false v) = fin t 0 := by
    intro t v; simp [PyFloat.mul, ofMag_zero]
  have er : rawRect T (fin false |p.2.2.num|, fin false 0, A.atan2 p.2.1 p.1) = (fin s1 0, fin s2 0, p.2.2) := by
    have k1 : PyFloat.mul (fin false |p.2.2.num|) (fin false 0) = fin false 0 := by simp [PyFloat.mul, ofMag_zero]
    have k2 : ∀ (t : Bool) (v : ℚ), PyFloat.mul (fin false 0) (fin t v) = fin t 0 := by
      intro t v; cases t <;> simp [PyFloat.mul, ofMag_zero]
    have k3 : PyFloat.mul (fin false |p.2.2.num|) (fin false 1) = p.2.2 := by
      rw [ea]
      simp only [PyFloat.mul, bne_self_eq_false, mul_one]
      rw [ofMag_of_le dz.nonneg dz.le_max, fl0_of_isDouble dz]
      exact e4.symm
    simp only [rawRect, hT.sin_zero, hT.cos_zero, e1, e2, k1, k2, k3]
  refine ⟨(fin s1 0, fin s2 0, p.2.2), ?_, by cases s1 <;> simp [PyFloat.num], by cases s2 <;> simp [PyFloat.num], rfl⟩
  rw [h]
  have := toRect_ok (T := T) (os := [(fin false |p.2.2.num|, fin false 0, A.atan2 p.2.1 p.1)]) (by
    intro o ho
    rw [List.mem_singleton] at ho
    rw [ho, er]
    exact ⟨finD_zero _, finD_zero _, ⟨s3, v3, e3, d3⟩⟩)
  rw [List.map_singleton, er] at this
  exact this

/-! ### The assumptions can be met -/

theorem FloatCoords.roundReal_close {x : ℝ} (h : |x| ≤ 16 / 5) :
    FinD (roundReal x) ∧ |((roundReal x).num : ℝ) - x| ≤ 1 / 2 ^ 50 ∧ (|x| ≤ 1 → |(roundReal x).num| ≤ 1) := by
  have key : ∀ {v : ℝ}, 0 ≤ v → v ≤ 16 / 5 → IsDouble (nearestReal v) ∧ |((nearestReal v : ℚ) : ℝ) - v| ≤ 1 / 2 ^ 50 ∧
      (v ≤ 1 → nearestReal v ≤ 1) := by
    intro v h0 h1
    obtain ⟨hd, hn⟩ := (exists_nearest v).choose_spec
    refine ⟨hd, ?_, fun hv => ?_⟩
    · obtain ⟨d, hd', hn'⟩ := near_real h0 (by
        refine h1.trans (le_trans (by norm_num : (16 / 5 : ℝ) ≤ (2 : ℝ) ^ (2 : ℤ)) ?_)
        exact zpow_le_zpow_right₀ (by norm_num) (by norm_num))
      refine (hn d hd').trans (hn'.trans ?_)
      have h4 : (2 : ℝ) ^ (-1072 : ℤ) ≤ 1 / 2 ^ 60 := by
        calc (2 : ℝ) ^ (-1072 : ℤ) ≤ 2 ^ (-60 : ℤ) := zpow_le_zpow_right₀ (by norm_num) (by norm_num)
          _ = _ := by norm_num
      generalize (2 : ℝ) ^ (-1072 : ℤ) = t at *
      linarith
    · have h2 := hn 1 isDouble_one
      change |((nearestReal v : ℚ) : ℝ) - v| ≤ _ at h2
      by_contra hc
      rw [not_le] at hc
      have h3 : (1 : ℝ) < nearestReal v := by exact_mod_cast hc
      rw [Rat.cast_one, abs_of_pos (by linarith), abs_of_nonneg (by linarith)] at h2
      linarith
  unfold roundReal
  split
  · next hx =>
    rw [abs_of_neg hx] at h ⊢
    obtain ⟨h1, h2, h3⟩ := key (v := -x) (by linarith) h
    refine ⟨finD_fin h1, ?_, fun hv => ?_⟩
    · simp only [PyFloat.num, if_true, Rat.cast_neg]
      rw [← abs_neg]
      convert h2 using 2
      ring
    · rw [abs_num _ h1.nonneg]; exact h3 hv
  · next hx =>
    rw [not_lt] at hx
    rw [abs_of_nonneg hx] at h ⊢
    obtain ⟨h1, h2, h3⟩ := key hx h
    refine ⟨finD_fin h1, ?_, fun hv => ?_⟩
    · simpa [PyFloat.num] using h2
    · rw [abs_num _ h1.nonneg]; exact h3 hv

private noncomputable def exSines : SineLib where
  sin x := roundReal (Real.sin x.num)
  cos x := roundReal (Real.cos x.num)

private theorem nearest_double {q : ℚ} (h : IsDouble q) : nearestReal q = q := by
  have h1 := (exists_nearest (q : ℝ)).choose_spec.2 q h
  change |((nearestReal q : ℚ) : ℝ) - q| ≤ _ at h1
  rw [sub_self, abs_zero] at h1
  have h2 := sub_eq_zero.1 (abs_eq_zero.1 (le_antisymm h1 (abs_nonneg _)))
  exact_mod_cast h2

private theorem exSines_good : GoodSines exSines where
  sin_close x _ _ := by
    have h := roundReal_close (x := Real.sin x.num) ((Real.abs_sin_le_one _).trans (by norm_num))
    exact ⟨h.1, h.2.2 (Real.abs_sin_le_one _), h.2.1⟩
  cos_close x _ _ := by
    have h := roundReal_close (x := Real.cos x.num) ((Real.abs_cos_le_one _).trans (by norm_num))
    exact ⟨h.1, h.2.2 (Real.abs_cos_le_one _), h.2.1⟩
  sin_zero := by
    have := nearest_double isDouble_zero
    rw [Rat.cast_zero] at this
    simp [exSines, roundReal, PyFloat.num, this]
  cos_zero := by
    have := nearest_double isDouble_one
    rw [Rat.cast_one] at this
    simp [exSines, roundReal, PyFloat.num, this]

private theorem arg_close (z : ℂ) : FinD (roundReal z.arg) ∧ |((roundReal z.arg).num : ℝ) - z.arg| ≤ 1 / 2 ^ 50 := by
  have h := roundReal_close (x := z.arg) ((Complex.abs_arg_le_pi z).trans (by linarith [Real.pi_lt_d2]))
  exact ⟨h.1, h.2.1⟩

private theorem exAngles_azimuth : GoodAzimuth exAngles where
  num y x _ _ := by
    obtain ⟨h1, h2⟩ := arg_close ⟨x.num, y.num⟩
    refine ⟨h1, ?_⟩
    have h3 := Complex.abs_arg_le_pi ⟨x.num, y.num⟩
    have h4 : |((roundReal (Complex.arg ⟨x.num, y.num⟩)).num : ℝ)| ≤ 4 := by
      have h5 := Real.pi_lt_d2
      rw [abs_le] at h2 h3 ⊢
      constructor <;> linarith [h2.1, h2.2, h3.1, h3.2]
    exact_mod_cast h4
  cos_close y x _ _ h := by
    obtain ⟨-, h2⟩ := arg_close ⟨x.num, y.num⟩
    have hz : (⟨x.num, y.num⟩ : ℂ) ≠ 0 := by
      intro h0
      have a1 := congrArg Complex.re h0
      have a2 := congrArg Complex.im h0
      simp only [Complex.zero_re, Complex.zero_im, Rat.cast_eq_zero] at a1 a2
      rcases h with h | h <;> contradiction
    have h3 := (Real.abs_cos_sub_cos_le _ _).trans h2
    rw [Complex.cos_arg hz, Complex.norm_eq_sqrt_sq_add_sq] at h3
    exact h3.trans (by norm_num)
  sin_close y x _ _ h := by
    obtain ⟨-, h2⟩ := arg_close ⟨x.num, y.num⟩
    have h3 := (Real.abs_sin_sub_sin_le _ _).trans h2
    rw [Complex.sin_arg, Complex.norm_eq_sqrt_sq_add_sq] at h3
    exact h3.trans (by norm_num)

/-- **C110.** The rectangular coordinates returned are never nan; what is refused is refused with AssertionError. -/
theorem C110_no_nan (T : SineLib) (os : List (PyFloat × PyFloat × PyFloat)) :
    (∃ qs, toRect T os = .ok qs ∧ qs.length = os.length ∧ ∀ q ∈ qs, q.1 ≠ nan ∧ q.2.1 ≠ nan ∧ q.2.2 ≠ nan) ∨
      toRect T os = .error .assertion := by
  have k : ∀ {x : PyFloat}, isNan x = false → x ≠ nan := by
    rintro x h rfl
    cases h
  by_cases h1 : ∀ o ∈ os, isNan (rawRect T o).1 = false
  · by_cases h2 : ∀ o ∈ os, isNan (rawRect T o).2.1 = false
    · by_cases h3 : ∀ o ∈ os, isNan (rawRect T o).2.2 = false
      · refine Or.inl ⟨os.map (rawRect T), ?_, List.length_map _, ?_⟩
        · simp only [toRect, resAssert, if_pos h1, if_pos h2, if_pos h3]
          rfl
        · intro q hq
          obtain ⟨o, ho, rfl⟩ := List.mem_map.1 hq
          exact ⟨k (h1 o ho), k (h2 o ho), k (h3 o ho)⟩
      · right
        simp only [toRect, resAssert, if_pos h1, if_pos h2, if_neg h3]
        rfl
    · right
      simp only [toRect, resAssert, if_pos h1, if_neg h2]
      rfl
  · right
    simp only [toRect, resAssert, if_neg h1]
    rfl

/-- Sine and cosine of nan and of infinities are nan. -/
structure Spec.NanSines (T : SineLib) : Prop where
  sin : ∀ x, (x = nan ∨ ∃ s, x = inf s) → T.sin x = nan
  cos : ∀ x, (x = nan ∨ ∃ s, x = inf s) → T.cos x = nan

/-- **C110.** One point with a coordinate that is nan, an infinite angle, or at infinity on the north axis makes the whole array be
refused. -/
theorem C110_refused (T : SineLib) (hT : NanSines T) (h0 : T.sin (fin false 0) = fin false 0) (os : List (PyFloat × PyFloat × PyFloat))
    (o : PyFloat × PyFloat × PyFloat) (ho : o ∈ os)
    (h : o.1 = nan ∨ (o.2.1 = nan ∨ ∃ s, o.2.1 = inf s) ∨ (o.2.2 = nan ∨ ∃ s, o.2.2 = inf s) ∨
      (∃ s, o.1 = inf s) ∧ o.2.1 = fin false 0) : toRect T os = .error .assertion := by
  have m1 : ∀ x, mul nan x = nan := fun x => by cases x <;> rfl
  have m2 : ∀ x, mul x nan = nan := fun x => by cases x <;> rfl
  have hnan : (rawRect T o).1 = nan := by
    rw [rawRect]
    rcases h with h | h | h | ⟨⟨s, h⟩, h'⟩
    · rw [h]; simp only [m1]
    · rw [hT.sin _ h]; simp only [m1, m2]
    · rw [hT.cos _ h]; simp only [m2]
    · rw [h, h', h0]
      simp only [mul, if_true, m1]
  rcases C110_no_nan T os with ⟨qs, h1, -, h2⟩ | h1
  · exfalso
    have hm : ¬∀ o ∈ os, isNan (rawRect T o).1 = false := fun hall => by
      have := hall o ho
      rw [hnan] at this
      cases this
    simp only [toRect, resAssert, if_neg hm] at h1
    cases h1
  · exact h1

/-- The point at infinity on the north axis. -/
example : toRect ⟨fun x => match x with | fin s a => fin s a | _ => nan, fun x => match x with | fin _ _ => fin false 1 | _ => nan⟩
    [(fin false 1, fin false 1, fin false 1), (inf false, fin false 0, fin false 1)] = .error .assertion :=
  C110_refused _ ⟨by rintro x (rfl | ⟨s, rfl⟩) <;> rfl, by rintro x (rfl | ⟨s, rfl⟩) <;> rfl⟩ rfl _ _
    (List.mem_cons_of_mem _ (List.mem_singleton_self _)) (Or.inr (Or.inr (Or.inr ⟨⟨false, rfl⟩, rfl⟩)))

private theorem nat_double (n : ℕ) (h : n < 2 ^ 53) : IsDouble n := ⟨n, 0, h, by norm_num, by norm_num, by simp⟩

/-- The point (3, -4, 12). -/
example : ∃ qs, (fromRect exAngles [(fin false 3, fin true 4, fin false 12)] >>= toRect exSines) = .ok qs ∧
    List.Forall₂ (fun p q => (FinD q.1 ∧ FinD q.2.1 ∧ FinD q.2.2) ∧
      |(q.1.num : ℝ) - p.1.num| ≤ distance p / 2 ^ 21 ∧ |(q.2.1.num : ℝ) - p.2.1.num| ≤ distance p / 2 ^ 21 ∧
      |(q.2.2.num : ℝ) - p.2.2.num| ≤ distance p / 2 ^ 47) [(fin false 3, fin true 4, fin false 12)] qs := by
  refine C110_round_trip exAngles_good exAngles_azimuth exSines_good _ fun p hp => ?_
  rw [List.mem_singleton] at hp
  subst hp
  have k : (16 : ℚ) ≤ 2 ^ (510 : ℤ) := by
    calc (16 : ℚ) = 2 ^ (4 : ℤ) := by norm_num
      _ ≤ _ := zpow_le (by norm_num)
  have k' : (2 : ℚ) ^ (-511 : ℤ) ≤ 1 := by
    calc (2 : ℚ) ^ (-511 : ℤ) ≤ 2 ^ (0 : ℤ) := zpow_le (by norm_num)
      _ = 1 := by norm_num
  refine ⟨⟨⟨_, _, rfl, ?_⟩, ⟨_, _, rfl, ?_⟩, ⟨_, _, rfl, ?_⟩⟩, ?_, ?_⟩
  · exact_mod_cast nat_double 3 (by norm_num)
  · exact_mod_cast nat_double 4 (by norm_num)
  · exact_mod_cast nat_double 12 (by norm_num)
  · simp only [abs_num _ (show (0 : ℚ) ≤ 3 by norm_num), abs_num _ (show (0 : ℚ) ≤ 4 by norm_num),
      abs_num _ (show (0 : ℚ) ≤ 12 by norm_num)]
    exact ⟨le_trans (by norm_num) k, le_trans (by norm_num) k, le_trans (by norm_num) k⟩
  · left
    dsimp only
    rw [abs_num _ (show (0 : ℚ) ≤ 3 by norm_num)]
    exact k'.trans (by norm_num)

/-- The point (2^-28, 0, 2) comes back as (0, 0, 2). -/
example : ∃ q, (fromRect exAngles [(fin false (2 ^ (-28 : ℤ)), fin false 0, fin false 2)] >>= toRect exSines) = .ok [q] ∧
    q.1.num = 0 ∧ q.2.1.num = 0 ∧ q.2.2 = fin false 2 := by
  refine C110_cone exAngles_good exAngles_azimuth exSines_good _ ⟨⟨_, _, rfl, isDouble_zpow (by norm_num) (by norm_num)⟩,
    finD_zero _, ⟨_, _, rfl, isDouble_two⟩⟩ ?_ ?_ ?_ ?_
  · calc (2 : ℚ) ^ (-500 : ℤ) ≤ 2 ^ (1 : ℤ) := zpow_le (by norm_num)
      _ = _ := by norm_num [PyFloat.num]
  · calc (fin false 2).num = (2 : ℚ) ^ (1 : ℤ) := by norm_num [PyFloat.num]
      _ ≤ _ := zpow_le (by norm_num)
  · norm_num [PyFloat.num]
  · norm_num [PyFloat.num]

end Verif
