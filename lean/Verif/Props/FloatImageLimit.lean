import Mathlib.Analysis.Calculus.Deriv.MeanValue
import Mathlib.Analysis.SpecialFunctions.Integrals.Basic
import Mathlib.Analysis.SpecialFunctions.Trigonometric.Bounds
import Mathlib.Analysis.Real.Pi.Bounds
import Verif.Props.FloatImage
import Verif.Props.ImageLimit

/-!
# Property C131: an image of a set in double precision gives the set back
-/

set_option exponentiation.threshold 4000

namespace Verif
open Spec PyFloat FloatRange FloatSets FloatRound FloatDescribe FloatFold FloatImage

/-- Neighbouring corners are at most `h` apart. -/
def Spec.StepsLe (xs : List PyFloat) (h : ℝ) : Prop := ∀ p ∈ xs.zip xs.tail, (p.2.num : ℝ) - p.1.num ≤ h

namespace ImageRate
open Legendre intervalIntegral

/-- The harmonic of one order as a function of the polar angle. -/
noncomputable def leg (l m : ℤ) (θ : ℝ) : ℝ := ImageLimit.sgn m * cLm l |m| * thP l.toNat m.natAbs θ

/-- Its derivative. -/
noncomputable def legD (l m : ℤ) (θ : ℝ) : ℝ := ImageLimit.sgn m * cLm l |m| * thD l.toNat m.natAbs θ

theorem leg_deriv (l m : ℤ) (θ : ℝ) : HasDerivAt (leg l m) (legD l m θ) θ := (hasDerivAt_thP l.toNat m.natAbs θ).const_mul _

theorem scale {l m : ℤ} (h : |m| ≤ l) : (ImageLimit.sgn m * cLm l |m|) ^ 2 = (2 * (l : ℝ) + 1) / (4 * Real.pi) * cf l.toNat m.natAbs := by
  have l0 : 0 ≤ l := (abs_nonneg m).trans h
  have hl : (l.toNat : ℝ) = l := by
    have : ((l.toNat : ℤ) : ℝ) = (l : ℝ) := by rw [Int.toNat_of_nonneg l0]
    exact_mod_cast this
  have k := FieldSize.cLm_sq (l := l) (m := |m|) ⟨abs_nonneg _, h⟩
  have na : (|m|).toNat = m.natAbs := by rw [Int.abs_eq_natAbs, Int.toNat_natCast]
  rw [na, hl] at k
  rw [mul_pow, sq (ImageLimit.sgn m), ImageLimit.sgn_sq, k, one_mul]

theorem scale_le {l m : ℤ} (h : |m| ≤ l) : 0 ≤ (2 * (l : ℝ) + 1) / (4 * Real.pi) ∧ (2 * (l : ℝ) + 1) / (4 * Real.pi) ≤ 2 * l + 1 := by
  have l0 : (0 : ℝ) ≤ l := by exact_mod_cast (abs_nonneg m).trans h
  have p3 := Real.pi_gt_three
  exact ⟨div_nonneg (by linarith) (by linarith), div_le_self (by linarith) (by linarith)⟩

theorem mem_orders {l m : ℤ} (h : |m| ≤ l) : m.natAbs ∈ Finset.range (l.toNat + 1) := by
  rw [Int.abs_eq_natAbs] at h
  rw [Finset.mem_range]
  omega

theorem leg_le {l m : ℤ} (h : |m| ≤ l) (θ : ℝ) : |leg l m θ| ≤ (l : ℝ) + 1 := by
  have l0 : (0 : ℝ) ≤ l := by exact_mod_cast (abs_nonneg m).trans h
  refine abs_le_of_sq_le_sq ?_ (by linarith)
  have k1 : cf l.toNat m.natAbs * thP l.toNat m.natAbs θ ^ 2 ≤ 1 :=
    le_trans (Finset.single_le_sum (f := fun n => cf l.toNat n * thP l.toNat n θ ^ 2) (fun n _ => mul_nonneg (cf_nonneg _ _) (sq_nonneg _)) (mem_orders h)) (FieldSize.half_sum l.toNat θ)
  obtain ⟨w0, w⟩ := scale_le h
  rw [leg, mul_pow, scale h, mul_assoc]
  refine (mul_le_of_le_one_right w0 k1).trans (w.trans ?_)
  nlinarith

theorem legD_le {l m : ℤ} (h : |m| ≤ l) {θ : ℝ} (hs : Real.sin θ ≠ 0) : |legD l m θ| ≤ ((l : ℝ) + 1) ^ 2 := by
  have l0 : (0 : ℝ) ≤ l := by exact_mod_cast (abs_nonneg m).trans h
  refine abs_le_of_sq_le_sq ?_ (by positivity)
  have hl : (l.toNat : ℝ) = l := by
    have : ((l.toNat : ℤ) : ℝ) = (l : ℝ) := by rw [Int.toNat_of_nonneg ((abs_nonneg m).trans h)]
    exact_mod_cast this
  have k0 : cf l.toNat m.natAbs * thD l.toNat m.natAbs θ ^ 2 ≤ cf l.toNat m.natAbs * (thD l.toNat m.natAbs θ ^ 2 + ((m.natAbs : ℝ) * thP l.toNat m.natAbs θ / Real.sin θ) ^ 2) :=
    mul_le_mul_of_nonneg_left (by have := sq_nonneg ((m.natAbs : ℝ) * thP l.toNat m.natAbs θ / Real.sin θ); linarith) (cf_nonneg _ _)
  have k1 : cf l.toNat m.natAbs * thD l.toNat m.natAbs θ ^ 2 ≤ l * (l + 1) := by
    have := k0.trans (le_trans (Finset.single_le_sum (f := fun n => cf l.toNat n * (thD l.toNat n θ ^ 2 + ((n : ℝ) * thP l.toNat n θ / Real.sin θ) ^ 2))
      (fun n _ => mul_nonneg (cf_nonneg _ _) (by positivity)) (mem_orders h)) (FieldSize.half_sum_tangent l.toNat hs))
    rwa [hl] at this
  obtain ⟨w0, w⟩ := scale_le h
  rw [legD, mul_pow, scale h, mul_assoc]
  refine (mul_le_mul w k1 (mul_nonneg (cf_nonneg _ _) (sq_nonneg _)) (by linarith)).trans ?_
  have e1 : (2 * (l : ℝ) + 1) ≤ ((l : ℝ) + 1) ^ 2 := by nlinarith
  have e2 : (l : ℝ) * (l + 1) ≤ ((l : ℝ) + 1) ^ 2 := by nlinarith
  calc (2 * (l : ℝ) + 1) * (l * (l + 1)) ≤ ((l : ℝ) + 1) ^ 2 * ((l : ℝ) + 1) ^ 2 := mul_le_mul e1 e2 (by positivity) (by positivity)
    _ = (((l : ℝ) + 1) ^ 2) ^ 2 := by ring

/-- The part of a product of two harmonics that depends on the polar angle. -/
noncomputable def prof (l m l' m' : ℤ) (θ : ℝ) : ℝ := leg l m θ * leg l' m' θ * Real.sin θ

theorem prof_le {l m l' m' : ℤ} (h : |m| ≤ l) (h' : |m'| ≤ l') (θ : ℝ) : |prof l m l' m' θ| ≤ ((l : ℝ) + 1) * (l' + 1) := by
  have l0 : (0 : ℝ) ≤ l := by exact_mod_cast (abs_nonneg m).trans h
  have l1 : (0 : ℝ) ≤ l' := by exact_mod_cast (abs_nonneg m').trans h'
  rw [prof, abs_mul, abs_mul]
  have := mul_le_mul (mul_le_mul (leg_le h θ) (leg_le h' θ) (abs_nonneg _) (by linarith)) (Real.abs_sin_le_one θ) (abs_nonneg _) (by positivity)
  linarith

theorem prof_cont (l m l' m' : ℤ) : Continuous (prof l m l' m') := by
  have c : ∀ l m, Continuous (leg l m) := fun l m => continuous_iff_continuousAt.2 fun x => (leg_deriv l m x).continuousAt
  exact ((c l m).mul (c l' m')).mul Real.continuous_sin

theorem prof_lip {l m l' m' : ℤ} (h : |m| ≤ l) (h' : |m'| ≤ l') {x y : ℝ} (x0 : 0 ≤ x) (x1 : x ≤ Real.pi) (y0 : 0 ≤ y) (y1 : y ≤ Real.pi) :
    |prof l m l' m' x - prof l m l' m' y| ≤ 3 * (((l : ℝ) + 1) * (l' + 1)) ^ 2 * |x - y| := by
  have l0 : (0 : ℝ) ≤ l := by exact_mod_cast (abs_nonneg m).trans h
  have l1 : (0 : ℝ) ≤ l' := by exact_mod_cast (abs_nonneg m').trans h'
  have main : ∀ x y : ℝ, 0 ≤ x → y ≤ Real.pi → x < y → |prof l m l' m' y - prof l m l' m' x| ≤ 3 * (((l : ℝ) + 1) * (l' + 1)) ^ 2 * |y - x| := by
    intro x y x0 y1 hxy
    obtain ⟨c, ⟨c0, c1⟩, hc⟩ := exists_hasDerivAt_eq_slope (prof l m l' m') (fun t => (legD l m t * leg l' m' t + leg l m t * legD l' m' t) * Real.sin t + leg l m t * leg l' m' t * Real.cos t) hxy
      (prof_cont l m l' m').continuousOn (fun t _ => ((leg_deriv l m t).mul (leg_deriv l' m' t)).mul (Real.hasDerivAt_sin t))
    have hs : Real.sin c ≠ 0 := (Real.sin_pos_of_pos_of_lt_pi (by linarith) (by linarith)).ne'
    rw [eq_div_iff (by linarith)] at hc
    rw [← hc, abs_mul]
    refine mul_le_mul_of_nonneg_right ?_ (abs_nonneg _)
    have a1 := leg_le h c
    have a2 := leg_le h' c
    have b1 := legD_le h hs
    have b2 := legD_le h' hs
    have s1 := Real.abs_sin_le_one c
    have s2 := Real.abs_cos_le_one c
    have u0 : (1 : ℝ) ≤ (l : ℝ) + 1 := by linarith
    have v0 : (1 : ℝ) ≤ (l' : ℝ) + 1 := by linarith
    generalize (l : ℝ) + 1 = u at *
    generalize (l' : ℝ) + 1 = v at *
    have t1 : |legD l m c * leg l' m' c| ≤ u ^ 2 * v := by rw [abs_mul]; exact mul_le_mul b1 a2 (abs_nonneg _) (by positivity)
    have t2 : |leg l m c * legD l' m' c| ≤ u * v ^ 2 := by rw [abs_mul]; exact mul_le_mul a1 b2 (abs_nonneg _) (by positivity)
    have t3 : |leg l m c * leg l' m' c| ≤ u * v := by rw [abs_mul]; exact mul_le_mul a1 a2 (abs_nonneg _) (by positivity)
    have r1 : |(legD l m c * leg l' m' c + leg l m c * legD l' m' c) * Real.sin c| ≤ (u ^ 2 * v + u * v ^ 2) * 1 := by
      rw [abs_mul]; exact mul_le_mul ((abs_add_le _ _).trans (add_le_add t1 t2)) s1 (abs_nonneg _) (by positivity)
    have r2 : |leg l m c * leg l' m' c * Real.cos c| ≤ (u * v) * 1 := by
      rw [abs_mul]; exact mul_le_mul t3 s2 (abs_nonneg _) (by positivity)
    refine (abs_add_le _ _).trans ((add_le_add r1 r2).trans ?_)
    have w1 : u ^ 2 * v ≤ (u * v) ^ 2 := by
      rw [mul_pow]
      refine mul_le_mul_of_nonneg_left ?_ (by positivity)
      nlinarith
    have w2 : u * v ^ 2 ≤ (u * v) ^ 2 := by
      rw [mul_pow]
      refine mul_le_mul_of_nonneg_right ?_ (by positivity)
      nlinarith
    have w3 : u * v ≤ (u * v) ^ 2 := by
      have : 1 ≤ u * v := by nlinarith
      nlinarith
    linarith
  rcases lt_trichotomy x y with e | e | e
  · rw [abs_sub_comm, abs_sub_comm x]
    exact main x y x0 y1 e
  · rw [e]; simp
  · exact main y x y0 x1 e

theorem expi_lip (k : ℤ) (x y : ℝ) : ‖Zdi.expi k x - Zdi.expi k y‖ ≤ |(k : ℝ)| * |x - y| := by
  have e : Zdi.expi k x - Zdi.expi k y = Zdi.expi k y * (Complex.exp (Complex.I * ((k * (x - y) : ℝ) : ℂ)) - 1) := by
    rw [mul_sub, mul_one, Zdi.expi, Zdi.expi, ← Complex.exp_add]
    congr 2
    push_cast
    ring
  rw [e, norm_mul, FieldSize.norm_expi, one_mul]
  refine (Real.norm_exp_I_mul_ofReal_sub_one_le).trans (le_of_eq ?_)
  rw [Real.norm_eq_abs, abs_mul]

theorem expi_cont (k : ℤ) : Continuous (Zdi.expi k) := by
  unfold Zdi.expi
  fun_prop

theorem telescopeC (f : PyFloat → ℂ) : ∀ (xs : List PyFloat) (a b : PyFloat), xs.head? = some a → xs.getLast? = some b →
    ((xs.zip xs.tail).map fun p => f p.2 - f p.1).sum = f b - f a := by
  intro xs
  induction xs with
  | nil => intro a b h; simp at h
  | cons x xs ih =>
    intro a b ha hb
    obtain rfl : x = a := by simpa using ha
    cases xs with
    | nil =>
      obtain rfl : x = b := by simpa using hb
      simp
    | cons y ys =>
      have hb' : (y :: ys).getLast? = some b := by rwa [List.getLast?_cons_cons] at hb
      have := ih y b rfl hb'
      simp only [List.tail_cons, List.zip_cons_cons, List.map_cons, List.sum_cons] at this ⊢
      rw [this]
      ring

/-- A rule with one node near the middle of each interval integrates a Lipschitz function to first order. -/
theorem rule {xs : List PyFloat} {b : PyFloat} (hx : CornerList xs b) {F : ℝ → ℂ} (hF : Continuous F) {K h δ : ℝ} (K0 : 0 ≤ K) (hh : StepsLe xs h)
    (hL : ∀ x y : ℝ, 0 ≤ x → x ≤ b.num → 0 ≤ y → y ≤ b.num → ‖F x - F y‖ ≤ K * |x - y|) (c : PyFloat × PyFloat → ℝ)
    (hc : ∀ p ∈ xs.zip xs.tail, |c p - ((p.1.num : ℝ) + p.2.num) / 2| ≤ δ ∧ 0 ≤ c p ∧ c p ≤ b.num) :
    ‖((xs.zip xs.tail).map fun p => F (c p) * (((p.2.num : ℝ) - p.1.num : ℝ) : ℂ)).sum - ∫ t in (0 : ℝ)..b.num, F t‖ ≤ K * (h / 2 + δ) * b.num := by
  obtain ⟨x, h1, h2⟩ := hx.first
  have e1 := telescopeC (fun p => ∫ t in (0 : ℝ)..p.num, F t) xs x b h1 hx.last
  rw [h2] at e1
  have z : (((0 : ℚ) : ℝ)) = 0 := Rat.cast_zero
  rw [z, integral_same, sub_zero] at e1
  have e2 : ((xs.zip xs.tail).map fun p => (p.2.num : ℝ) - p.1.num).sum = b.num := by
    have := telescope (fun p => (p.num : ℝ)) xs x b h1 hx.last
    rw [h2] at this
    simpa [FloatDescribe.pairs] using this
  rw [← e1, FloatImage.sum_sub]
  refine (FloatImage.norm_sum_le _ _ (fun p => K * (h / 2 + δ) * ((p.2.num : ℝ) - p.1.num)) ?_).trans ?_
  · intro p hp
    obtain ⟨p1, p2⟩ := pair_mem hp
    have ap := hx.apart p hp
    have gap : (0 : ℝ) < (p.2.num : ℝ) - p.1.num := by
      have : (0 : ℝ) < 1 / 2 ^ 20 := by positivity
      linarith
    have st := hh p hp
    obtain ⟨c1, c2, c3⟩ := hc p hp
    have i1 : (0 : ℝ) ≤ p.1.num := by exact_mod_cast (hx.inside _ p1).1
    have i2 : (p.2.num : ℝ) ≤ b.num := by exact_mod_cast (hx.inside _ p2).2
    have sub : (∫ t in (0 : ℝ)..p.2.num, F t) - ∫ t in (0 : ℝ)..p.1.num, F t = ∫ t in (p.1.num : ℝ)..p.2.num, F t :=
      integral_interval_sub_left (hF.intervalIntegrable _ _) (hF.intervalIntegrable _ _)
    have con : F (c p) * (((p.2.num : ℝ) - p.1.num : ℝ) : ℂ) = ∫ _ in (p.1.num : ℝ)..p.2.num, F (c p) := by
      rw [integral_const, Complex.real_smul, mul_comm]
    rw [sub, con, ← integral_sub (continuous_const.intervalIntegrable _ _) (hF.intervalIntegrable _ _)]
    refine (norm_integral_le_of_norm_le_const (C := K * (h / 2 + δ)) fun t ht => ?_).trans (le_of_eq (by rw [abs_of_pos gap]))
    rw [Set.uIoc_of_le (by linarith)] at ht
    refine (hL _ _ c2 c3 (by linarith [ht.1]) (by linarith [ht.2])).trans (mul_le_mul_of_nonneg_left ?_ K0)
    have t1 := ht.1
    have t2 := ht.2
    rw [abs_le] at c1 ⊢
    constructor <;> linarith [c1.1, c1.2]
  · rw [List.sum_map_mul_left, e2]

/-- The nodes lie inside. -/
theorem inside {xs : List PyFloat} {b : PyFloat} (hx : CornerList xs b) {p} (hp : p ∈ xs.zip xs.tail) {c : ℝ} (hc : |c - ((p.1.num : ℝ) + p.2.num) / 2| ≤ 1 / 2 ^ 48) :
    0 ≤ c ∧ c ≤ b.num := by
  obtain ⟨p1, p2⟩ := pair_mem hp
  have ap := hx.apart p hp
  have i1 : (0 : ℝ) ≤ p.1.num := by exact_mod_cast (hx.inside _ p1).1
  have i2 : (p.2.num : ℝ) ≤ b.num := by exact_mod_cast (hx.inside _ p2).2
  have n : (1 : ℝ) / 2 ^ 48 ≤ 1 / 2 ^ 20 / 2 := by norm_num
  rw [abs_le] at hc
  constructor <;> linarith [hc.1, hc.2]

theorem pi_le : (pi.num : ℝ) ≤ Real.pi ∧ Real.pi - pi.num ≤ 1 / 2 ^ 52 ∧ (twoPi.num : ℝ) = 2 * pi.num := by
  have h := abs_le.1 FloatDescribe.pi_close.2
  refine ⟨?_, by linarith [h.1], ?_⟩
  · have := Real.pi_gt_d20
    refine le_trans ?_ this.le
    rw [pi_num]
    push_cast
    norm_num
  · rw [pi_num, twoPi_fd.2]
    push_cast
    norm_num

/-- The part of the interval that the double misses. -/
theorem tail_le {F : ℝ → ℂ} (hF : Continuous F) {B a b : ℝ} (hb : a ≤ b) (hB : ∀ t, ‖F t‖ ≤ B) :
    ‖(∫ t in (0 : ℝ)..a, F t) - ∫ t in (0 : ℝ)..b, F t‖ ≤ B * (b - a) := by
  rw [norm_sub_rev, integral_interval_sub_left (hF.intervalIntegrable _ _) (hF.intervalIntegrable _ _)]
  refine (norm_integral_le_of_norm_le_const (C := B) fun t _ => hB t).trans (le_of_eq ?_)
  rw [abs_of_nonneg (by linarith)]

theorem expi_integral (k : ℤ) : ∫ t in (0 : ℝ)..2 * Real.pi, Zdi.expi k t = if k = 0 then ((2 * Real.pi : ℝ) : ℂ) else 0 := by
  split_ifs with h
  · subst h
    simp [Zdi.expi]
  · have hc : Complex.I * (k : ℂ) ≠ 0 := mul_ne_zero Complex.I_ne_zero (by exact_mod_cast h)
    have := integral_exp_mul_complex (a := 0) (b := 2 * Real.pi) hc
    simp only [Zdi.expi]
    rw [this]
    have e : Complex.exp (Complex.I * k * ((2 * Real.pi : ℝ) : ℂ)) = 1 := by
      have := Complex.exp_int_mul_two_pi_mul_I k
      rw [← this]
      congr 1
      push_cast
      ring
    rw [e]
    simp

theorem ortho {l m l' : ℤ} (h : |m| ≤ l) (h' : |m| ≤ l') : (∫ t in (0 : ℝ)..Real.pi, prof l m l' m t) * (2 * Real.pi) = if l' = l then 1 else 0 := by
  have e0 : (∫ t in (0 : ℝ)..Real.pi, prof l m l' m t) = cLm l |m| * cLm l' |m| * ∫ t in (0 : ℝ)..Real.pi, Parseval.F1 m.natAbs l.toNat l'.toNat t := by
    rw [← integral_const_mul]
    congr 1
    ext t
    rw [prof, leg, leg, Parseval.F1]
    have := ImageLimit.sgn_sq m
    linear_combination (cLm l |m| * cLm l' |m| * (thP l.toNat m.natAbs t * thP l'.toNat m.natAbs t * Real.sin t)) * this
  have ha : |m| = m.natAbs := (Int.natCast_natAbs m).symm
  have h0 := abs_nonneg m
  rw [e0, Analysis.intF1 (by omega)]
  by_cases e : l' = l
  · subst e
    rw [if_pos rfl, if_pos rfl]
    have e := Verif.cLm_sq h0 h
    rw [show |m|.toNat = m.natAbs by rw [ha]; rfl] at e
    have hp := Real.pi_ne_zero
    rw [← pow_two, e]
    field_simp
  · rw [if_neg e, if_neg (by omega)]; ring

theorem sum_productC (xs ys : List (PyFloat × PyFloat)) (u v : PyFloat × PyFloat → ℂ) :
    ((xs.flatMap fun a => ys.map fun p => (a, p)).map fun f => u f.1 * v f.2).sum = (xs.map u).sum * (ys.map v).sum := by
  induction xs with
  | nil => simp
  | cons x xs ih =>
    rw [List.flatMap_cons, List.map_append, List.sum_append, ih, List.map_cons, List.sum_cons, List.map_map, add_mul]
    congr 1
    rw [← List.sum_map_mul_left]
    rfl

theorem exists_pair {xs : List PyFloat} (h : 2 ≤ xs.length) : ∃ p, p ∈ xs.zip xs.tail := by
  match xs, h with
  | x :: y :: _, _ => exact ⟨(x, y), by simp⟩

/-- The discrete inner products of the harmonics. -/
theorem gram {P A : List PyFloat} (hP : CornerList P pi) (hA : CornerList A twoPi) (p2 : 2 ≤ P.length) (a2 : 2 ≤ A.length) {h : ℝ} (sP : StepsLe P h) (sA : StepsLe A h)
    {l m l' m' : ℤ} (hm : |m| ≤ l) (hm' : |m'| ≤ l') :
    ‖midpointCoef (sphY l' m') P A l m - (if (l', m') = (l, m) then 1 else 0)‖ ≤ (((l : ℝ) + 1) * (l' + 1)) ^ 2 * (51 * h + 1 / 2 ^ 36) := by
  have l0 : (0 : ℝ) ≤ l := by exact_mod_cast (abs_nonneg m).trans hm
  have l1 : (0 : ℝ) ≤ l' := by exact_mod_cast (abs_nonneg m').trans hm'
  obtain ⟨pp, hpp⟩ := exists_pair p2
  obtain ⟨aa, haa⟩ := exists_pair a2
  have mem : ∀ a ∈ A.zip A.tail, ∀ p ∈ P.zip P.tail, (a, p) ∈ gridFacets P A := fun a ha p hp =>
    List.mem_flatMap.2 ⟨a, ha, List.mem_map.2 ⟨p, hp, rfl⟩⟩
  have h0 : 0 ≤ h := by
    have := hP.apart pp hpp
    have := sP pp hpp
    have : (0 : ℝ) < 1 / 2 ^ 20 := by positivity
    linarith
  obtain ⟨π1, π2, π3⟩ := pi_le
  have π4 : (pi.num : ℝ) ≤ 315 / 100 := π1.trans (by have := Real.pi_lt_d2; linarith)
  have π5 := Real.pi_gt_three
  have cp : ∀ p ∈ P.zip P.tail, |((FloatVisible.centrePolar p).num : ℝ) - ((p.1.num : ℝ) + p.2.num) / 2| ≤ 1 / 2 ^ 48 := fun p hp =>
    (FloatVector.centre_near hP hA (mem aa haa p hp)).2.1
  have ca : ∀ a ∈ A.zip A.tail, |((FloatVisible.centreAzimuth a).num : ℝ) - ((a.1.num : ℝ) + a.2.num) / 2| ≤ 1 / 2 ^ 48 := fun a ha =>
    (FloatVector.centre_near hP hA (mem a ha pp hpp)).2.2
  have sep : midpointCoef (sphY l' m') P A l m =
      ((A.zip A.tail).map fun a => Zdi.expi (m' - m) ((FloatVisible.centreAzimuth a).num : ℝ) * (((a.2.num : ℝ) - a.1.num : ℝ) : ℂ)).sum *
      ((P.zip P.tail).map fun p => ((prof l m l' m' ((FloatVisible.centrePolar p).num : ℝ) : ℝ) : ℂ) * (((p.2.num : ℝ) - p.1.num : ℝ) : ℂ)).sum := by
    rw [← sum_productC, midpointCoef]
    refine congrArg List.sum (List.map_congr_left fun f hf => ?_)
    obtain ⟨f1, f2⟩ := FloatVisible.mem_facets hf
    obtain ⟨i1, i2⟩ := inside hP f2 (cp _ f2)
    have hs : 0 ≤ Real.sin ((FloatVisible.centrePolar f.2).num : ℝ) := Real.sin_nonneg_of_nonneg_of_le_pi i1 (i2.trans π1)
    simp only [centreAngles, facetBox]
    rw [ImageLimit.sphY_thP hm hs, ImageLimit.sphY_thP hm' hs, map_mul, Complex.conj_ofReal, Parseval.conj_expi, sub_eq_neg_add m' m, ← Parseval.expi_add, prof, leg, leg]
    push_cast
    ring
  have q1 : 1 ≤ ((l : ℝ) + 1) * (l' + 1) := by nlinarith
  have kq : |((m' - m : ℤ) : ℝ)| ≤ ((l : ℝ) + 1) * (l' + 1) := by
    have a : |((m' - m : ℤ) : ℝ)| ≤ l' + l := by
      have : |m' - m| ≤ l' + l := by
        rw [abs_le] at *
        constructor <;> linarith [hm.1, hm.2, hm'.1, hm'.2]
      exact_mod_cast this
    nlinarith
  have U := rule hP (F := fun t => ((prof l m l' m' t : ℝ) : ℂ)) (Complex.continuous_ofReal.comp (prof_cont _ _ _ _)) (K := 3 * (((l : ℝ) + 1) * (l' + 1)) ^ 2) (by positivity) sP
    (fun x y a b c d => by
      rw [← Complex.ofReal_sub, Complex.norm_real]
      exact prof_lip hm hm' a (b.trans π1) c (d.trans π1)) (fun p => ((FloatVisible.centrePolar p).num : ℝ)) fun p hp => ⟨cp p hp, inside hP hp (cp p hp)⟩
  have V := rule hA (F := Zdi.expi (m' - m)) (expi_cont _) (abs_nonneg ((m' - m : ℤ) : ℝ)) sA (fun x y _ _ _ _ => expi_lip _ x y) (fun a => ((FloatVisible.centreAzimuth a).num : ℝ))
    fun a ha => ⟨ca a ha, inside hA ha (ca a ha)⟩
  have U' := tail_le (F := fun t => ((prof l m l' m' t : ℝ) : ℂ)) (Complex.continuous_ofReal.comp (prof_cont _ _ _ _)) (B := ((l : ℝ) + 1) * (l' + 1)) π1
    (fun t => by rw [Complex.norm_real]; exact prof_le hm hm' t)
  have V' := tail_le (F := Zdi.expi (m' - m)) (expi_cont _) (B := 1) (a := twoPi.num) (b := 2 * Real.pi) (by rw [π3]; linarith) fun t => (FieldSize.norm_expi _ _).le
  have V1 : ‖((A.zip A.tail).map fun a => Zdi.expi (m' - m) ((FloatVisible.centreAzimuth a).num : ℝ) * (((a.2.num : ℝ) - a.1.num : ℝ) : ℂ)).sum‖ ≤ 2 * pi.num := by
    refine (FloatImage.norm_sum_le _ _ (fun p => (p.2.num : ℝ) - p.1.num) ?_).trans (le_of_eq ?_)
    · intro p hp
      have ap := hA.apart p hp
      have : (0 : ℝ) < 1 / 2 ^ 20 := by positivity
      rw [norm_mul, FieldSize.norm_expi, one_mul, Complex.norm_real, Real.norm_eq_abs, abs_of_nonneg (by linarith)]
    · obtain ⟨x, h1, h2⟩ := hA.first
      have := telescope (fun p => (p.num : ℝ)) A x twoPi h1 hA.last
      rw [h2, π3] at this
      simpa [FloatDescribe.pairs] using this
  have U1 : ‖∫ t in (0 : ℝ)..Real.pi, ((prof l m l' m' t : ℝ) : ℂ)‖ ≤ ((l : ℝ) + 1) * (l' + 1) * Real.pi := by
    refine (norm_integral_le_of_norm_le_const (C := ((l : ℝ) + 1) * (l' + 1)) fun t _ => by rw [Complex.norm_real]; exact prof_le hm hm' t).trans (le_of_eq ?_)
    rw [sub_zero, abs_of_pos Real.pi_pos]
  have delta : (if (l', m') = (l, m) then (1 : ℂ) else 0) = (∫ t in (0 : ℝ)..2 * Real.pi, Zdi.expi (m' - m) t) * ∫ t in (0 : ℝ)..Real.pi, ((prof l m l' m' t : ℝ) : ℂ) := by
    rw [expi_integral, intervalIntegral.integral_ofReal]
    by_cases e : m' = m
    · subst e
      have o := ortho hm hm'
      rw [if_pos (sub_self _), ← Complex.ofReal_mul, mul_comm, o]
      by_cases e2 : l' = l
      · rw [if_pos e2, if_pos (by rw [e2])]; simp
      · rw [if_neg e2, if_neg (fun h => e2 (congrArg Prod.fst h))]; simp
    · rw [if_neg (sub_ne_zero.2 e), if_neg (fun h => e (congrArg Prod.snd h)), zero_mul]
  rw [sep, delta]
  have U2 := (norm_sub_le_norm_sub_add_norm_sub _ _ _).trans (add_le_add U U')
  have V2 := (norm_sub_le_norm_sub_add_norm_sub _ _ _).trans (add_le_add V V')
  generalize ((A.zip A.tail).map fun a => Zdi.expi (m' - m) ((FloatVisible.centreAzimuth a).num : ℝ) * (((a.2.num : ℝ) - a.1.num : ℝ) : ℂ)).sum = v at *
  generalize ((P.zip P.tail).map fun p => ((prof l m l' m' ((FloatVisible.centrePolar p).num : ℝ) : ℝ) : ℂ) * (((p.2.num : ℝ) - p.1.num : ℝ) : ℂ)).sum = u at *
  generalize (∫ t in (0 : ℝ)..2 * Real.pi, Zdi.expi (m' - m) t) = v0 at *
  generalize (∫ t in (0 : ℝ)..Real.pi, ((prof l m l' m' t : ℝ) : ℂ)) = u0 at *
  generalize ((l : ℝ) + 1) * (l' + 1) = q at *
  rw [π3] at V2
  have q2 : q ≤ q ^ 2 := by nlinarith
  have p0 : (0 : ℝ) ≤ pi.num := by linarith
  have hδ : (0 : ℝ) ≤ h / 2 + 1 / 2 ^ 48 := by positivity
  have U3 : ‖u - u0‖ ≤ q ^ 2 * (5 * h + 1 / 2 ^ 40) := by
    have x1 : 3 * q ^ 2 * (h / 2 + 1 / 2 ^ 48) * pi.num ≤ 3 * q ^ 2 * (h / 2 + 1 / 2 ^ 48) * (315 / 100) := mul_le_mul_of_nonneg_left π4 (by positivity)
    have x2 : q * (Real.pi - pi.num) ≤ q ^ 2 * (1 / 2 ^ 52) := mul_le_mul q2 π2 (by linarith) (by positivity)
    have x3 : 0 ≤ q ^ 2 * h := by positivity
    have x4 : 0 ≤ q ^ 2 := by positivity
    norm_num at *
    linarith
  have V3 : ‖v - v0‖ ≤ q * (4 * h + 1 / 2 ^ 40) := by
    have x1 : |((m' - m : ℤ) : ℝ)| * (h / 2 + 1 / 2 ^ 48) * (2 * pi.num) ≤ q * (h / 2 + 1 / 2 ^ 48) * (2 * (315 / 100)) :=
      mul_le_mul (mul_le_mul_of_nonneg_right kq hδ) (by linarith) (by linarith) (by positivity)
    have x3 : 0 ≤ q * h := by positivity
    generalize |((m' - m : ℤ) : ℝ)| = k at *
    norm_num at *
    linarith
  have split : v * u - v0 * u0 = v * (u - u0) + (v - v0) * u0 := by ring
  rw [split]
  refine (norm_add_le _ _).trans ?_
  rw [norm_mul, norm_mul]
  have y1 : ‖v‖ * ‖u - u0‖ ≤ 7 * (q ^ 2 * (5 * h + 1 / 2 ^ 40)) := mul_le_mul (V1.trans (by linarith)) U3 (norm_nonneg _) (by norm_num)
  have y2 : ‖v - v0‖ * ‖u0‖ ≤ q * (4 * h + 1 / 2 ^ 40) * (q * 4) :=
    mul_le_mul V3 (U1.trans (mul_le_mul_of_nonneg_left (by have := Real.pi_lt_d2; linarith) (by linarith))) (norm_nonneg _) (by positivity)
  refine (add_le_add y1 y2).trans ?_
  have x3 : 0 ≤ q ^ 2 * h := by positivity
  have x4 : 0 ≤ q ^ 2 := by positivity
  have : 7 * (q ^ 2 * (5 * h + 1 / 2 ^ 40)) + q * (4 * h + 1 / 2 ^ 40) * (q * 4) = q ^ 2 * (51 * h + 11 / 2 ^ 40) := by ring
  rw [this]
  refine mul_le_mul_of_nonneg_left ?_ x4
  norm_num

theorem midpoint_sum (s : Finset (ℤ × ℤ)) (c : ℤ × ℤ → ℂ) (P A : List PyFloat) (l m : ℤ) :
    midpointCoef (fun θ φ => ∑ k ∈ s, c k * sphY k.1 k.2 θ φ) P A l m = ∑ k ∈ s, c k * midpointCoef (sphY k.1 k.2) P A l m := by
  unfold midpointCoef
  generalize gridFacets P A = fs
  induction fs with
  | nil => simp
  | cons f fs ih =>
    simp only [List.map_cons, List.sum_cons]
    rw [ih, Finset.sum_mul, Finset.mul_sum, ← Finset.sum_add_distrib]
    exact Finset.sum_congr rfl fun k _ => by ring

theorem first_absent {s : Coefs PyComplex} (h : CSet 1 s) {l m : ℤ} (hn : (l, m) ∉ Spec.pairs s) : firstAt s l m = 0 := by
  rw [pairs_eq, List.mem_toFinset] at hn
  rw [firstAt, valueAt_eq, Coefs.getI_of_not_mem _ _ hn, h.dflt]
  apply Complex.ext <;> norm_num [cval, zeroJ, PyFloat.num]

/-- The midpoint integrals of the function of a set are its numbers, to first order in the steps. -/
theorem midpoint_near {s : Coefs PyComplex} (hs : CSet 1 s) {M : ℝ} (M0 : 0 ≤ M) (hM : ∀ l m, PartsLe M (firstAt s l m)) {P A : List PyFloat} (hP : CornerList P pi)
    (hA : CornerList A twoPi) (p2 : 2 ≤ P.length) (a2 : 2 ≤ A.length) {h : ℝ} (sP : StepsLe P h) (sA : StepsLe A h) {l m : ℤ} (hm : |m| ≤ l) :
    ‖midpointCoef (synthesis s) P A l m - firstAt s l m‖ ≤ 2 * (Spec.pairs s).card * M * (((l : ℝ) + 1) * ((s.degreeMax : ℝ) + 1)) ^ 2 * (51 * h + 1 / 2 ^ 36) := by
  have hw := WF_of_wellFormed hs.wf
  have l0 : (0 : ℝ) ≤ l := by exact_mod_cast (abs_nonneg m).trans hm
  have h0 : 0 ≤ h := by
    obtain ⟨pp, hpp⟩ := exists_pair p2
    have := hP.apart pp hpp
    have := sP pp hpp
    have : (0 : ℝ) < 1 / 2 ^ 20 := by positivity
    linarith
  have e1 : midpointCoef (synthesis s) P A l m = ∑ k ∈ Spec.pairs s, firstAt s k.1 k.2 * midpointCoef (sphY k.1 k.2) P A l m :=
    midpoint_sum (Spec.pairs s) (fun k => firstAt s k.1 k.2) P A l m
  have e2 : firstAt s l m = ∑ k ∈ Spec.pairs s, firstAt s k.1 k.2 * (if (k.1, k.2) = (l, m) then 1 else 0) := by
    by_cases hk : (l, m) ∈ Spec.pairs s
    · rw [Finset.sum_eq_single_of_mem (l, m) hk fun k _ hne => by rw [if_neg (fun h => hne h), mul_zero]]
      simp
    · rw [first_absent hs hk, Finset.sum_eq_zero]
      intro k hk'
      rw [if_neg (fun h => hk (by rw [← h]; exact hk')), mul_zero]
  rw [e1, e2, ← Finset.sum_sub_distrib]
  refine (norm_sum_le_of_le (Spec.pairs s) (f := fun k => _) (n := fun _ => 2 * M * ((((l : ℝ) + 1) * ((s.degreeMax : ℝ) + 1)) ^ 2 * (51 * h + 1 / 2 ^ 36))) fun k hk => ?_).trans (le_of_eq ?_)
  · rw [pairs_eq, List.mem_toFinset] at hk
    have v := hw.valid k hk
    have d : (k.1 : ℝ) ≤ s.degreeMax := by exact_mod_cast hw.degUpper k hk
    have k0 : (0 : ℝ) ≤ k.1 := by exact_mod_cast (abs_nonneg _).trans v
    rw [← mul_sub, norm_mul]
    refine mul_le_mul (FloatRotate.norm_le_parts (hM _ _)) ((gram hP hA p2 a2 sP sA hm v).trans ?_) (norm_nonneg _) (by linarith)
    gcongr
  · rw [Finset.sum_const, nsmul_eq_mul]; ring

end ImageRate
open ImageRate

/-- **C131**: make the image of a set on a grid over the sphere and read it back, all in double precision: nothing is raised, exactly the pairs below `lmax` are stored,
and every number is that of the set (zero if the set stores none) up to an error that goes down with the steps `h` of the grid, plus rounding. -/
theorem C131_roundtrip (Y : Harm) (T : SineLib) (hT : GoodCircle T) (S : List PyFloat → PyFloat) (hS : ∀ xs, IsNpSum xs (S xs)) (s : Coefs PyComplex) (hc : CSet 1 s) (hf : Spec.Finite s)
    (lmax : ℤ) (hb : lmax ≤ 2 ^ 20) (η : ℝ) (h0 : 0 ≤ η) (h1 : η ≤ 1 / 4) (hY : GoodHarm Y (max s.degreeMax (lmax - 1)) η) (M : ℝ) (hM : M ≤ 2 ^ 750)
    (hs : ∀ l m, PartsLe M (firstAt s l m)) (hN : (Spec.pairs s).card ≤ 2 ^ 24) (hL : s.degreeMax < 2 ^ 20) (P A : List PyFloat)
    (hP : CornerList P pi) (hA : CornerList A twoPi) (p2 : 2 ≤ P.length) (a2 : 2 ≤ A.length) (hn : (gridFacets P A).length ≤ 2 ^ 24) (h : ℝ) (sP : StepsLe P h) (sA : StepsLe A h) :
    ∃ x c, toImage Y s P A = .ok x ∧ fromImage Y T S x (some (P, A)) lmax = .ok (c, (P, A)) ∧ CSet 1 c ∧ Spec.Finite c ∧ (∀ l m, stores c l m ↔ |m| ≤ l ∧ l < lmax) ∧
      ∀ l m : ℤ, |m| ≤ l → l < lmax → ‖firstAt c l m - firstAt s l m‖ ≤
        600 * ((l : ℝ) + 1) * ((Spec.pairs s).card * ((s.degreeMax : ℝ) + 1) * (M + 1 / 2 ^ 900) + 1 / 2 ^ 900) *
          (η + ((gridFacets P A).length + (Spec.pairs s).card) / 2 ^ 50 + 1 / 2 ^ 41) +
        2 * (Spec.pairs s).card * M * (((l : ℝ) + 1) * ((s.degreeMax : ℝ) + 1)) ^ 2 * (51 * h + 1 / 2 ^ 36) := by
  obtain ⟨x, c, e1, e2, e3, e4, e5, e6⟩ := C130_round Y T hT S hS s hc hf lmax hb η h0 h1 hY M hM hs hN hL P A hP hA p2 a2 hn
  refine ⟨x, c, e1, e2, e3, e4, e5, fun l m hm hl => ?_⟩
  exact (norm_sub_le_norm_sub_add_norm_sub _ _ _).trans (add_le_add (e6 l m hm hl) (midpoint_near hc ((abs_nonneg _).trans (hs 0 0).1) hs hP hA p2 a2 sP sA hm))

/-- **C131**: the steps of the grid of `ZdiGeometry(n, k)`. -/
theorem C131_steps (n k : ℕ) (n2 : 2 ≤ n) (k2 : 2 ≤ k) (hn : n ≤ 2 ^ 20) (hk : k ≤ 2 ^ 20) :
    ∃ P A, corners (some n) (some k) = .ok (P, A) ∧ CornerList P pi ∧ CornerList A twoPi ∧ P.length = n ∧ A.length = k ∧ StepsLe P (4 / (n - 1 : ℕ)) ∧ StepsLe A (7 / (k - 1 : ℕ)) := by
  obtain ⟨P, A, e, cP, cA, lP, lA, fP, fA⟩ := C125_corners n k n2 k2 hn hk
  have key : ∀ (xs : List PyFloat) (N : ℕ) (b c : ℝ), 2 ≤ N → N ≤ 2 ^ 20 → b + 1 / 2 ^ 20 ≤ c → (∀ i : ℕ, ∀ x, xs[i]? = some x → |(x.num : ℝ) - i * b / (N - 1 : ℕ)| ≤ 1 / 2 ^ 47) →
      StepsLe xs (c / (N - 1 : ℕ)) := by
    intro xs N b c N2 hN hbc hx p hp
    obtain ⟨i, hi, rfl⟩ := List.getElem_of_mem hp
    have li : i < xs.length ∧ i < xs.tail.length := by
      rw [List.length_zip] at hi
      omega
    have li' : i + 1 < xs.length := by
      have := li.2
      rw [List.length_tail] at this
      omega
    rw [List.getElem_zip, List.getElem_tail]
    have a1 := hx i xs[i] (List.getElem?_eq_getElem li.1)
    have a2 := hx (i + 1) xs[i + 1] (List.getElem?_eq_getElem li')
    have N0 : (0 : ℝ) < ((N - 1 : ℕ) : ℝ) := by exact_mod_cast (by omega : 0 < N - 1)
    have N1 : ((N - 1 : ℕ) : ℝ) ≤ 2 ^ 20 := by exact_mod_cast (by omega : N - 1 ≤ 2 ^ 20)
    have e2 : ((i + 1 : ℕ) : ℝ) * b / (N - 1 : ℕ) = i * b / (N - 1 : ℕ) + b / (N - 1 : ℕ) := by push_cast; ring
    rw [e2] at a2
    have e3 : b / (N - 1 : ℕ) + 1 / 2 ^ 40 ≤ c / (N - 1 : ℕ) := by
      rw [← sub_nonneg, ← sub_sub, ← sub_div, sub_nonneg, le_div_iff₀ N0]
      have : (1 : ℝ) / 2 ^ 40 * ((N - 1 : ℕ) : ℝ) ≤ 1 / 2 ^ 40 * 2 ^ 20 := mul_le_mul_of_nonneg_left N1 (by positivity)
      norm_num at *
      linarith
    have n47 : (1 : ℝ) / 2 ^ 47 + 1 / 2 ^ 47 ≤ 1 / 2 ^ 40 := by norm_num
    rw [abs_le] at a1 a2
    linarith [a1.1, a1.2, a2.1, a2.2]
  have p315 := Real.pi_lt_d2
  exact ⟨P, A, e, cP, cA, lP, lA, key P n Real.pi 4 n2 hn (by norm_num at *; linarith) fP, key A k (2 * Real.pi) 7 k2 hk (by norm_num at *; linarith) fA⟩

/-! ### Non-vacuity -/

/-- A monopole of size 1. -/
private def exConst : Coefs PyComplex := ⟨[zeroJ], .cplx, [((0, 0), [(fin false 1, fin false 0)])], 0, 0⟩

private theorem exConst_cset : CSet 1 exConst := by
  refine ⟨wellFormed_of_WF ?_, rfl, rfl⟩
  constructor <;> simp [exConst, Coefs.keys] <;> intros <;> rfl

private theorem exConst_cases (l m : ℤ) : exConst.getI (l, m) = [(fin false 1, fin false 0)] ∨ exConst.getI (l, m) = [zeroJ] := by
  by_cases h2 : (l, m) = (0, 0)
  · rw [h2]; left; rfl
  · right
    exact Coefs.getI_of_not_mem _ _ (by
      rw [Prod.mk.injEq, not_and] at h2
      simpa [exConst, Coefs.keys] using h2)

private theorem exConst_ok : Spec.Finite exConst ∧ ∀ l m, PartsLe 1 (firstAt exConst l m) := by
  have d : ∀ n : ℕ, n < 2 ^ 53 → ∀ b : Bool, FinD (fin b (n : ℚ)) := fun n hn b => ⟨b, n, rfl, n, 0, hn, by norm_num, by norm_num, by simp⟩
  constructor
  · intro l m z hz
    rw [elem_getI] at hz
    rcases exConst_cases l m with h | h <;> rw [h, List.mem_singleton] at hz <;> subst hz
    · exact ⟨by exact_mod_cast d 1 (by norm_num) false, finD_zero _⟩
    · exact ⟨finD_zero _, finD_zero _⟩
  · intro l m
    rw [firstAt, elem_getI]
    rcases exConst_cases l m with h | h <;> rw [h] <;> constructor <;> norm_num [cval, PyFloat.num, zeroJ]

/-- Non-vacuity of `C131_roundtrip` and `C131_steps`: on the grid of `ZdiGeometry(2001, 4001)` the monopole comes back within a quarter. -/
example : ∃ P A x c, corners (some 2001) (some 4001) = .ok (P, A) ∧ toImage exHarm exConst P A = .ok x ∧
    fromImage exHarm FloatVisible.exCircle FloatEnergy.exSum x (some (P, A)) 1 = .ok (c, (P, A)) ∧ ‖firstAt c 0 0 - 1‖ ≤ 1 / 4 := by
  obtain ⟨P, A, e, cP, cA, lP, lA, sP, sA⟩ := C131_steps 2001 4001 (by norm_num) (by norm_num) (by norm_num) (by norm_num)
  have card : (Spec.pairs exConst).card = 1 := by rw [pairs_eq]; rfl
  have glen : (gridFacets P A).length = 8000000 := by
    have : (gridFacets P A).length = (A.length - 1) * (P.length - 1) := by simp [gridFacets, List.length_flatMap, List.length_zip]
    rw [this, lP, lA]
  obtain ⟨x, c, e1, e2, -, -, -, h⟩ := C131_roundtrip exHarm FloatVisible.exCircle FloatVisible.exCircle_good FloatEnergy.exSum FloatEnergy.exSum_ok exConst exConst_cset exConst_ok.1 1 (by norm_num)
    (1 / 2 ^ 49) (by norm_num) (by norm_num) (fun l m φ θ a b => exHarm_good l m φ θ a (b.trans (by decide))) 1 (one_le_pow₀ (by norm_num)) exConst_ok.2 (by rw [card]; norm_num) (by decide) P A cP cA
    (by omega) (by omega) (by rw [glen]; norm_num) (4 / 2000) (fun p hp => (sP p hp).trans (by norm_num)) (fun p hp => (sA p hp).trans (by norm_num))
  refine ⟨P, A, x, c, e, e1, e2, ?_⟩
  have f := h 0 0 (by norm_num) (by norm_num)
  have d : exConst.degreeMax = 0 := rfl
  have one : firstAt exConst 0 0 = 1 := by
    have : exConst.getI (0, 0) = [(fin false 1, fin false 0)] := rfl
    rw [firstAt, valueAt_eq, this]
    apply Complex.ext <;> norm_num [cval, PyFloat.num]
  rw [one, d, card, glen] at f
  refine f.trans ?_
  have v : (1 : ℝ) / 2 ^ 900 ≤ 1 := by rw [div_le_one (by positivity)]; exact one_le_pow₀ (by norm_num)
  generalize (1 : ℝ) / 2 ^ 900 = w at *
  norm_num
  linarith

end Verif
