import Verif.Model.FloatFold
import Verif.Props.FloatSets
import Verif.Props.FloatClose
import Verif.Props.FloatSphere
import Verif.Props.FieldSize
import Verif.Props.ImageLimit

/-!
# Property C128: folding negative orders in double precision
-/

set_option exponentiation.threshold 4000

namespace Verif
open Spec PyFloat FloatRange FloatSets FloatRound FloatDescribe

/-- The angle of a point, right up to rounding where it matters: turning the length by it gives the point. -/
def Spec.GoodArg (f : PyFloat → PyFloat → PyFloat) : Prop :=
  ∀ y x, FinD y → FinD x → FinD (f y x) ∧ |((f y x).num : ℝ)| ≤ 4 ∧
    |√((x.num : ℝ) ^ 2 + (y.num : ℝ) ^ 2) * Real.cos (f y x).num - x.num| ≤ √((x.num : ℝ) ^ 2 + (y.num : ℝ) ^ 2) / 2 ^ 49 ∧
    |√((x.num : ℝ) ^ 2 + (y.num : ℝ) ^ 2) * Real.sin (f y x).num - y.num| ≤ √((x.num : ℝ) ^ 2 + (y.num : ℝ) ^ 2) / 2 ^ 49

/-- A function of an angle, right up to rounding. -/
def Spec.GoodWave (f : PyFloat → PyFloat) (g : ℝ → ℝ) : Prop :=
  ∀ x, FinD x → |(x.num : ℝ)| ≤ 4 → FinD (f x) ∧ |((f x).num : ℝ) - g x.num| ≤ 1 / 2 ^ 50

/-- What is assumed of the functions of the C library and of numpy. -/
structure Spec.GoodFold (L : FoldLib) : Prop where
  hypot : ∀ x y, FinD x → FinD y → |(x.num : ℝ)| ≤ 2 ^ 990 → |(y.num : ℝ)| ≤ 2 ^ 990 → FinD (L.hypot x y) ∧
    |((L.hypot x y).num : ℝ) - √((x.num : ℝ) ^ 2 + (y.num : ℝ) ^ 2)| ≤ √((x.num : ℝ) ^ 2 + (y.num : ℝ) ^ 2) / 2 ^ 50 + 1 / 2 ^ 1000
  phase : GoodArg L.phase
  sin : GoodWave L.sin Real.sin
  cos : GoodWave L.cos Real.cos
  square : ∀ x, FinD x → |(x.num : ℝ)| ≤ 2 ^ 500 → FinD (L.square x) ∧ 0 ≤ (L.square x).num ∧
    |((L.square x).num : ℝ) - (x.num : ℝ) ^ 2| ≤ (x.num : ℝ) ^ 2 / 2 ^ 50 + 1 / 2 ^ 1000
  square_big : ∀ x, FinD x → 2 ^ 513 ≤ |(x.num : ℝ)| → L.square x = inf false
  square_num : ∀ x, FinD x → L.square x = inf false ∨ FinD (L.square x)
  sqrt : ∀ x, FinD x → 0 ≤ x.num → FinD (L.sqrt x) ∧ |((L.sqrt x).num : ℝ) - √(x.num : ℝ)| ≤ √(x.num : ℝ) / 2 ^ 50
  sqrt_inf : L.sqrt (inf false) = inf false
  atan2 : GoodArg L.atan2
  csin : GoodWave L.csin Real.sin
  ccos : GoodWave L.ccos Real.cos

/-- The number in the first column of a complex128 set at degree `l` and order `m`. -/
noncomputable def Spec.firstAt (s : Coefs PyComplex) (l m : ℤ) : ℂ := cval ((valueAt s l m).getD 0 zeroJ)

/-- The radial field whose coefficients are the numbers in the first column of a set. -/
noncomputable def Spec.storedField (s : Coefs PyComplex) (θ φ : ℝ) : ℝ := (∑ k ∈ pairs s, firstAt s k.1 k.2 * sphY k.1 k.2 θ φ).re

/-- Both parts of a complex number are at most `B`. -/
def Spec.PartsLe (B : ℝ) (c : ℂ) : Prop := |c.re| ≤ B ∧ |c.im| ≤ B

namespace FloatFold

theorem half_tiny : (1 : ℝ) / 2 ^ 1000 = (1 / 2 ^ 500) * (1 / 2 ^ 500) := by
  rw [one_div_mul_one_div, ← pow_add]

/-- A length times the cosine of its angle. -/
theorem back {t w : PyFloat} {e ρ σ g c : ℝ} (ht : FinD t) (hw : FinD w) (he : |e| ≤ 1) (h0 : 0 ≤ ρ) (h1 : ρ ≤ 2 ^ 1010) (s0 : 0 ≤ σ) (s1 : σ ≤ 1)
    (h : |(t.num : ℝ) - e * ρ| ≤ ρ / 2 ^ 47 + σ) (hg : |g| ≤ 1) (k : |(w.num : ℝ) - g| ≤ 1 / 2 ^ 50) (hc : |ρ * g - c| ≤ ρ / 2 ^ 49) :
    FinD (mul t w) ∧ |((mul t w).num : ℝ) - e * c| ≤ ρ / 2 ^ 46 + 3 * σ + 1 / 2 ^ 1000 := by
  have r0 : 0 ≤ ρ / 2 ^ 47 + σ := add_nonneg (div_nonneg h0 (by norm_num)) s0
  have w1 : |(w.num : ℝ)| ≤ 1 + 1 / 2 ^ 50 := by
    have := abs_sub_abs_le_abs_sub (w.num : ℝ) g
    linarith
  have t1 : |(t.num : ℝ)| ≤ ρ + (ρ / 2 ^ 47 + σ) := by
    have a := abs_sub_abs_le_abs_sub (t.num : ℝ) (e * ρ)
    have b : |e * ρ| ≤ ρ := by
      rw [abs_mul, abs_of_nonneg h0]
      exact mul_le_of_le_one_left h0 he
    linarith
  have p1 : |(t.num : ℝ) * w.num| ≤ (ρ + (ρ / 2 ^ 47 + σ)) * (1 + 1 / 2 ^ 50) := by
    rw [abs_mul]
    exact mul_le_mul t1 w1 (abs_nonneg _) (add_nonneg h0 r0)
  have p2 : |(t.num : ℝ) * w.num| ≤ 2 * ρ + 2 * σ := p1.trans (by norm_num; linarith)
  have p3 : |(t.num : ℝ) * w.num| ≤ 2 ^ 1012 := by
    refine p2.trans ?_
    rw [show (2 : ℝ) ^ 1012 = 4 * 2 ^ 1010 by rw [show (1012 : ℕ) = 2 + 1010 by norm_num, pow_add]; norm_num]
    have : (1 : ℝ) ≤ 2 ^ 1010 := one_le_pow₀ (by norm_num)
    generalize (2 : ℝ) ^ 1010 = x at *
    linarith
  obtain ⟨m1, m2⟩ := FloatDescribe.mul_real ht hw p3 (by norm_num)
  refine ⟨m1, ?_⟩
  have q1 : |(t.num : ℝ) * w.num - e * ρ * g| ≤ (ρ / 2 ^ 47 + σ) * (1 + 1 / 2 ^ 50) + ρ * (1 / 2 ^ 50) := by
    have e1 : (t.num : ℝ) * w.num - e * ρ * g = (t.num - e * ρ) * w.num + e * ρ * (w.num - g) := by ring
    rw [e1]
    refine (abs_add_le _ _).trans (add_le_add ?_ ?_)
    · rw [abs_mul]
      exact mul_le_mul h w1 (abs_nonneg _) r0
    · rw [abs_mul, abs_mul, abs_of_nonneg h0]
      exact mul_le_mul (mul_le_of_le_one_left h0 he) k (abs_nonneg _) h0
  have q2 : |e * ρ * g - e * c| ≤ ρ / 2 ^ 49 := by
    rw [show e * ρ * g - e * c = e * (ρ * g - c) by ring, abs_mul]
    exact (mul_le_of_le_one_left (abs_nonneg _) he).trans hc
  have q3 : |((mul t w).num : ℝ) - e * c| ≤ |((mul t w).num : ℝ) - t.num * w.num| + (|(t.num : ℝ) * w.num - e * ρ * g| + |e * ρ * g - e * c|) := by
    refine (abs_sub_le _ ((t.num : ℝ) * w.num) _).trans (add_le_add le_rfl (abs_sub_le _ _ _))
  refine q3.trans ((add_le_add m2 (add_le_add q1 q2)).trans ?_)
  generalize (1 : ℝ) / 2 ^ 1000 = τ at *
  generalize |(t.num : ℝ) * w.num| = x at *
  clear * - p2 h0 s0
  norm_num
  linarith

/-- The length of a pair of numbers. -/
theorem len_le {x y B : ℝ} (hx : |x| ≤ B) (hy : |y| ≤ B) : √(x ^ 2 + y ^ 2) ≤ 3 / 2 * B := by
  have b0 : 0 ≤ B := (abs_nonneg _).trans hx
  refine Real.sqrt_le_iff.2 ⟨by linarith, ?_⟩
  have := sq_le_sq' (abs_le.1 hx).1 (abs_le.1 hx).2
  have := sq_le_sq' (abs_le.1 hy).1 (abs_le.1 hy).2
  nlinarith

theorem isFin_fd {x : PyFloat} (h : FinD x) : isFin x = true := by
  obtain ⟨s, a, rfl, -⟩ := h
  rfl

/-- Modulus and phase of a finite number. -/
theorem polar_ok {L : FoldLib} (hL : GoodFold L) {z : PyComplex} (h1 : FinD z.1) (h2 : FinD z.2) (b1 : |(z.1.num : ℝ)| ≤ 2 ^ 990) (b2 : |(z.2.num : ℝ)| ≤ 2 ^ 990) :
    polar L z = .ok (L.hypot z.1 z.2, L.phase z.2 z.1) := by
  have h := (hL.hypot _ _ h1 h2 b1 b2).1
  unfold polar
  dsimp only
  rw [isFin_fd h1, isFin_fd h2, isFin_fd h]
  rfl

/-- The sign in front of the modulus. -/
theorem sign_ok (m : ℕ) {s : PyFloat} (hs : FinD s) : ∃ e : ℝ, e = (-1) ^ m ∧ FinD (mul (ofInt ((-1) ^ m)) s) ∧ ((mul (ofInt ((-1) ^ m)) s).num : ℝ) = e * s.num := by
  have hmax : |s.num| ≤ maxDouble := by
    obtain ⟨u, a, rfl, ha⟩ := hs
    have h0 := ha.nonneg
    cases u <;> simpa [PyFloat.num, abs_of_nonneg h0] using ha.le_max
  have key : ∀ q : ℤ, q = 1 ∨ q = -1 → FinD (mul (ofInt q) s) ∧ ((mul (ofInt q) s).num : ℝ) = q * s.num := by
    intro q hq
    have hi : FinD (ofInt q) ∧ (ofInt q).num = q := by
      rcases hq with rfl | rfl
      · rw [show ofInt 1 = fin false 1 by decide +kernel]
        exact ⟨⟨_, _, rfl, isDouble_one⟩, by simp [PyFloat.num]⟩
      · rw [show ofInt (-1) = fin true 1 by decide +kernel]
        exact ⟨⟨_, _, rfl, isDouble_one⟩, by simp [PyFloat.num]⟩
    have hp : |(ofInt q).num * s.num| ≤ maxDouble := by
      rw [hi.2, abs_mul]
      rcases hq with rfl | rfl <;> simpa using hmax
    obtain ⟨m1, m2⟩ := mul_num hi.1 hs hp
    refine ⟨m1, ?_⟩
    have e : rnd ((q : ℚ) * s.num) = q * s.num := by
      rcases hq with rfl | rfl
      · rw [Int.cast_one, one_mul]; exact num_double hs
      · rw [Int.cast_neg, Int.cast_one, neg_one_mul, rnd_neg, num_double hs]
    rw [m2, hi.2, e]
    push_cast
    ring
  refine ⟨(-1) ^ m, rfl, ?_⟩
  obtain ⟨k1, k2⟩ := key ((-1) ^ m) (by rcases Nat.even_or_odd m with h | h <;> simp [h])
  exact ⟨k1, by rw [k2]; push_cast; ring⟩

theorem pow_mono {a b : ℕ} (h : a ≤ b) : (2 : ℝ) ^ a ≤ 2 ^ b := pow_le_pow_right₀ (by norm_num) h

/-- The parts of a number from its modulus and phase. -/
theorem part_ok {L : FoldLib} (hL : GoodFold L) {z : PyComplex} (h1 : FinD z.1) (h2 : FinD z.2) {B : ℝ} (hB : B ≤ 2 ^ 990) (b1 : |(z.1.num : ℝ)| ≤ B)
    (b2 : |(z.2.num : ℝ)| ≤ B) {t : PyFloat} {e : ℝ} (ht : FinD t) (he : |e| ≤ 1) (et : (t.num : ℝ) = e * (L.hypot z.1 z.2).num) :
    (FinD (mul t (L.cos (L.phase z.2 z.1))) ∧ |((mul t (L.cos (L.phase z.2 z.1))).num : ℝ) - e * z.1.num| ≤ B / 2 ^ 45 + 4 * (1 / 2 ^ 1000)) ∧
      FinD (mul t (L.sin (L.phase z.2 z.1))) ∧ |((mul t (L.sin (L.phase z.2 z.1))).num : ℝ) - e * z.2.num| ≤ B / 2 ^ 45 + 4 * (1 / 2 ^ 1000) := by
  obtain ⟨p1, p2, p3, p4⟩ := hL.phase _ _ h2 h1
  obtain ⟨c1, c2⟩ := hL.cos _ p1 p2
  obtain ⟨s1, s2⟩ := hL.sin _ p1 p2
  obtain ⟨-, y2⟩ := hL.hypot _ _ h1 h2 (b1.trans hB) (b2.trans hB)
  have l := len_le b1 b2
  have l0 := Real.sqrt_nonneg ((z.1.num : ℝ) ^ 2 + (z.2.num : ℝ) ^ 2)
  have b0 : 0 ≤ B := (abs_nonneg _).trans b1
  generalize √((z.1.num : ℝ) ^ 2 + (z.2.num : ℝ) ^ 2) = ρ at *
  have τ0 : (0 : ℝ) ≤ 1 / 2 ^ 1000 := by positivity
  have τ1 : (1 : ℝ) / 2 ^ 1000 ≤ 1 := by rw [div_le_one (by positivity)]; exact one_le_pow₀ (by norm_num)
  have l1 : ρ ≤ 2 ^ 1010 := by
    have := pow_mono (show 991 ≤ 1010 by norm_num)
    rw [show (2 : ℝ) ^ 991 = 2 * 2 ^ 990 by rw [← pow_succ']] at this
    refine le_trans ?_ this
    generalize (2 : ℝ) ^ 990 = x at *
    linarith
  have ht' : |(t.num : ℝ) - e * ρ| ≤ ρ / 2 ^ 47 + 1 / 2 ^ 1000 := by
    rw [et, ← mul_sub, abs_mul]
    refine (mul_le_of_le_one_left (abs_nonneg _) he).trans (y2.trans (add_le_add ?_ le_rfl))
    gcongr
    · norm_num
    · norm_num
  have fin : ρ / 2 ^ 46 + 3 * (1 / 2 ^ 1000) + 1 / 2 ^ 1000 ≤ B / 2 ^ 45 + 4 * (1 / 2 ^ 1000) := by
    generalize (1 : ℝ) / 2 ^ 1000 = τ at *
    clear * - l b0
    norm_num
    linarith
  obtain ⟨x1, x2⟩ := back ht c1 he l0 l1 τ0 τ1 ht' (Real.abs_cos_le_one _) c2 p3
  obtain ⟨x3, x4⟩ := back ht s1 he l0 l1 τ0 τ1 ht' (Real.abs_sin_le_one _) s2 p4
  exact ⟨⟨x1, x2.trans fin⟩, x3, x4.trans fin⟩

/-- The modulus of the folded number. -/
theorem modulus_ok {L : FoldLib} (hL : GoodFold L) {c d : PyFloat} (hc : FinD c) (hd : FinD d) (bc : |(c.num : ℝ)| ≤ 2 ^ 500) (bd : |(d.num : ℝ)| ≤ 2 ^ 500) :
    FinD (L.sqrt (add (L.square c) (L.square d))) ∧
      |((L.sqrt (add (L.square c) (L.square d))).num : ℝ) - √((c.num : ℝ) ^ 2 + (d.num : ℝ) ^ 2)| ≤ √((c.num : ℝ) ^ 2 + (d.num : ℝ) ^ 2) / 2 ^ 47 + 4 * (1 / 2 ^ 500) := by
  obtain ⟨q1, q2, q3⟩ := hL.square c hc bc
  obtain ⟨r1, r2, r3⟩ := hL.square d hd bd
  have n0 : (0 : ℝ) ≤ 1 / 2 ^ 500 := by positivity
  have n1 : (1 : ℝ) / 2 ^ 500 ≤ 1 := by rw [div_le_one (by positivity)]; exact one_le_pow₀ (by norm_num)
  have e2 : (c.num : ℝ) ^ 2 ≤ 2 ^ 1000 ∧ (d.num : ℝ) ^ 2 ≤ 2 ^ 1000 := by
    have k : ∀ x : ℝ, |x| ≤ 2 ^ 500 → x ^ 2 ≤ 2 ^ 1000 := fun x h => by
      have := mul_self_le_mul_self (abs_nonneg x) h
      rw [abs_mul_abs_self, ← pow_add] at this
      rw [sq]
      exact this
    exact ⟨k _ bc, k _ bd⟩
  have sc := sq_nonneg (c.num : ℝ)
  have sd := sq_nonneg (d.num : ℝ)
  have u1 : (0 : ℝ) ≤ (L.square c).num := by exact_mod_cast q2
  have u2 : (0 : ℝ) ≤ (L.square d).num := by exact_mod_cast r2
  have hs : |((L.square c).num : ℝ) + (L.square d).num| ≤ 2 ^ 1003 := by
    rw [abs_of_nonneg (by linarith)]
    have a := (abs_le.1 q3).2
    have b := (abs_le.1 r3).2
    have t1 : (1 : ℝ) / 2 ^ 1000 ≤ 1 := by rw [div_le_one (by positivity)]; exact one_le_pow₀ (by norm_num)
    have t2 : (1 : ℝ) ≤ 2 ^ 1000 := one_le_pow₀ (by norm_num)
    rw [show (2 : ℝ) ^ 1003 = 8 * 2 ^ 1000 by rw [show (1003 : ℕ) = 3 + 1000 by norm_num, pow_add]; norm_num]
    generalize (1 : ℝ) / 2 ^ 1000 = τ at *
    generalize (2 : ℝ) ^ 1000 = x at *
    generalize (c.num : ℝ) ^ 2 = p at *
    generalize (d.num : ℝ) ^ 2 = q at *
    norm_num at a b
    linarith [e2.1, e2.2]
  obtain ⟨v1, v2⟩ := FloatDescribe.add_real q1 r1 hs (by norm_num)
  have v3 : 0 ≤ (add (L.square c) (L.square d)).num := by
    rw [(add_num q1 r1 (le_max_of_real (k := 1003) (by push_cast; exact hs) (by norm_num))).2]
    exact rnd_nonneg (by linarith)
  obtain ⟨w1, w2⟩ := hL.sqrt _ v1 v3
  refine ⟨w1, ?_⟩
  have hq : |((add (L.square c) (L.square d)).num : ℝ) - ((c.num : ℝ) ^ 2 + (d.num : ℝ) ^ 2)| ≤
      ((c.num : ℝ) ^ 2 + (d.num : ℝ) ^ 2) / 2 ^ 48 + 9 * (1 / 2 ^ 500 * (1 / 2 ^ 500)) := by
    rw [abs_of_nonneg (add_nonneg u1 u2), half_tiny] at v2
    rw [half_tiny] at q3 r3
    have t0 : (0 : ℝ) ≤ 1 / 2 ^ 500 * (1 / 2 ^ 500) := mul_nonneg n0 n0
    generalize (1 : ℝ) / 2 ^ 500 * (1 / 2 ^ 500) = τ at *
    generalize (c.num : ℝ) ^ 2 = p at *
    generalize (d.num : ℝ) ^ 2 = q at *
    generalize ((add (L.square c) (L.square d)).num : ℝ) = f at *
    generalize ((L.square c).num : ℝ) = g at *
    generalize ((L.square d).num : ℝ) = k at *
    clear * - v2 q3 r3 sc sd t0
    rw [abs_le] at v2 q3 r3 ⊢
    obtain ⟨v, w⟩ := v2
    obtain ⟨i, j⟩ := q3
    obtain ⟨o, u⟩ := r3
    norm_num at *
    constructor <;> linarith
  have v4 : (0 : ℝ) ≤ (add (L.square c) (L.square d)).num := by exact_mod_cast v3
  generalize ((add (L.square c) (L.square d)).num : ℝ) = Q at *
  generalize ((L.sqrt (add (L.square c) (L.square d))).num : ℝ) = t at *
  have z0 : 0 ≤ (c.num : ℝ) ^ 2 + (d.num : ℝ) ^ 2 := add_nonneg sc sd
  generalize (c.num : ℝ) ^ 2 + (d.num : ℝ) ^ 2 = P at *
  generalize (1 : ℝ) / 2 ^ 500 = h at *
  have P1 := Real.sq_sqrt z0
  have P0 := Real.sqrt_nonneg P
  generalize √P = ρ at *
  subst P1
  clear * - v4 z0 n0 P0 hq w2 n1
  have up : √Q ≤ ρ * (1 + 1 / 2 ^ 48) + 3 * h := by
    refine Real.sqrt_le_iff.2 ⟨by positivity, ?_⟩
    have := (abs_le.1 hq).2
    have k1 := mul_nonneg P0 n0
    norm_num at this ⊢
    nlinarith
  have lo : ρ * (1 - 1 / 2 ^ 48) - 3 * h ≤ √Q := by
    rcases le_total (ρ * (1 - 1 / 2 ^ 48) - 3 * h) 0 with hn | hn
    · exact hn.trans (Real.sqrt_nonneg _)
    · refine Real.le_sqrt_of_sq_le ?_
      have := (abs_le.1 hq).1
      have k1 := mul_nonneg hn n0
      norm_num at this hn k1 ⊢
      nlinarith
  have s0 := Real.sqrt_nonneg Q
  rw [abs_le] at w2 ⊢
  norm_num at *
  constructor <;> linarith [w2.1, w2.2]

/-- `cmath.rect`. -/
theorem rect_ok {L : FoldLib} (hL : GoodFold L) {c d t : PyFloat} (hc : FinD c) (hd : FinD d) (ht : FinD t) {ρ : ℝ}
    (hρ : ρ = √((c.num : ℝ) ^ 2 + (d.num : ℝ) ^ 2)) (h1 : ρ ≤ 2 ^ 1010) (h : |(t.num : ℝ) - ρ| ≤ ρ / 2 ^ 47 + 4 * (1 / 2 ^ 500)) :
    ∃ z, rect L t (L.atan2 d c) = .ok z ∧ FinD z.1 ∧ FinD z.2 ∧ |(z.1.num : ℝ) - c.num| ≤ ρ / 2 ^ 46 + 13 * (1 / 2 ^ 500) ∧
      |(z.2.num : ℝ) - d.num| ≤ ρ / 2 ^ 46 + 13 * (1 / 2 ^ 500) := by
  obtain ⟨a1, a2, a3, a4⟩ := hL.atan2 d c hd hc
  rw [← hρ] at a3 a4
  have ρ0 : 0 ≤ ρ := hρ ▸ Real.sqrt_nonneg _
  have n0 : (0 : ℝ) ≤ 1 / 2 ^ 500 := by positivity
  have n1 : 4 * ((1 : ℝ) / 2 ^ 500) ≤ 1 := by
    rw [mul_one_div, div_le_one (by positivity), show (500 : ℕ) = 2 + 498 by norm_num, pow_add]
    have : (1 : ℝ) ≤ 2 ^ 498 := one_le_pow₀ (by norm_num)
    generalize (2 : ℝ) ^ 498 = x at *
    linarith
  obtain ⟨b1, b2⟩ := hL.ccos _ a1 a2
  obtain ⟨b3, b4⟩ := hL.csin _ a1 a2
  generalize L.atan2 d c = γ at *
  obtain ⟨u, b, rfl, hb⟩ := a1
  by_cases h0 : b = 0
  · subst h0
    have e0 : (((fin u 0).num : ℚ) : ℝ) = 0 := by cases u <;> simp [PyFloat.num]
    rw [e0, Real.cos_zero, mul_one] at a3
    rw [e0, Real.sin_zero, mul_zero, zero_sub, abs_neg] at a4
    obtain ⟨m1, m2⟩ := mul_num ht ⟨u, 0, rfl, hb⟩ (by
      rw [show (fin u 0).num = 0 by exact_mod_cast e0, mul_zero, abs_zero]; exact isDouble_zero.le_max)
    rw [show (fin u 0).num = 0 by exact_mod_cast e0, mul_zero, rnd_zero] at m2
    refine ⟨(t, mul t (fin u 0)), ?_, ht, m1, ?_, ?_⟩
    · obtain ⟨s, a, rfl, -⟩ := ht
      simp [rect]
    · have := (abs_sub_le (t.num : ℝ) ρ c.num).trans (add_le_add h a3)
      refine this.trans ?_
      generalize (1 : ℝ) / 2 ^ 500 = x at *
      clear * - ρ0 n0
      norm_num
      linarith
    · dsimp only
      rw [m2, Rat.cast_zero, zero_sub, abs_neg]
      refine a4.trans ?_
      generalize (1 : ℝ) / 2 ^ 500 = x at *
      clear * - ρ0 n0
      norm_num
      linarith
  · have tt : (1 : ℝ) / 2 ^ 1000 ≤ 1 / 2 ^ 500 := one_div_le_one_div_of_le (by positivity) (pow_mono (by norm_num))
    have he : |(1 : ℝ)| ≤ 1 := by rw [abs_one]
    obtain ⟨x1, x2⟩ := back (e := 1) ht b1 he ρ0 h1 (mul_nonneg (by norm_num) n0) n1 (by rw [one_mul]; exact h) (Real.abs_cos_le_one _) b2 a3
    obtain ⟨x3, x4⟩ := back (e := 1) ht b3 he ρ0 h1 (mul_nonneg (by norm_num) n0) n1 (by rw [one_mul]; exact h) (Real.abs_sin_le_one _) b4 a4
    rw [one_mul] at x2 x4
    refine ⟨(mul t (L.ccos (fin u b)), mul t (L.csin (fin u b))), ?_, x1, x3, x2.trans ?_, x4.trans ?_⟩
    · obtain ⟨s, a, rfl, -⟩ := ht
      simp [rect, h0]
    · generalize (1 : ℝ) / 2 ^ 1000 = y at *
      generalize (1 : ℝ) / 2 ^ 500 = x at *
      linarith
    · generalize (1 : ℝ) / 2 ^ 1000 = y at *
      generalize (1 : ℝ) / 2 ^ 500 = x at *
      linarith

/-- The two sums of `collect_cosines` in `map_to_positive_orders`. -/
theorem terms_ok {L : FoldLib} (hL : GoodFold L) {m : ℤ} (hm : 0 ≤ m) {cp cn : PyComplex} (p1 : FinD cp.1) (p2 : FinD cp.2) (n1 : FinD cn.1) (n2 : FinD cn.2) {B : ℝ}
    (hB : B ≤ 2 ^ 990) (bp1 : |(cp.1.num : ℝ)| ≤ B) (bp2 : |(cp.2.num : ℝ)| ≤ B) (bn1 : |(cn.1.num : ℝ)| ≤ B) (bn2 : |(cn.2.num : ℝ)| ≤ B) :
    ∃ c d, foldPair L m cp cn = rect L (L.sqrt (add (L.square c) (L.square d))) (L.atan2 d c) ∧ FinD c ∧ FinD d ∧
      |(c.num : ℝ) - (cp.1.num + (-1) ^ m * cn.1.num)| ≤ B / 2 ^ 43 + 10 * (1 / 2 ^ 500) ∧
      |(d.num : ℝ) - (cp.2.num - (-1) ^ m * cn.2.num)| ≤ B / 2 ^ 43 + 10 * (1 / 2 ^ 500) ∧
      |(c.num : ℝ)| ≤ 3 * B + 10 * (1 / 2 ^ 500) ∧ |(d.num : ℝ)| ≤ 3 * B + 10 * (1 / 2 ^ 500) := by
  have b0 : 0 ≤ B := (abs_nonneg _).trans bp1
  have hp := polar_ok hL p1 p2 (bp1.trans hB) (bp2.trans hB)
  have hn := polar_ok hL n1 n2 (bn1.trans hB) (bn2.trans hB)
  have fp := (hL.hypot _ _ p1 p2 (bp1.trans hB) (bp2.trans hB)).1
  have fn := (hL.hypot _ _ n1 n2 (bn1.trans hB) (bn2.trans hB)).1
  obtain ⟨e, he, g1, g2⟩ := sign_ok m.toNat fn
  have he1 : |e| = 1 := by rw [he, abs_pow, abs_neg, abs_one, one_pow]
  have em : (-1 : ℝ) ^ m = e := by
    rw [he, ← zpow_natCast, Int.toNat_of_nonneg hm]
  rw [em]
  obtain ⟨⟨x1, x2⟩, x3, x4⟩ := part_ok hL p1 p2 hB bp1 bp2 (e := 1) fp (by rw [abs_one]) (by rw [one_mul])
  obtain ⟨⟨y1, y2⟩, y3, y4⟩ := part_ok hL n1 n2 hB bn1 bn2 g1 he1.le g2
  rw [one_mul] at x2 x4
  have τ0 : (0 : ℝ) ≤ 1 / 2 ^ 1000 := by positivity
  have n0 : (0 : ℝ) ≤ 1 / 2 ^ 500 := by positivity
  have tt : (1 : ℝ) / 2 ^ 1000 ≤ 1 / 2 ^ 500 := one_div_le_one_div_of_le (by positivity) (pow_mono (by norm_num))
  have en : |e * (cn.1.num : ℝ)| ≤ B ∧ |e * (cn.2.num : ℝ)| ≤ B := by
    rw [abs_mul, abs_mul, he1, one_mul, one_mul]; exact ⟨bn1, bn2⟩
  have t1 : (1 : ℝ) / 2 ^ 500 ≤ 1 := by rw [div_le_one (by positivity)]; exact one_le_pow₀ (by norm_num)
  have one990 : (1 : ℝ) ≤ 2 ^ 990 := one_le_pow₀ (by norm_num)
  have small : ∀ a b A A' : ℝ, |a - A| ≤ B / 2 ^ 45 + 4 * (1 / 2 ^ 1000) → |b - A'| ≤ B / 2 ^ 45 + 4 * (1 / 2 ^ 1000) → |A| ≤ B → |A'| ≤ B →
      |a| + |b| ≤ 3 * B + 8 * (1 / 2 ^ 500) := by
    intro a b A A' h1 h2 h3 h4
    have k1 := abs_sub_abs_le_abs_sub a A
    have k2 := abs_sub_abs_le_abs_sub b A'
    generalize (1 : ℝ) / 2 ^ 1000 = τ at *
    generalize (1 : ℝ) / 2 ^ 500 = ν at *
    generalize |a - A| = q1 at *
    generalize |b - A'| = q2 at *
    generalize |a| = q3 at *
    generalize |b| = q4 at *
    generalize |A| = q5 at *
    generalize |A'| = q6 at *
    clear * - k1 k2 h1 h2 h3 h4 tt b0
    norm_num at *
    linarith
  have big : 3 * B + 8 * (1 / 2 ^ 500) ≤ 2 ^ 999 := by
    rw [show (999 : ℕ) = 9 + 990 by norm_num, pow_add]
    generalize (1 : ℝ) / 2 ^ 500 = ν at *
    generalize (2 : ℝ) ^ 990 = x at *
    norm_num
    linarith
  have S1 := small _ _ _ _ x2 y2 bp1 en.1
  have S2 := small _ _ _ _ x4 y4 bp2 en.2
  obtain ⟨c1, c2⟩ := FloatDescribe.add_real x1 y1 ((abs_add_le _ _).trans (S1.trans big)) (by norm_num)
  obtain ⟨d1, d2⟩ := FloatDescribe.sub_real x3 y3 ((abs_sub _ _).trans (S2.trans big)) (by norm_num)
  have C : ∀ f u v A A' : ℝ, |f - (u + v)| ≤ |u + v| / 2 ^ 53 + 1 / 2 ^ 1000 → |u - A| ≤ B / 2 ^ 45 + 4 * (1 / 2 ^ 1000) →
      |v - A'| ≤ B / 2 ^ 45 + 4 * (1 / 2 ^ 1000) → |u + v| ≤ 3 * B + 8 * (1 / 2 ^ 500) → |f - (A + A')| ≤ B / 2 ^ 43 + 10 * (1 / 2 ^ 500) := by
    intro f u v A A' h1 h2 h3 h4
    have k1 := abs_sub_le f (u + v) (A + A')
    have k2 : |u + v - (A + A')| ≤ |u - A| + |v - A'| := by
      rw [show u + v - (A + A') = (u - A) + (v - A') by ring]; exact abs_add_le _ _
    generalize (1 : ℝ) / 2 ^ 1000 = τ at *
    generalize (1 : ℝ) / 2 ^ 500 = ν at *
    generalize |f - (u + v)| = q1 at *
    generalize |f - (A + A')| = q2 at *
    generalize |u + v - (A + A')| = q3 at *
    generalize |u - A| = q4 at *
    generalize |v - A'| = q5 at *
    generalize |u + v| = q6 at *
    clear * - k1 k2 h1 h2 h3 h4 tt b0 n0
    norm_num at *
    linarith
  have cc := C _ _ _ _ _ c2 x2 y2 ((abs_add_le _ _).trans S1)
  have dd := C _ _ (-((mul (mul (ofInt ((-1) ^ m.toNat)) (L.hypot cn.1 cn.2)) (L.sin (L.phase cn.2 cn.1))).num : ℝ)) _ (-(e * cn.2.num)) (by
      rw [← sub_eq_add_neg]; exact d2) x4 (by rw [← neg_sub, neg_neg_sub_neg, abs_sub_comm]; exact y4) (by
      rw [← sub_eq_add_neg]; exact (abs_sub _ _).trans S2)
  rw [← sub_eq_add_neg] at dd
  set c := add (mul (L.hypot cp.1 cp.2) (L.cos (L.phase cp.2 cp.1))) (mul (mul (ofInt ((-1) ^ m.toNat)) (L.hypot cn.1 cn.2)) (L.cos (L.phase cn.2 cn.1)))
  set d := sub (mul (L.hypot cp.1 cp.2) (L.sin (L.phase cp.2 cp.1))) (mul (mul (ofInt ((-1) ^ m.toNat)) (L.hypot cn.1 cn.2)) (L.sin (L.phase cn.2 cn.1)))
  have lim : ∀ f A A' : ℝ, |f - (A + A')| ≤ B / 2 ^ 43 + 10 * (1 / 2 ^ 500) → |A| ≤ B → |A'| ≤ B → |f| ≤ 3 * B + 10 * (1 / 2 ^ 500) := by
    intro f A A' h1 h2 h3
    have k1 := abs_sub_abs_le_abs_sub f (A + A')
    have k2 := abs_add_le A A'
    generalize (1 : ℝ) / 2 ^ 500 = ν at *
    generalize |f - (A + A')| = q1 at *
    generalize |A + A'| = q2 at *
    generalize |A| = q3 at *
    generalize |A'| = q4 at *
    generalize |f| = q5 at *
    clear * - k1 k2 h1 h2 h3 b0
    norm_num at *
    linarith
  have lc := lim _ _ _ cc bp1 en.1
  have ld := lim (d.num : ℝ) cp.2.num (-(e * cn.2.num)) (by rw [← sub_eq_add_neg]; exact dd) bp2 (by rw [abs_neg]; exact en.2)
  refine ⟨c, d, ?_, c1, d1, cc, dd, lc, ld⟩
  rw [foldPair, hp, hn]
  rfl

/-- The folded coefficient. -/
theorem pair_ok {L : FoldLib} (hL : GoodFold L) {m : ℤ} (hm : 0 ≤ m) {cp cn : PyComplex} (p1 : FinD cp.1) (p2 : FinD cp.2) (n1 : FinD cn.1) (n2 : FinD cn.2) {B : ℝ}
    (hB : B ≤ 2 ^ 490) (bp1 : |(cp.1.num : ℝ)| ≤ B) (bp2 : |(cp.2.num : ℝ)| ≤ B) (bn1 : |(cn.1.num : ℝ)| ≤ B) (bn2 : |(cn.2.num : ℝ)| ≤ B) :
    ∃ z, foldPair L m cp cn = .ok z ∧ FinD z.1 ∧ FinD z.2 ∧ |(z.1.num : ℝ) - (cp.1.num + (-1) ^ m * cn.1.num)| ≤ B / 2 ^ 42 + 1 / 2 ^ 490 ∧
      |(z.2.num : ℝ) - (cp.2.num - (-1) ^ m * cn.2.num)| ≤ B / 2 ^ 42 + 1 / 2 ^ 490 := by
  have b0 : 0 ≤ B := (abs_nonneg _).trans bp1
  obtain ⟨c, d, e, c1, d1, cc, dd, lc, ld⟩ := terms_ok hL hm p1 p2 n1 n2 (hB.trans (pow_mono (by norm_num))) bp1 bp2 bn1 bn2
  have n490 : (1 : ℝ) / 2 ^ 490 = 1024 * (1 / 2 ^ 500) := by
    rw [show (500 : ℕ) = 10 + 490 by norm_num, pow_add]
    generalize (2 : ℝ) ^ 490 = x
    rw [one_div, one_div, mul_inv, ← mul_assoc]
    norm_num
  have n0 : (0 : ℝ) ≤ 1 / 2 ^ 500 := by positivity
  have t1 : (1 : ℝ) / 2 ^ 500 ≤ 1 := by rw [div_le_one (by positivity)]; exact one_le_pow₀ (by norm_num)
  have P500 : (2 : ℝ) ^ 500 = 1024 * 2 ^ 490 := by rw [show (500 : ℕ) = 10 + 490 by norm_num, pow_add]; norm_num
  have one490 : (1 : ℝ) ≤ 2 ^ 490 := one_le_pow₀ (by norm_num)
  have big' : 3 * B + 10 * (1 / 2 ^ 500) ≤ 2 ^ 500 := by
    refine le_trans ?_ P500.symm.le
    clear * - t1 hB one490
    generalize (1 : ℝ) / 2 ^ 500 = ν at *
    generalize (2 : ℝ) ^ 490 = x at *
    linarith
  obtain ⟨t2, t3⟩ := modulus_ok hL c1 d1 (lc.trans big') (ld.trans big')
  have lρ := len_le lc ld
  have lρ' : √((c.num : ℝ) ^ 2 + (d.num : ℝ) ^ 2) ≤ 2 ^ 1010 := by
    refine lρ.trans (le_trans ?_ (pow_mono (show 501 ≤ 1010 by norm_num)))
    rw [show (2 : ℝ) ^ 501 = 2 * 2 ^ 500 by rw [← pow_succ']]
    have y0 := (abs_nonneg _).trans lc
    clear * - y0 big'
    generalize 3 * B + 10 * (1 / 2 ^ 500) = y at *
    generalize (2 : ℝ) ^ 500 = x at *
    linarith
  obtain ⟨z, z1, z2, z3, z4, z5⟩ := rect_ok hL c1 d1 t2 rfl lρ' t3
  have last : ∀ f g A : ℝ, |f - g| ≤ √((c.num : ℝ) ^ 2 + (d.num : ℝ) ^ 2) / 2 ^ 46 + 13 * (1 / 2 ^ 500) → |g - A| ≤ B / 2 ^ 43 + 10 * (1 / 2 ^ 500) →
      |f - A| ≤ B / 2 ^ 42 + 1 / 2 ^ 490 := by
    intro f g A h1 h2
    have k := abs_sub_le f g A
    rw [n490]
    generalize √((c.num : ℝ) ^ 2 + (d.num : ℝ) ^ 2) = ρ at *
    generalize (1 : ℝ) / 2 ^ 500 = ν at *
    generalize |f - g| = q1 at *
    generalize |g - A| = q2 at *
    generalize |f - A| = q3 at *
    clear * - k h1 h2 lρ b0 n0
    norm_num at *
    linarith
  refine ⟨z, ?_, z2, z3, last _ _ _ z4 cc, last _ _ _ z5 dd⟩
  rw [e]
  exact z1

/-! ### Sets -/

theorem mem_foldKeys {L : ℤ} {k : Key} : k ∈ Converter.foldKeys L ↔ 0 ≤ k.2 ∧ k.2 ≤ k.1 ∧ k.1 ≤ L := by
  obtain ⟨l, m⟩ := k
  simp only [Converter.foldKeys, List.mem_flatMap, mem_pyRange, List.mem_cons, List.mem_map, Prod.mk.injEq]
  constructor
  · rintro ⟨l', h, (⟨rfl, rfl⟩ | ⟨m', hm, rfl, rfl⟩)⟩ <;> omega
  · rintro ⟨h1, h2, h3⟩
    refine ⟨l, ⟨by omega, by omega⟩, ?_⟩
    by_cases h : m = 0
    · exact Or.inl ⟨rfl, h⟩
    · exact Or.inr ⟨m, ⟨by omega, by omega⟩, rfl, rfl⟩

theorem foldKeys_nodup (L : ℤ) : (Converter.foldKeys L).Nodup := by
  rw [Converter.foldKeys, List.nodup_flatMap]
  refine ⟨fun l _ => ?_, ?_⟩
  · rw [List.nodup_cons]
    refine ⟨?_, (pyRange_nodup _ _).map fun a b h => by simpa using h⟩
    simp only [List.mem_map, mem_pyRange, Prod.mk.injEq]
    rintro ⟨m, h, _, rfl⟩; omega
  · refine (pyRange_nodup 0 (L + 1)).imp fun {a b} h => ?_
    rw [Function.onFun, List.disjoint_left]
    intro k h1 h2
    have e1 : k.1 = a := by
      simp only [List.mem_cons, List.mem_map] at h1
      rcases h1 with rfl | ⟨m, _, rfl⟩ <;> rfl
    have e2 : k.1 = b := by
      simp only [List.mem_cons, List.mem_map] at h2
      rcases h2 with rfl | ⟨m, _, rfl⟩ <;> rfl
    exact h (e1.symm.trans e2)

theorem getI_one {s : Coefs PyComplex} (h : CSet 1 s) (k : Key) : s.getI k = [(s.getI k).getD 0 zeroJ] := by
  have hl := (WF_of_wellFormed h.wf).getI_length k
  rw [h.dflt, List.length_replicate] at hl
  obtain ⟨c, hc⟩ := List.length_eq_one_iff.1 hl
  rw [hc]; rfl

/-- The parts of a number that differs little in each part. -/
theorem norm_parts {z w : ℂ} {a : ℝ} (h1 : |z.re - w.re| ≤ a) (h2 : |z.im - w.im| ≤ a) : ‖z - w‖ ≤ 2 * a := by
  refine (Complex.norm_le_abs_re_add_abs_im _).trans ?_
  rw [Complex.sub_re, Complex.sub_im]
  linarith

theorem sign_cast (m : ℤ) : ((-1 : ℂ)) ^ m = (((-1 : ℝ) ^ m : ℝ) : ℂ) := by push_cast; rfl

end FloatFold

open FloatFold

/-- **C128**: `map_to_positive_orders` on finite numbers of at most `2^490` stores exactly the pairs `0 ≤ m ≤ l ≤ degree_max` and finite
numbers. Order 0 is copied bit by bit; the number at a positive order is the sum of the coefficient and of `(-1)^m` times the conjugate of
that of the opposite order, up to `2^-41` times the larger part. -/
theorem C128_fold (L : FoldLib) (hL : GoodFold L) (s : Coefs PyComplex) (h : CSet 1 s) (hf : Spec.Finite s) (hs : ∀ l m, PartsLe (2 ^ 490) (firstAt s l m)) :
    ∃ t, FloatFold.mapToPositiveOrders L s = .ok t ∧ CSet 1 t ∧ Spec.Finite t ∧ (∀ l m, stores t l m ↔ 0 ≤ m ∧ m ≤ l ∧ l ≤ s.degreeMax) ∧
      (∀ l, 0 ≤ l → l ≤ s.degreeMax → valueAt t l 0 = valueAt s l 0) ∧
      ∀ l m : ℤ, 1 ≤ m → m ≤ l → l ≤ s.degreeMax → ∀ B : ℝ, PartsLe B (firstAt s l m) → PartsLe B (firstAt s l (-m)) →
        ‖firstAt t l m - (firstAt s l m + (-1) ^ m * (starRingEnd ℂ) (firstAt s l (-m)))‖ ≤ B / 2 ^ 41 + 1 / 2 ^ 489 := by
  have hw := WF_of_wellFormed h.wf
  have key : ∀ k : Key, 0 ≤ k.2 → ∃ z : PyComplex, foldPair L k.2 ((s.getI k).getD 0 zeroJ) ((s.getI (k.1, -k.2)).getD 0 zeroJ) = .ok z ∧ FinD z.1 ∧ FinD z.2 ∧
      ∀ B : ℝ, PartsLe B (firstAt s k.1 k.2) → PartsLe B (firstAt s k.1 (-k.2)) →
        ‖cval z - (firstAt s k.1 k.2 + (-1) ^ k.2 * (starRingEnd ℂ) (firstAt s k.1 (-k.2)))‖ ≤ B / 2 ^ 41 + 1 / 2 ^ 489 := by
    intro k hk
    obtain ⟨p1, p2⟩ := elem_fin hf k.1 k.2 0
    obtain ⟨n1, n2⟩ := elem_fin hf k.1 (-k.2) 0
    have b1 := hs k.1 k.2
    have b2 := hs k.1 (-k.2)
    obtain ⟨z, z1, z2, z3, -, -⟩ := pair_ok hL hk p1 p2 n1 n2 le_rfl b1.1 b1.2 b2.1 b2.2
    refine ⟨z, z1, z2, z3, fun B c1 c2 => ?_⟩
    have key : ∀ B : ℝ, B ≤ 2 ^ 490 → PartsLe B (firstAt s k.1 k.2) → PartsLe B (firstAt s k.1 (-k.2)) →
        ‖cval z - (firstAt s k.1 k.2 + (-1) ^ k.2 * (starRingEnd ℂ) (firstAt s k.1 (-k.2)))‖ ≤ B / 2 ^ 41 + 1 / 2 ^ 489 := by
      intro B hB c1 c2
      obtain ⟨z', y1, -, -, y4, y5⟩ := pair_ok hL hk p1 p2 n1 n2 hB c1.1 c1.2 c2.1 c2.2
      obtain rfl : z = z' := by
        have := z1.symm.trans y1
        simpa using this
      refine (norm_parts (a := B / 2 ^ 42 + 1 / 2 ^ 490) ?_ ?_).trans ?_
      · refine le_of_eq_of_le ?_ y4
        rw [sign_cast]
        simp only [Complex.add_re, Complex.mul_re, Complex.conj_re, Complex.conj_im, Complex.ofReal_re, Complex.ofReal_im, zero_mul, sub_zero]
        rfl
      · refine le_of_eq_of_le ?_ y5
        rw [sign_cast]
        simp only [Complex.add_im, Complex.mul_im, Complex.conj_re, Complex.conj_im, Complex.ofReal_re, Complex.ofReal_im, zero_mul, add_zero, mul_neg, ← sub_eq_add_neg]
        rfl
      · rw [show (2 : ℝ) ^ 490 = 2 * 2 ^ 489 by rw [← pow_succ']]
        generalize (2 : ℝ) ^ 489 = x
        rw [one_div, mul_inv, one_div]
        norm_num
        linarith
    rcases le_total B (2 ^ 490) with hB | hB
    · exact key B hB c1 c2
    · refine (key _ le_rfl b1 b2).trans ?_
      have := div_le_div_of_nonneg_right hB (show (0 : ℝ) ≤ 2 ^ 41 by norm_num)
      linarith
  haveI : Nonempty PyComplex := ⟨zeroJ⟩
  choose! f f1 f2 f3 f4 using key
  have hrows : (Converter.foldKeys s.degreeMax).mapM (FloatFold.foldRow L s)
      = .ok ((Converter.foldKeys s.degreeMax).map fun k => Coefs.intRow k (if k.2 = 0 then s.getI k else [f k])) := by
    apply mapM_pure_ok
    intro k hk
    have hk' := (mem_foldKeys.1 hk).1
    rw [FloatFold.foldRow]
    by_cases h0 : k.2 = 0
    · rw [if_pos h0, if_pos h0]
    · rw [if_neg h0, if_neg h0, getI_one h k, getI_one h (k.1, -k.2)]
      simp only [f1 k hk']
      rfl
  obtain ⟨t, e, w, kk, df, dt, g⟩ := Coefs.build_ok s.dflt s.dtype hw.dfltTyped (Converter.foldKeys s.degreeMax)
    (fun k => if k.2 = 0 then s.getI k else [f k]) (foldKeys_nodup _)
    (fun k hk => by
      have := mem_foldKeys.1 hk
      rw [abs_of_nonneg this.1]; exact this.2.1)
    (fun k _ => by
      split_ifs
      · exact hw.getI_length k
      · rw [h.dflt]; rfl)
  have cast : ∀ x : PyComplex, Elem.cast s.dtype x = x := by
    intro x
    rw [h.dtype]
    rfl
  have val : ∀ k ∈ Converter.foldKeys s.degreeMax, t.getI k = if k.2 = 0 then s.getI k else [f k] := by
    intro k hk
    rw [g, if_pos hk, List.map_congr_left (g := id) (fun x _ => cast x), List.map_id]
  refine ⟨t, ?_, cset_of h w df dt, ?_, ?_, ?_, ?_⟩
  · rw [FloatFold.mapToPositiveOrders, hrows]; exact e
  · refine finite_of fun l m j => ?_
    by_cases hk : (l, m) ∈ Converter.foldKeys s.degreeMax
    · rw [val _ hk]
      split_ifs with h0
      · exact elem_fin hf l m j
      · rcases j with _ | j
        · exact ⟨f2 _ (mem_foldKeys.1 hk).1, f3 _ (mem_foldKeys.1 hk).1⟩
        · exact ⟨finD_zero _, finD_zero _⟩
    · rw [g, if_neg hk, h.dflt]
      rcases j with _ | j
      · exact ⟨finD_zero _, finD_zero _⟩
      · exact ⟨finD_zero _, finD_zero _⟩
  · intro l m
    rw [stores, Coefs.has_int, kk, mem_foldKeys]
  · intro l h0 h1
    rw [valueAt_eq, val (l, 0) (mem_foldKeys.2 ⟨le_rfl, h0, h1⟩), if_pos rfl]
    rfl
  · intro l m h0 h1 h2 B c1 c2
    have := f4 (l, m) (by simp only; omega) B c1 c2
    rw [show firstAt t l m = cval (f (l, m)) by
      rw [firstAt, valueAt_eq, val (l, m) (mem_foldKeys.2 ⟨by simp only; omega, h1, h2⟩), if_neg (by simp only; omega)]
      rfl]
    exact this

namespace FloatFold

/-- No harmonic of degree `l` is larger than `l + 1`. -/
theorem sphY_le {l m : ℤ} (h : |m| ≤ l) (θ φ : ℝ) : ‖sphY l m θ φ‖ ≤ (l : ℝ) + 1 := by
  obtain ⟨θ', hc, hs⟩ := FieldSize.sin_cases θ
  have e : sphY l m θ φ = sphY l m θ' φ := by rw [sphY_eq h, sphY_eq h, hc]
  have l0 : 0 ≤ l := (abs_nonneg m).trans h
  have l0' : (0 : ℝ) ≤ l := by exact_mod_cast l0
  have hl : (l.toNat : ℝ) = l := by
    have : ((l.toNat : ℤ) : ℝ) = (l : ℝ) := by rw [Int.toNat_of_nonneg l0]
    exact_mod_cast this
  rw [e, ImageLimit.sphY_thP h hs, norm_mul, FieldSize.norm_expi, mul_one, Complex.norm_real, Real.norm_eq_abs]
  refine abs_le_of_sq_le_sq ?_ (by linarith)
  have k := FieldSize.cLm_sq (l := l) (m := |m|) ⟨abs_nonneg _, h⟩
  have na : (|m|).toNat = m.natAbs := by rw [Int.abs_eq_natAbs, Int.toNat_natCast]
  have nl : m.natAbs ≤ l.toNat := by rw [Int.abs_eq_natAbs] at h; omega
  rw [na] at k
  have k1 : Legendre.cf l.toNat m.natAbs * Legendre.thP l.toNat m.natAbs θ' ^ 2 ≤ 1 := by
    refine le_trans ?_ (FieldSize.half_sum l.toNat θ')
    exact Finset.single_le_sum (f := fun n => Legendre.cf l.toNat n * Legendre.thP l.toNat n θ' ^ 2) (fun n _ => mul_nonneg (Legendre.cf_nonneg _ _) (sq_nonneg _))
      (Finset.mem_range.2 (by omega))
  have e2 : (ImageLimit.sgn m * cLm l |m| * Legendre.thP l.toNat m.natAbs θ') ^ 2 = (2 * (l.toNat : ℝ) + 1) / (4 * Real.pi) * (Legendre.cf l.toNat m.natAbs * Legendre.thP l.toNat m.natAbs θ' ^ 2) := by
    rw [mul_pow, mul_pow, sq (ImageLimit.sgn m), ImageLimit.sgn_sq, k]; ring
  rw [e2, hl]
  have p3 := Real.pi_gt_three
  have w : (2 * (l : ℝ) + 1) / (4 * Real.pi) ≤ 2 * l + 1 := div_le_self (by linarith) (by linarith)
  have w0 : 0 ≤ (2 * (l : ℝ) + 1) / (4 * Real.pi) := div_nonneg (by linarith) (by linarith)
  refine (mul_le_of_le_one_right w0 k1).trans (w.trans ?_)
  nlinarith

/-- All pairs up to degree `L`. -/
noncomputable def allPairs (L : ℤ) : Finset (ℤ × ℤ) :=
  ((Finset.Icc 0 L) ×ˢ (Finset.Icc (-L) L)).filter fun k => |k.2| ≤ k.1

theorem mem_allPairs {L : ℤ} {k : ℤ × ℤ} : k ∈ allPairs L ↔ |k.2| ≤ k.1 ∧ k.1 ≤ L := by
  rw [allPairs, Finset.mem_filter, Finset.mem_product, Finset.mem_Icc, Finset.mem_Icc]
  constructor
  · rintro ⟨⟨h1, _⟩, h2⟩; exact ⟨h2, h1.2⟩
  · rintro ⟨h1, h2⟩
    have h3 := abs_le.1 h1
    have h4 := abs_nonneg k.2
    refine ⟨⟨⟨by omega, h2⟩, by omega, by omega⟩, h1⟩

theorem sum_fold (L : ℤ) (F : ℤ × ℤ → ℝ) :
    ∑ k ∈ allPairs L, F k = ∑ k ∈ (allPairs L).filter (fun k => 0 ≤ k.2), (F k + if k.2 = 0 then 0 else F (k.1, -k.2)) := by
  rw [← Finset.sum_filter_add_sum_filter_not (allPairs L) (fun k => 0 ≤ k.2), Finset.sum_add_distrib]
  congr 1
  have e : ∀ k : ℤ × ℤ, (if k.2 = 0 then 0 else F (k.1, -k.2)) = if ¬ k.2 = 0 then F (k.1, -k.2) else 0 := by
    intro k; split_ifs <;> rfl
  rw [Finset.sum_congr rfl fun k _ => e k, ← Finset.sum_filter]
  refine Finset.sum_nbij' (fun k => (k.1, -k.2)) (fun k => (k.1, -k.2)) ?_ ?_ ?_ ?_ ?_
  · intro k hk
    simp only [Finset.mem_filter, mem_allPairs, abs_neg] at hk ⊢
    refine ⟨⟨hk.1, by omega⟩, by omega⟩
  · intro k hk
    simp only [Finset.mem_filter, mem_allPairs, abs_neg] at hk ⊢
    refine ⟨hk.1.1, by omega⟩
  · intro k _; simp
  · intro k _; simp
  · intro k _; simp

theorem card_half {L : ℤ} (h : 0 ≤ L) : (((allPairs L).filter fun k => 0 ≤ k.2).card : ℝ) ≤ ((L : ℝ) + 1) ^ 2 := by
  have sub : (allPairs L).filter (fun k => 0 ≤ k.2) ⊆ (Finset.Icc 0 L) ×ˢ (Finset.Icc 0 L) := by
    intro k hk
    rw [Finset.mem_filter, mem_allPairs] at hk
    have := abs_le.1 hk.1.1
    rw [Finset.mem_product, Finset.mem_Icc, Finset.mem_Icc]
    omega
  have c := Finset.card_le_card sub
  rw [Finset.card_product, Int.card_Icc, sub_zero] at c
  have e : ((L + 1).toNat : ℝ) = (L : ℝ) + 1 := by
    have : (((L + 1).toNat : ℤ) : ℝ) = ((L + 1 : ℤ) : ℝ) := by rw [Int.toNat_of_nonneg (by omega)]
    push_cast at this
    exact_mod_cast this
  calc _ ≤ (((L + 1).toNat * (L + 1).toNat : ℕ) : ℝ) := by exact_mod_cast c
    _ = _ := by rw [Nat.cast_mul, e]; ring

theorem firstAt_unset {s : Coefs PyComplex} (h : CSet 1 s) {k : Key} (hk : k ∉ s.keys) : firstAt s k.1 k.2 = 0 := by
  rw [firstAt, elem_getI, cset_unset h hk]
  apply Complex.ext <;> simp [cval, zeroJ, num]

end FloatFold

/-- **C128**: folding hardly changes the radial field: if no part of a coefficient is larger than `M`, the field of the folded set differs
from that of the set by at most `(degree_max + 1)^3 (2^-41 M + 2^-489)`, at every point. -/
theorem C128_field (L : FoldLib) (hL : GoodFold L) (s : Coefs PyComplex) (h : CSet 1 s) (hf : Spec.Finite s) (M : ℝ) (hM : M ≤ 2 ^ 490)
    (hs : ∀ l m, PartsLe M (firstAt s l m)) :
    ∃ t, FloatFold.mapToPositiveOrders L s = .ok t ∧ ∀ θ φ, |storedField t θ φ - storedField s θ φ| ≤ ((s.degreeMax : ℝ) + 1) ^ 3 * (M / 2 ^ 41 + 1 / 2 ^ 489) := by
  obtain ⟨t, em, ct, -, hst, h0, h1⟩ := C128_fold L hL s h hf fun l m => ⟨(hs l m).1.trans hM, (hs l m).2.trans hM⟩
  refine ⟨t, em, fun θ φ => ?_⟩
  have hw := WF_of_wellFormed h.wf
  have M0 : 0 ≤ M := (abs_nonneg _).trans (hs 0 0).1
  have D0 : 0 ≤ s.degreeMax := by
    rcases hw.degAttained with ⟨-, e⟩ | ⟨k, hk, e⟩
    · rw [e]
    · rw [← e]; exact (abs_nonneg _).trans (hw.valid k hk)
  have D0' : (0 : ℝ) ≤ s.degreeMax := by exact_mod_cast D0
  have E0 : 0 ≤ M / 2 ^ 41 + 1 / 2 ^ 489 := add_nonneg (div_nonneg M0 (by norm_num)) (div_nonneg zero_le_one (pow_nonneg (by norm_num) _))
  have hpt : pairs t = (allPairs s.degreeMax).filter (fun k => 0 ≤ k.2) := by
    ext k
    rw [mem_pairs, hst, Finset.mem_filter, mem_allPairs]
    constructor
    · rintro ⟨h1, h2, h3⟩; exact ⟨⟨by rw [abs_of_nonneg h1]; exact h2, h3⟩, h1⟩
    · rintro ⟨⟨h1, h2⟩, h3⟩; rw [abs_of_nonneg h3] at h1; exact ⟨h3, h1, h2⟩
  have hps : pairs s ⊆ allPairs s.degreeMax := by
    intro k hk
    rw [pairs_eq, List.mem_toFinset] at hk
    exact mem_allPairs.2 ⟨hw.valid k hk, hw.degUpper k hk⟩
  have e2 : ∑ k ∈ pairs s, (firstAt s k.1 k.2 * sphY k.1 k.2 θ φ).re = ∑ k ∈ allPairs s.degreeMax, (firstAt s k.1 k.2 * sphY k.1 k.2 θ φ).re := by
    refine Finset.sum_subset hps fun k _ hk => ?_
    rw [pairs_eq, List.mem_toFinset] at hk
    rw [firstAt_unset h hk, zero_mul, Complex.zero_re]
  rw [storedField, storedField, Complex.re_sum, Complex.re_sum, e2, sum_fold, hpt, ← Finset.sum_sub_distrib]
  have term : ∀ k ∈ (allPairs s.degreeMax).filter (fun k => 0 ≤ k.2),
      |(firstAt t k.1 k.2 * sphY k.1 k.2 θ φ).re - ((firstAt s k.1 k.2 * sphY k.1 k.2 θ φ).re +
        if k.2 = 0 then 0 else (firstAt s (k.1, -k.2).1 (k.1, -k.2).2 * sphY (k.1, -k.2).1 (k.1, -k.2).2 θ φ).re)| ≤
      (M / 2 ^ 41 + 1 / 2 ^ 489) * ((s.degreeMax : ℝ) + 1) := by
    intro k hk
    rw [Finset.mem_filter, mem_allPairs] at hk
    obtain ⟨⟨a1, a2⟩, a3⟩ := hk
    have a4 : k.2 ≤ k.1 := by rwa [abs_of_nonneg a3] at a1
    split_ifs with z
    · have : firstAt t k.1 k.2 = firstAt s k.1 k.2 := by
        rw [firstAt, firstAt, z, h0 k.1 (by omega) a2]
      rw [this, add_zero, sub_self, abs_zero]
      exact mul_nonneg E0 (by linarith)
    · have n := h1 k.1 k.2 (by omega) a4 a2 M (hs _ _) (hs _ _)
      have e3 : (firstAt t k.1 k.2 * sphY k.1 k.2 θ φ).re - ((firstAt s k.1 k.2 * sphY k.1 k.2 θ φ).re + (firstAt s k.1 (-k.2) * sphY k.1 (-k.2) θ φ).re)
          = ((firstAt t k.1 k.2 - (firstAt s k.1 k.2 + (-1) ^ k.2 * (starRingEnd ℂ) (firstAt s k.1 (-k.2)))) * sphY k.1 k.2 θ φ).re := by
        rw [sphY_neg (by omega) a4, sign_cast]
        simp only [Complex.mul_re, Complex.mul_im, Complex.sub_re, Complex.sub_im, Complex.add_re, Complex.add_im, Complex.conj_re, Complex.conj_im, Complex.ofReal_re,
          Complex.ofReal_im]
        ring
      rw [e3]
      refine (Complex.abs_re_le_norm _).trans ?_
      rw [norm_mul]
      refine mul_le_mul n ((sphY_le a1 θ φ).trans ?_) (norm_nonneg _) E0
      have : (k.1 : ℝ) ≤ s.degreeMax := by exact_mod_cast a2
      linarith
  refine (Finset.abs_sum_le_sum_abs _ _).trans ((Finset.sum_le_card_nsmul _ _ _ term).trans ?_)
  rw [nsmul_eq_mul]
  refine (mul_le_mul_of_nonneg_right (card_half D0) (mul_nonneg E0 (by linarith))).trans (le_of_eq ?_)
  ring

/-- **C128**, disagreement: the sum of the two coefficients is not too large for a double, but its square is, and the result is infinite without
an exception. -/
theorem C128_overflow (L : FoldLib) (hL : GoodFold L) (m : ℤ) (hm : 1 ≤ m) (cp cn : PyComplex) (p1 : FinD cp.1) (p2 : FinD cp.2) (n1 : FinD cn.1) (n2 : FinD cn.2)
    (B : ℝ) (hB : B ≤ 2 ^ 990) (bp : PartsLe B (cval cp)) (bn : PartsLe B (cval cn))
    (big : 2 ^ 514 + B / 2 ^ 40 ≤ |((cval cp + (-1) ^ m * (starRingEnd ℂ) (cval cn)).re)|) :
    ∃ z u, foldPair L m cp cn = .ok z ∧ z.1 = inf u := by
  obtain ⟨c, d, e, c1, d1, cc, -, -, -⟩ := terms_ok hL (show 0 ≤ m by omega) p1 p2 n1 n2 hB bp.1 bp.2 bn.1 bn.2
  have b0 : 0 ≤ B := (abs_nonneg _).trans bp.1
  have e1 : (cval cp + (-1) ^ m * (starRingEnd ℂ) (cval cn)).re = cp.1.num + (-1) ^ m * cn.1.num := by
    rw [sign_cast]
    simp only [Complex.add_re, Complex.mul_re, Complex.conj_re, Complex.conj_im, Complex.ofReal_re, Complex.ofReal_im, zero_mul, sub_zero]
    rfl
  rw [e1] at big
  have c2 : 2 ^ 513 ≤ |(c.num : ℝ)| := by
    have t1 : (1 : ℝ) / 2 ^ 500 ≤ 1 := by rw [div_le_one (by positivity)]; exact one_le_pow₀ (by norm_num)
    have P : (2 : ℝ) ^ 514 = 2 * 2 ^ 513 := by rw [← pow_succ']
    have P1 : (2 : ℝ) ^ 4 ≤ 2 ^ 513 := pow_mono (by norm_num)
    have k := abs_sub_abs_le_abs_sub ((cp.1.num : ℝ) + (-1) ^ m * cn.1.num) c.num
    rw [abs_sub_comm] at k
    rw [P] at big
    clear * - t1 P1 k big cc b0
    generalize (1 : ℝ) / 2 ^ 500 = ν at *
    generalize (2 : ℝ) ^ 513 = x at *
    generalize |(c.num : ℝ)| = q1 at *
    generalize |(c.num : ℝ) - (cp.1.num + (-1) ^ m * cn.1.num)| = q2 at *
    generalize |(cp.1.num : ℝ) + (-1) ^ m * cn.1.num| = q3 at *
    norm_num at *
    linarith
  have e2 : add (L.square c) (L.square d) = inf false := by
    rw [hL.square_big c c1 c2]
    rcases hL.square_num d d1 with h | ⟨s, a, h, -⟩
    · rw [h]; rfl
    · rw [h]; rfl
  obtain ⟨⟨s, a, f, -⟩, -⟩ := hL.atan2 d c d1 c1
  rw [e, e2, hL.sqrt_inf, f, FloatFold.rect]
  split_ifs
  · exact ⟨_, _, rfl, rfl⟩
  · exact ⟨_, _, rfl, rfl⟩

/-! ### The assumptions can be met -/

namespace FloatFold
open FloatCoords

theorem round_any {v : ℝ} (h0 : 0 ≤ v) (h1 : v ≤ 2 ^ 1000) : FinD (roundReal v) ∧ |((roundReal v).num : ℝ) - v| ≤ v / 2 ^ 50 + 1 / 2 ^ 1000 := by
  obtain ⟨hd, hn⟩ := (exists_nearest v).choose_spec
  obtain ⟨d, hd', hn'⟩ := near_real h0 (h1.trans (le_of_eq (by rw [← zpow_natCast]; rfl)))
  rw [roundReal, if_neg (not_lt.2 h0)]
  refine ⟨⟨_, _, rfl, hd⟩, ?_⟩
  have h2 := (hn d hd').trans hn'
  have h4 : (2 : ℝ) ^ (-1072 : ℤ) ≤ 1 / 2 ^ 1000 := by
    calc (2 : ℝ) ^ (-1072 : ℤ) ≤ 2 ^ (-1000 : ℤ) := zpow_le_zpow_right₀ (by norm_num) (by norm_num)
      _ = _ := by rw [zpow_neg, one_div, ← zpow_natCast]; rfl
  have h5 : |((nearestReal v : ℚ) : ℝ) - v| ≤ v / 2 ^ 50 + 1 / 2 ^ 1000 := by
    refine h2.trans (add_le_add ?_ h4)
    exact div_le_div_of_nonneg_left h0 (by norm_num) (by norm_num)
  simpa [PyFloat.num] using h5

theorem arg_good : GoodArg fun y x => roundReal (Complex.arg ⟨x.num, y.num⟩) := by
  intro y x _ _
  obtain ⟨h1, h2, -⟩ := roundReal_close (x := Complex.arg ⟨x.num, y.num⟩) ((Complex.abs_arg_le_pi _).trans (by linarith [Real.pi_lt_d2]))
  have h3 := Complex.abs_arg_le_pi ⟨x.num, y.num⟩
  have n : ‖(⟨x.num, y.num⟩ : ℂ)‖ = √((x.num : ℝ) ^ 2 + (y.num : ℝ) ^ 2) := Complex.norm_eq_sqrt_sq_add_sq _
  have r0 := Real.sqrt_nonneg ((x.num : ℝ) ^ 2 + (y.num : ℝ) ^ 2)
  have key : ∀ ρ X g k : ℝ, 0 ≤ ρ → ρ * k = X → |g - k| ≤ 1 / 2 ^ 50 → |ρ * g - X| ≤ ρ / 2 ^ 49 := by
    rintro ρ X g k h0 rfl h
    rw [← mul_sub, abs_mul, abs_of_nonneg h0, div_eq_mul_inv]
    exact mul_le_mul_of_nonneg_left (h.trans (by norm_num)) h0
  refine ⟨h1, ?_, ?_, ?_⟩
  · have h5 := Real.pi_lt_d2
    rw [abs_le] at h2 h3 ⊢
    constructor <;> linarith [h2.1, h2.2, h3.1, h3.2]
  · have c := (Real.abs_cos_sub_cos_le _ _).trans h2
    have e := Complex.norm_mul_cos_arg ⟨x.num, y.num⟩
    rw [n] at e
    exact key _ _ _ _ r0 e c
  · have c := (Real.abs_sin_sub_sin_le _ _).trans h2
    have e := Complex.norm_mul_sin_arg ⟨x.num, y.num⟩
    rw [n] at e
    exact key _ _ _ _ r0 e c

/-- Correctly rounded functions. -/
noncomputable def exFold : FoldLib where
  hypot x y := roundReal √((x.num : ℝ) ^ 2 + (y.num : ℝ) ^ 2)
  phase y x := roundReal (Complex.arg ⟨x.num, y.num⟩)
  sin x := roundReal (Real.sin x.num)
  cos x := roundReal (Real.cos x.num)
  square x := mul x x
  sqrt := rootOf
  atan2 y x := roundReal (Complex.arg ⟨x.num, y.num⟩)
  csin x := roundReal (Real.sin x.num)
  ccos x := roundReal (Real.cos x.num)
  special _ _ := (nan, nan)

theorem exFold_good : GoodFold exFold where
  hypot x y _ _ bx bY := by
    refine round_any (Real.sqrt_nonneg _) ((len_le bx bY).trans ?_)
    rw [show (1000 : ℕ) = 10 + 990 by norm_num, pow_add]
    have : (0 : ℝ) ≤ 2 ^ 990 := by positivity
    generalize (2 : ℝ) ^ 990 = x at *
    norm_num
    linarith
  phase := arg_good
  sin x _ _ := by
    have h := roundReal_close (x := Real.sin x.num) ((Real.abs_sin_le_one _).trans (by norm_num))
    exact ⟨h.1, h.2.1⟩
  cos x _ _ := by
    have h := roundReal_close (x := Real.cos x.num) ((Real.abs_cos_le_one _).trans (by norm_num))
    exact ⟨h.1, h.2.1⟩
  square x hx h := by
    have e : (x.num : ℝ) * x.num = (x.num : ℝ) ^ 2 := by ring
    have h1 : (x.num : ℝ) ^ 2 ≤ 2 ^ 1000 := by
      rw [← sq_abs]
      calc |(x.num : ℝ)| ^ 2 ≤ (2 ^ 500) ^ 2 := pow_le_pow_left₀ (abs_nonneg _) h 2
        _ = _ := by rw [← pow_mul]
    have k := FloatDescribe.mul_real hx hx (k := 1000) (by rw [e, abs_of_nonneg (sq_nonneg _)]; exact h1) (by norm_num)
    rw [e, abs_of_nonneg (sq_nonneg (x.num : ℝ))] at k
    refine ⟨k.1, ?_, k.2.trans (add_le_add ?_ le_rfl)⟩
    · obtain ⟨u, a, r, ha⟩ := k.1
      obtain ⟨s, b, rfl, hb⟩ := hx
      have : exFold.square (fin s b) = ofMag false (b * b) := by
        change ofMag (s != s) (b * b) = _
        rw [bne_self_eq_false]
      rw [this] at *
      unfold PyFloat.ofMag at *
      split_ifs with hq
      · exact le_rfl
      · simpa [PyFloat.num] using (fl0_isDouble _ (mul_nonneg hb.nonneg hb.nonneg) (not_le.1 hq)).nonneg
    · exact div_le_div_of_nonneg_left (sq_nonneg _) (by norm_num) (by norm_num)
  square_big x hx h := by
    obtain ⟨s, b, rfl, hb⟩ := hx
    have h1 : (2 : ℚ) ^ 513 ≤ b := by
      have e : |((fin s b).num : ℝ)| = ((b : ℚ) : ℝ) := by
        have := hb.nonneg
        cases s <;> simp [PyFloat.num, abs_of_nonneg, this]
      rw [e] at h
      have h' : ((2 ^ 513 : ℚ) : ℝ) ≤ b := by rw [Rat.cast_pow, Rat.cast_ofNat]; exact h
      exact_mod_cast (Rat.cast_le (K := ℝ)).1 h'
    change ofMag (s != s) (b * b) = _
    rw [bne_self_eq_false]
    apply ofMag_big
    calc (2 : ℚ) ^ (1024 : ℤ) = 2 ^ 1024 := by rw [← zpow_natCast]; rfl
      _ ≤ 2 ^ (513 + 513) := pow_le_pow_right₀ (by norm_num) (by norm_num)
      _ = 2 ^ 513 * 2 ^ 513 := pow_add _ _ _
      _ ≤ b * b := mul_le_mul h1 h1 (pow_nonneg (by norm_num) _) hb.nonneg
  square_num x hx := by
    obtain ⟨s, b, rfl, hb⟩ := hx
    change ofMag (s != s) (b * b) = _ ∨ FinD (ofMag (s != s) (b * b))
    rw [bne_self_eq_false]
    unfold PyFloat.ofMag
    split_ifs with hq
    · exact Or.inl rfl
    · exact Or.inr ⟨_, _, rfl, fl0_isDouble _ (mul_nonneg hb.nonneg hb.nonneg) (not_le.1 hq)⟩
  sqrt x hx h := by
    have := rootOf_ok hx h
    exact ⟨this.1, this.2.2⟩
  sqrt_inf := rfl
  atan2 := arg_good
  csin x _ _ := by
    have h := roundReal_close (x := Real.sin x.num) ((Real.abs_sin_le_one _).trans (by norm_num))
    exact ⟨h.1, h.2.1⟩
  ccos x _ _ := by
    have h := roundReal_close (x := Real.cos x.num) ((Real.abs_cos_le_one _).trans (by norm_num))
    exact ⟨h.1, h.2.1⟩

/-- A set with the orders 1 and -1 of degree 2. -/
private def exOpposite : Coefs PyComplex :=
  ⟨[zeroJ], .cplx, [((2, 1), [(fin false 3, fin false 4)]), ((2, -1), [(fin false 1, fin true 2)])], 2, -1⟩

private theorem exOpposite_cset : CSet 1 exOpposite := by
  refine ⟨wellFormed_of_WF ?_, rfl, rfl⟩
  constructor <;> simp [exOpposite, Coefs.keys] <;> intros <;> first | rfl | exact ⟨rfl, rfl⟩

private theorem exOpposite_cases (l m : ℤ) : exOpposite.getI (l, m) = [(fin false 3, fin false 4)] ∨ exOpposite.getI (l, m) = [(fin false 1, fin true 2)] ∨
    exOpposite.getI (l, m) = [zeroJ] := by
  by_cases h1 : (l, m) = (2, 1)
  · rw [h1]; left; rfl
  by_cases h2 : (l, m) = (2, -1)
  · rw [h2]; right; left; rfl
  · right; right
    exact Coefs.getI_of_not_mem _ _ (by
      rw [Prod.mk.injEq, not_and] at h1 h2
      simpa [exOpposite, Coefs.keys] using ⟨h1, h2⟩)

private theorem exOpposite_ok : Spec.Finite exOpposite ∧ ∀ l m, PartsLe 4 (firstAt exOpposite l m) := by
  have d : ∀ n : ℕ, n < 2 ^ 53 → ∀ b : Bool, FinD (fin b (n : ℚ)) := fun n hn b => ⟨b, n, rfl, n, 0, hn, by norm_num, by norm_num, by simp⟩
  constructor
  · intro l m z hz
    rw [elem_getI] at hz
    rcases exOpposite_cases l m with h | h | h <;> rw [h, List.mem_singleton] at hz <;> subst hz
    · exact ⟨by exact_mod_cast d 3 (by norm_num) false, by exact_mod_cast d 4 (by norm_num) false⟩
    · exact ⟨by exact_mod_cast d 1 (by norm_num) false, by exact_mod_cast d 2 (by norm_num) true⟩
    · exact ⟨finD_zero _, finD_zero _⟩
  · intro l m
    rw [firstAt, elem_getI]
    rcases exOpposite_cases l m with h | h | h <;> rw [h] <;> constructor <;> norm_num [cval, PyFloat.num, zeroJ]

/-- Non-vacuity of `C128_fold`: 3 + 4j at order 1 and 1 - 2j at order -1 become 2 + 2j. -/
example : ∃ t, FloatFold.mapToPositiveOrders exFold exOpposite = .ok t ∧ ‖firstAt t 2 1 - (2 + 2 * Complex.I)‖ ≤ 4 / 2 ^ 41 + 1 / 2 ^ 489 := by
  obtain ⟨hf, hp⟩ := exOpposite_ok
  obtain ⟨t, e, -, -, -, -, h⟩ := C128_fold exFold exFold_good exOpposite exOpposite_cset hf fun l m => ⟨(hp l m).1.trans (le_trans (by norm_num) (pow_mono (show 2 ≤ 490 by norm_num))),
    (hp l m).2.trans (le_trans (by norm_num) (pow_mono (show 2 ≤ 490 by norm_num)))⟩
  refine ⟨t, e, ?_⟩
  have := h 2 1 (by norm_num) (by norm_num) le_rfl 4 (hp _ _) (hp _ _)
  have e1 : firstAt exOpposite 2 1 + (-1) ^ (1 : ℤ) * (starRingEnd ℂ) (firstAt exOpposite 2 (-1)) = 2 + 2 * Complex.I := by
    have a : firstAt exOpposite 2 1 = ⟨3, 4⟩ := by
      have : exOpposite.getI (2, 1) = [(fin false 3, fin false 4)] := rfl
      rw [firstAt, elem_getI, this]
      apply Complex.ext <;> norm_num [cval, PyFloat.num]
    have b : firstAt exOpposite 2 (-1) = ⟨1, -2⟩ := by
      have : exOpposite.getI (2, -1) = [(fin false 1, fin true 2)] := rfl
      rw [firstAt, elem_getI, this]
      apply Complex.ext <;> norm_num [cval, PyFloat.num]
    rw [a, b]
    apply Complex.ext <;> norm_num
  rwa [e1] at this

/-- Non-vacuity of `C128_field`. -/
example : ∃ t, FloatFold.mapToPositiveOrders exFold exOpposite = .ok t ∧ ∀ θ φ, |storedField t θ φ - storedField exOpposite θ φ| ≤ (((2 : ℤ) : ℝ) + 1) ^ 3 * (4 / 2 ^ 41 + 1 / 2 ^ 489) :=
  C128_field exFold exFold_good exOpposite exOpposite_cset exOpposite_ok.1 4 (le_trans (by norm_num) (pow_mono (show 2 ≤ 490 by norm_num))) exOpposite_ok.2

/-- Non-vacuity of `C128_overflow`: the number `2^600` at order 1 becomes infinite. -/
example : ∃ z u, foldPair exFold 1 (fin false (2 ^ 600), fin false 0) zeroJ = .ok z ∧ z.1 = inf u := by
  have d : FinD (fin false (2 ^ 600)) := ⟨false, _, rfl, 1, 600, by norm_num, by norm_num, by norm_num, by rw [Nat.cast_one, one_mul, ← zpow_natCast]; rfl⟩
  have n : ((fin false (2 ^ 600 : ℚ)).num : ℝ) = 2 ^ 600 := by
    simp only [PyFloat.num, Bool.false_eq_true, if_false]
    rw [Rat.cast_pow, Rat.cast_ofNat]
  have z : ((fin false 0).num : ℝ) = 0 := by simp [PyFloat.num]
  have p : (0 : ℝ) ≤ 2 ^ 600 := by positivity
  refine C128_overflow exFold exFold_good 1 le_rfl _ _ d (finD_zero _) (finD_zero _) (finD_zero _) (2 ^ 600) (pow_mono (by norm_num)) ⟨?_, ?_⟩ ⟨?_, ?_⟩ ?_
  · change |((fin false (2 ^ 600 : ℚ)).num : ℝ)| ≤ _
    rw [n, abs_of_nonneg p]
  · change |((fin false 0).num : ℝ)| ≤ _
    rw [z, abs_zero]; exact p
  · change |((fin false 0).num : ℝ)| ≤ _
    rw [z, abs_zero]; exact p
  · change |((fin false 0).num : ℝ)| ≤ _
    rw [z, abs_zero]; exact p
  · have e : cval zeroJ = 0 := by apply Complex.ext <;> simp [cval, zeroJ, PyFloat.num]
    rw [e, map_zero, mul_zero, add_zero]
    change _ ≤ |((fin false (2 ^ 600 : ℚ)).num : ℝ)|
    rw [n, abs_of_nonneg p, show (600 : ℕ) = 86 + 514 by norm_num, pow_add]
    have q : (0 : ℝ) ≤ 2 ^ 514 := by positivity
    generalize (2 : ℝ) ^ 514 = x at *
    clear * - q
    norm_num
    linarith

end FloatFold
end Verif
