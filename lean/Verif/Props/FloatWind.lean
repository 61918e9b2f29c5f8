import Verif.Props.FloatParker

/-!
# Property C124: the attributes of the Parker wind and its conservation of mass in double precision
-/

set_option exponentiation.threshold 4000

namespace Verif
open Spec PyFloat FloatRange FloatSets FloatCoords FloatError FloatRound FloatParker

/-- A finite float from 2^-e to 2^e. -/
def Spec.Within (x : PyFloat) (e : ℕ) : Prop := FinD x ∧ 1 / 2 ^ e ≤ x.num ∧ x.num ≤ 2 ^ e

/-- What is assumed of the functions, on floats from 2^-500 to 2^500: squares, inverse squares and square roots are good to a relative
error of 2^-50. -/
structure Spec.GoodPowers (inverseSquare square sqrt : PyFloat → PyFloat) : Prop where
  inverseSquare : ∀ x, Within x 500 → FinD (inverseSquare x) ∧ |(inverseSquare x).num - 1 / x.num ^ 2| ≤ 1 / x.num ^ 2 / 2 ^ 50
  square : ∀ x, Within x 500 → FinD (square x) ∧ |(square x).num - x.num ^ 2| ≤ x.num ^ 2 / 2 ^ 50
  sqrt : ∀ x, Within x 500 → FinD (sqrt x) ∧ |((sqrt x).num : ℝ) - Real.sqrt x.num| ≤ Real.sqrt x.num / 2 ^ 50

namespace FloatParker

/-- A positive number of limited size, known up to a factor. -/
structure Rel (x : PyFloat) (v : ℝ) (e : ℕ) (g : ℝ) : Prop where
  pos : 0 < v
  lo : 1 / 2 ^ e ≤ v
  hi : v ≤ 2 ^ e
  one : 1 ≤ g
  ap : Ap x v v g

theorem low_1000 : low ≤ 1 / 2 ^ 1000 := by
  unfold low
  calc (2 : ℝ) ^ (-1020 : ℤ) ≤ 2 ^ (-1000 : ℤ) := zpow_le_zpow_right₀ (by norm_num) (by norm_num)
    _ = _ := by rw [zpow_neg, one_div]; norm_cast

theorem high_1000 : (2 : ℝ) ^ 1000 * 4 ≤ high := by
  unfold high
  calc (2 : ℝ) ^ 1000 * 4 = 2 ^ (1002 : ℤ) := by norm_cast
    _ ≤ _ := zpow_le_zpow_right₀ (by norm_num) (by norm_num)

theorem Rel.mul {x y : PyFloat} {v u : ℝ} {e f : ℕ} {g h : ℝ} (hx : Rel x v e g) (hy : Rel y u f h) (hef : e + f ≤ 1000)
    (hgh : g * h ≤ 2) : Rel (PyFloat.mul x y) (v * u) (e + f) (g * h * w) := by
  have lo : 1 / 2 ^ (e + f) ≤ v * u := by
    calc (1 : ℝ) / 2 ^ (e + f) = 1 / 2 ^ e * (1 / 2 ^ f) := by rw [pow_add]; field_simp
      _ ≤ _ := mul_le_mul hx.lo hy.lo (by positivity) hx.pos.le
  have hi : v * u ≤ 2 ^ (e + f) := by
    rw [pow_add]
    exact mul_le_mul hx.hi hy.hi hy.pos.le (by positivity)
  have p := mul_pos hx.pos hy.pos
  have g1 : 1 ≤ g * h := one_le_mul_of_one_le_of_one_le hx.one hy.one
  have h1 : (1 : ℝ) / 2 ^ 1000 ≤ 1 / 2 ^ (e + f) := by gcongr; norm_num
  have h2 : (2 : ℝ) ^ (e + f) ≤ 2 ^ 1000 := by gcongr; norm_num
  have w1 := one_le_w
  refine ⟨p, lo, hi, by nlinarith, hx.ap.mul hy.ap (low_1000.trans (h1.trans lo)) (le_trans ?_ high_1000)⟩
  have := hi.trans h2
  nlinarith

theorem Rel.div {x y : PyFloat} {v u : ℝ} {e f : ℕ} {g h : ℝ} (hx : Rel x v e g) (hy : Rel y u f h) (hef : e + f ≤ 1000)
    (hh : h ≤ 3 / 2) (hgh : g * h ^ 2 ≤ 4) : Rel (PyFloat.div x y) (v / u) (e + f) (g * h ^ 2 * w) := by
  have lo : 1 / 2 ^ (e + f) ≤ v / u := by
    calc (1 : ℝ) / 2 ^ (e + f) = 1 / 2 ^ e / 2 ^ f := by rw [pow_add]; field_simp
      _ ≤ v / u := div_le_div₀ hx.pos.le hx.lo hy.pos hy.hi
  have hi : v / u ≤ 2 ^ (e + f) := by
    rw [div_le_iff₀ hy.pos, pow_add]
    have h3 : 1 ≤ 2 ^ f * u := by
      have := hy.lo
      rw [div_le_iff₀ (by positivity)] at this
      linarith
    calc v ≤ 2 ^ e * 1 := by rw [mul_one]; exact hx.hi
      _ ≤ 2 ^ e * (2 ^ f * u) := by gcongr
      _ = _ := by ring
  have p := div_pos hx.pos hy.pos
  have g1 : 1 ≤ g * h ^ 2 := one_le_mul_of_one_le_of_one_le hx.one (one_le_pow₀ hy.one)
  have h1 : (1 : ℝ) / 2 ^ 1000 ≤ 1 / 2 ^ (e + f) := by gcongr; norm_num
  have h2 : (2 : ℝ) ^ (e + f) ≤ 2 ^ 1000 := by gcongr; norm_num
  have w1 := one_le_w
  have ha := abs_of_pos hy.pos
  have := hx.ap.div (by rw [ha]; exact hy.ap) hy.pos.ne' hx.one hh (by rw [ha]; exact low_1000.trans (h1.trans lo)) (by
    rw [ha]
    refine le_trans ?_ high_1000
    have := hi.trans h2
    nlinarith)
  rw [ha] at this
  exact ⟨p, lo, hi, by nlinarith, this⟩

theorem Rel.mono {x : PyFloat} {v : ℝ} {e f : ℕ} {g h : ℝ} (hx : Rel x v e g) (hef : e ≤ f) (hgh : g ≤ h) : Rel x v f h := by
  refine ⟨hx.pos, le_trans ?_ hx.lo, hx.hi.trans ?_, hx.one.trans hgh, hx.ap.mono le_rfl (hx.one.trans hgh) hgh⟩
  · gcongr; norm_num
  · gcongr; norm_num

theorem rel_exact {x : PyFloat} {e : ℕ} (h : Within x e) : Rel x x.num e 1 := by
  obtain ⟨h1, h2, h3⟩ := h
  have h2' : (1 : ℝ) / 2 ^ e ≤ x.num := by
    have := (Rat.cast_le (K := ℝ)).2 h2
    push_cast at this
    exact this
  have h3' : (x.num : ℝ) ≤ 2 ^ e := by
    have := (Rat.cast_le (K := ℝ)).2 h3
    push_cast at this
    exact this
  have p : (0 : ℝ) < x.num := lt_of_lt_of_le (by positivity) h2'
  exact ⟨p, h2', h3', le_rfl, Ap.exact h1 (abs_of_pos p).le⟩

/-- The float itself is of that size. -/
theorem Rel.within {x : PyFloat} {v : ℝ} {e : ℕ} {g : ℝ} (hx : Rel x v e g) (hg : g ≤ 3 / 2) : Within x (e + 1) := by
  have h := abs_le.1 hx.ap.err
  have p := hx.pos
  have h1 : (1 : ℝ) / 2 ^ (e + 1) ≤ x.num := by
    have : (1 : ℝ) / 2 ^ (e + 1) = 1 / 2 ^ e / 2 := by rw [pow_succ]; field_simp
    rw [this]
    nlinarith [hx.lo]
  have h2 : (x.num : ℝ) ≤ 2 ^ (e + 1) := by
    rw [pow_succ]
    nlinarith [hx.hi]
  refine ⟨hx.ap.fd, ?_, ?_⟩
  · have : ((1 / 2 ^ (e + 1) : ℚ) : ℝ) ≤ x.num := by push_cast; exact h1
    exact_mod_cast this
  · have : (x.num : ℝ) ≤ ((2 ^ (e + 1) : ℚ) : ℝ) := by push_cast; exact h2
    exact_mod_cast this

/-- Ratio of the float to the number. -/
theorem Rel.ratio {x : PyFloat} {v : ℝ} {e : ℕ} {g : ℝ} (hx : Rel x v e g) : ∃ δ, (x.num : ℝ) = v * (1 + δ) ∧ |δ| ≤ g - 1 := by
  refine ⟨(x.num : ℝ) / v - 1, by have := hx.pos.ne'; field_simp; ring, ?_⟩
  have e : (x.num : ℝ) / v - 1 = ((x.num : ℝ) - v) / v := by rw [sub_div, div_self hx.pos.ne']
  rw [e, abs_div, abs_of_pos hx.pos, div_le_iff₀ hx.pos]
  exact hx.ap.err

theorem Rel.of {x : PyFloat} {v : ℝ} {e : ℕ} {g δ : ℝ} (hf : FinD x) (p : 0 < v) (lo : 1 / 2 ^ e ≤ v) (hi : v ≤ 2 ^ e) (h : (x.num : ℝ) = v * (1 + δ))
    (hδ : |δ| ≤ g - 1) : Rel x v e g := by
  refine ⟨p, lo, hi, by linarith [abs_nonneg δ], hf, ?_, (abs_of_pos p).le⟩
  rw [h, show v * (1 + δ) - v = v * δ by ring, abs_mul, abs_of_pos p, mul_comm]
  gcongr

theorem Rel.size_sq {x : PyFloat} {v : ℝ} {e : ℕ} {g : ℝ} (hx : Rel x v e g) : 1 / 2 ^ (2 * e) ≤ v ^ 2 ∧ v ^ 2 ≤ 2 ^ (2 * e) := by
  have p := hx.pos
  constructor
  · calc (1 : ℝ) / 2 ^ (2 * e) = (1 / 2 ^ e) ^ 2 := by rw [div_pow, one_pow, ← pow_mul, mul_comm e 2]
      _ ≤ _ := pow_le_pow_left₀ (by positivity) hx.lo 2
  · calc v ^ 2 ≤ (2 ^ e) ^ 2 := pow_le_pow_left₀ p.le hx.hi 2
      _ = _ := by rw [← pow_mul, mul_comm e 2]

theorem comb {y v a A : ℝ} (hv : 0 < v) (ha : |a - 1| ≤ A) (hA : A ≤ 1 / 2) (h : |y - v * a| ≤ v * a / 2 ^ 50) :
    ∃ δ, y = v * (1 + δ) ∧ |δ| ≤ 1 + (A + 1 / 2 ^ 49) - 1 := by
  refine ⟨y / v - 1, by field_simp; ring, ?_⟩
  have hb := abs_le.1 ha
  have e : y / v - 1 = (y - v * a) / v + (a - 1) := by field_simp; ring
  have h2 : |(y - v * a) / v| ≤ 1 / 2 ^ 49 := by
    rw [abs_div, abs_of_pos hv, div_le_iff₀ hv]
    refine h.trans ?_
    have : v * a ≤ v * 2 := by gcongr; linarith
    norm_num
    linarith
  rw [e]
  linarith [abs_add_le ((y - v * a) / v) (a - 1)]

theorem sq_ratio {δ A : ℝ} (h : |δ| ≤ A) (hA : A ≤ 1 / 2 ^ 30) : |(1 + δ) ^ 2 - 1| ≤ 3 * A := by
  have hb := abs_le.1 h
  have h0 := (abs_nonneg δ).trans h
  norm_num at hA
  rw [abs_le]
  constructor <;> nlinarith

theorem isq_ratio {δ A : ℝ} (h : |δ| ≤ A) (hA : A ≤ 1 / 2 ^ 30) : |1 / (1 + δ) ^ 2 - 1| ≤ 3 * A := by
  have hb := abs_le.1 h
  have h0 := (abs_nonneg δ).trans h
  norm_num at hA
  have p : 0 < (1 + δ) ^ 2 := by
    have : 0 < 1 + δ := by linarith [hb.1]
    positivity
  have s1 : (1 + δ) ^ 2 ≤ (1 + A) ^ 2 := by gcongr <;> linarith [hb.1, hb.2]
  have s2 : (1 - A) ^ 2 ≤ (1 + δ) ^ 2 := by gcongr <;> linarith [hb.1, hb.2]
  rw [abs_le, le_sub_iff_add_le, sub_le_iff_le_add, le_div_iff₀ p, div_le_iff₀ p]
  generalize (1 + δ) ^ 2 = y at *
  constructor
  · have : (-(3 * A) + 1) * y ≤ (-(3 * A) + 1) * (1 + A) ^ 2 := by gcongr; linarith
    refine this.trans ?_
    nlinarith [pow_nonneg h0 3, pow_nonneg h0 2]
  · have : (3 * A + 1) * (1 - A) ^ 2 ≤ (3 * A + 1) * y := by gcongr
    refine le_trans ?_ this
    nlinarith [pow_nonneg h0 3, pow_nonneg h0 2]

theorem sqrt_ratio {δ A : ℝ} (h : |δ| ≤ A) (hA : A ≤ 1 / 2 ^ 30) : |Real.sqrt (1 + δ) - 1| ≤ A := by
  have hb := abs_le.1 h
  have h0 := (abs_nonneg δ).trans h
  norm_num at hA
  rw [abs_le, le_sub_iff_add_le, sub_le_iff_le_add]
  constructor
  · apply Real.le_sqrt_of_sq_le; nlinarith
  · apply Real.sqrt_le_iff.2 ⟨by linarith, by nlinarith⟩

theorem Rel.within500 {x : PyFloat} {v : ℝ} {e : ℕ} {g : ℝ} (hx : Rel x v e g) (he : e + 1 ≤ 500) (hg : g - 1 ≤ 1 / 2 ^ 30) : Within x 500 := by
  have hw := hx.within (by norm_num at hg ⊢; linarith)
  exact ⟨hw.1, le_trans (by gcongr; norm_num) hw.2.1, hw.2.2.trans (by gcongr; norm_num)⟩

theorem Rel.square {x : PyFloat} {v : ℝ} {e : ℕ} {g : ℝ} {isq sq rt} (hL : GoodPowers isq sq rt) (hx : Rel x v e g) (he : e + 1 ≤ 500)
    (hg : g - 1 ≤ 1 / 2 ^ 30) : Rel (sq x) (v ^ 2) (2 * e) (1 + (3 * (g - 1) + 1 / 2 ^ 49)) := by
  obtain ⟨f, h1⟩ := hL.square x (hx.within500 he hg)
  obtain ⟨δ, d1, d2⟩ := hx.ratio
  have h2 := (Rat.cast_le (K := ℝ)).2 h1
  push_cast at h2
  obtain ⟨lo, hi⟩ := hx.size_sq
  have p : 0 < v ^ 2 := by have := hx.pos; positivity
  rw [d1, mul_pow] at h2
  obtain ⟨θ, t1, t2⟩ := comb p (sq_ratio d2 hg) (by norm_num at hg ⊢; linarith) h2
  exact Rel.of f p lo hi t1 t2

theorem Rel.inverseSquare {x : PyFloat} {v : ℝ} {e : ℕ} {g : ℝ} {isq sq rt} (hL : GoodPowers isq sq rt) (hx : Rel x v e g) (he : e + 1 ≤ 500)
    (hg : g - 1 ≤ 1 / 2 ^ 30) : Rel (isq x) (1 / v ^ 2) (2 * e) (1 + (3 * (g - 1) + 1 / 2 ^ 49)) := by
  obtain ⟨f, h1⟩ := hL.inverseSquare x (hx.within500 he hg)
  obtain ⟨δ, d1, d2⟩ := hx.ratio
  have h2 := (Rat.cast_le (K := ℝ)).2 h1
  push_cast at h2
  obtain ⟨lo, hi⟩ := hx.size_sq
  have p : 0 < v ^ 2 := by have := hx.pos; positivity
  have e1 : 1 / (v ^ 2 * (1 + δ) ^ 2) = 1 / v ^ 2 * (1 / (1 + δ) ^ 2) := by rw [one_div_mul_one_div]
  rw [d1, mul_pow, e1] at h2
  obtain ⟨θ, t1, t2⟩ := comb (by positivity : 0 < 1 / v ^ 2) (isq_ratio d2 hg) (by norm_num at hg ⊢; linarith) h2
  refine Rel.of f (by positivity) ?_ ?_ t1 t2
  · exact one_div_le_one_div_of_le p hi
  · rw [div_le_iff₀ p]
    rw [div_le_iff₀ (by positivity)] at lo
    linarith

theorem Rel.root {x : PyFloat} {v : ℝ} {e : ℕ} {g : ℝ} {isq sq rt} (hL : GoodPowers isq sq rt) (hx : Rel x v e g) (he : e + 1 ≤ 500)
    (hg : g - 1 ≤ 1 / 2 ^ 30) : Rel (rt x) (Real.sqrt v) e (1 + (g - 1 + 1 / 2 ^ 49)) := by
  obtain ⟨f, h2⟩ := hL.sqrt x (hx.within500 he hg)
  obtain ⟨δ, d1, d2⟩ := hx.ratio
  have p := Real.sqrt_pos.2 hx.pos
  rw [d1, Real.sqrt_mul hx.pos.le] at h2
  obtain ⟨θ, t1, t2⟩ := comb p (sqrt_ratio d2 hg) (by norm_num at hg ⊢; linarith) h2
  refine Rel.of f p ?_ ?_ t1 t2
  · apply Real.le_sqrt_of_sq_le
    refine le_trans ?_ hx.lo
    have h3 : (1 : ℝ) / 2 ^ e ≤ 1 := by rw [div_le_one (by positivity)]; exact one_le_pow₀ (by norm_num)
    have h4 : (0 : ℝ) ≤ 1 / 2 ^ e := by positivity
    nlinarith
  · apply Real.sqrt_le_iff.2 ⟨by positivity, hx.hi.trans ?_⟩
    have h3 : (1 : ℝ) ≤ 2 ^ e := one_le_pow₀ (by norm_num)
    nlinarith

theorem rel_int {k : ℕ} (h : k < 2 ^ 53) (h0 : 0 < k) : Rel (ofInt (k : ℤ)) k 53 1 := by
  have hk : (1 : ℝ) ≤ k := by exact_mod_cast h0
  refine ⟨by positivity, le_trans ?_ hk, ?_, le_rfl, ap_int h⟩
  · norm_num
  · exact_mod_cast h.le

theorem rel_small {k : ℕ} (h : k ≤ 4) (h0 : 0 < k) : Rel (ofInt (k : ℤ)) k 2 1 := by
  have hk : (1 : ℝ) ≤ k := by exact_mod_cast h0
  have hk4 : (k : ℝ) ≤ 4 := by exact_mod_cast h
  exact ⟨by positivity, le_trans (by norm_num) hk, by linarith, le_rfl, ap_int (by omega)⟩

theorem Rel.err {x : PyFloat} {v : ℝ} {e : ℕ} {g G : ℝ} (hx : Rel x v e g) (h : g - 1 ≤ G) : FinD x ∧ |(x.num : ℝ) - v| ≤ v * G := by
  refine ⟨hx.ap.fd, hx.ap.err.trans ?_⟩
  rw [mul_comm]
  have := hx.pos
  gcongr

end FloatParker

/-- **C124.** The sonic radius and the sonic speed are good to a relative error of 2^-49. -/
theorem C124_sonic (isq sq rt) (hL : GoodPowers isq sq rt) (c : FloatParker.Consts) (T M : PyFloat) (hG : Within c.G 110)
    (hm : Within c.protonMass 110) (hk : Within c.kB 110) (hT : Within T 110) (hM : Within M 110) :
    FinD (radiusSonic c T M) ∧ FinD (speedSonic rt c T) ∧
    |((radiusSonic c T M).num : ℝ) - c.G.num * M.num * c.protonMass.num / (4 * T.num * c.kB.num)| ≤
      c.G.num * M.num * c.protonMass.num / (4 * T.num * c.kB.num) * (1 / 2 ^ 49) ∧
    |((speedSonic rt c T).num : ℝ) - Real.sqrt (2 * c.kB.num * T.num / c.protonMass.num)| ≤
      Real.sqrt (2 * c.kB.num * T.num / c.protonMass.num) * (1 / 2 ^ 48) := by
  have w2 : w ≤ 1 + 1 / 2 ^ 52 := le_rfl
  have i4 := rel_small (k := 4) le_rfl (by norm_num)
  have i2 := rel_small (k := 2) (by norm_num) (by norm_num)
  push_cast at i4 i2
  have a := ((rel_exact hG).mul (rel_exact hM) (by norm_num) (by norm_num)).mul (rel_exact hm) (by norm_num) (by norm_num [w])
  have b := (i4.mul (rel_exact hT) (by norm_num) (by norm_num)).mul (rel_exact hk) (by norm_num) (by norm_num [w])
  have r := a.div b (by norm_num) (by norm_num [w]) (by norm_num [w])
  have d := ((i2.mul (rel_exact hk) (by norm_num) (by norm_num)).mul (rel_exact hT) (by norm_num) (by norm_num [w])).div (rel_exact hm)
    (by norm_num) (by norm_num) (by norm_num [w])
  have s := d.root hL (by norm_num) (by norm_num [w])
  have e1 := r.err (G := 1 / 2 ^ 49) (by norm_num [w])
  have e2 := s.err (G := 1 / 2 ^ 48) (by norm_num [w])
  exact ⟨e1.1, e2.1, e1.2, e2.2⟩

/-- **C124.** The density at a float radius is good to a relative error of 2^-46, given the speeds there and at the surface. -/
theorem C124_density (isq sq rt) (hL : GoodPowers isq sq rt) (base R v0 v r : PyFloat) (hb : Within base 110) (hR : Within R 60)
    (h0 : Within v0 300) (hv : Within v 300) (hr : Within r 60) :
    FinD (density isq base R v0 v r) ∧
    |((density isq base R v0 v r).num : ℝ) - base.num * (R.num / r.num) ^ 2 * (v0.num / v.num)| ≤
      base.num * (R.num / r.num) ^ 2 * (v0.num / v.num) * (1 / 2 ^ 47) := by
  have i1 := rel_small (k := 1) (by norm_num) (by norm_num)
  push_cast at i1
  have a := ((rel_exact hr).div (rel_exact hR) (by norm_num) (by norm_num) (by norm_num)).inverseSquare hL (by norm_num) (by norm_num [w])
  have b := (rel_exact hb).mul a (by norm_num) (by norm_num [w])
  have q := i1.div ((rel_exact hv).div (rel_exact h0) (by norm_num) (by norm_num) (by norm_num)) (by norm_num) (by norm_num [w]) (by norm_num [w])
  have d := b.mul q (by norm_num) (by norm_num [w])
  have e := d.err (G := 1 / 2 ^ 47) (by norm_num [w])
  have e1 : (base.num : ℝ) * (1 / (r.num / R.num) ^ 2) * (1 / (v.num / v0.num)) = base.num * (R.num / r.num) ^ 2 * (v0.num / v.num) := by
    rw [one_div_div, div_pow, one_div_div, div_pow]
  rw [e1] at e
  exact e

/-- **C124.** The total mass flux is 4 pi R² ρ v at the surface, whatever rounding did to the sonic radius and speed. -/
theorem C124_flux (isq sq rt) (hL : GoodPowers isq sq rt) (base R rs cs v0 : PyFloat) (hb : Within base 110) (hR : Within R 60)
    (h0 : Within v0 300) (hrs : Within rs 60) (hcs : Within cs 60) :
    FinD (massFlux sq rs cs (densitySonic isq base R rs cs v0)) ∧
    |((massFlux sq rs cs (densitySonic isq base R rs cs v0)).num : ℝ) - 4 * Real.pi * R.num ^ 2 * base.num * v0.num| ≤
      4 * Real.pi * R.num ^ 2 * base.num * v0.num * (1 / 2 ^ 47) := by
  have i1 := rel_small (k := 1) (by norm_num) (by norm_num)
  have i4 := rel_small (k := 4) (by norm_num) (by norm_num)
  push_cast at i1 i4
  have hpi : Rel (fin false (884279719003555 / 2 ^ 48)) Real.pi 2 w := by
    have h1 := Real.pi_gt_d20
    have h2 := Real.pi_lt_d20
    refine ⟨Real.pi_pos, by norm_num at h1 ⊢; linarith, by norm_num at h2 ⊢; linarith, one_le_w, ⟨_, _, rfl, 884279719003555, -48, by norm_num, by norm_num, by norm_num, by norm_num⟩, ?_,
      (abs_of_pos Real.pi_pos).le⟩
    simp only [num, Bool.false_eq_true, if_false, w]
    push_cast
    norm_num at h1 h2 ⊢
    rw [abs_le]
    constructor <;> linarith
  have a := ((rel_exact hrs).div (rel_exact hR) (by norm_num) (by norm_num) (by norm_num)).inverseSquare hL (by norm_num) (by norm_num [w])
  have b := (rel_exact hb).mul a (by norm_num) (by norm_num [w])
  have q := i1.div ((rel_exact hcs).div (rel_exact h0) (by norm_num) (by norm_num) (by norm_num)) (by norm_num) (by norm_num [w]) (by norm_num [w])
  have d := b.mul q (by norm_num) (by norm_num [w])
  have s := (((i4.mul hpi (by norm_num) (by norm_num [w])).mul ((rel_exact hrs).square hL (by norm_num) (by norm_num)) (by norm_num)
    (by norm_num [w])).mul (rel_exact hcs) (by norm_num) (by norm_num [w])).mul d (by norm_num) (by norm_num [w])
  have e := s.err (G := 1 / 2 ^ 47) (by norm_num [w])
  have p1 := (rel_exact hrs).pos
  have p2 := (rel_exact hcs).pos
  have p3 := (rel_exact hR).pos
  have p4 := (rel_exact h0).pos
  have e1 : 4 * Real.pi * (rs.num : ℝ) ^ 2 * cs.num * (base.num * (1 / (rs.num / R.num) ^ 2) * (1 / (cs.num / v0.num))) =
      4 * Real.pi * R.num ^ 2 * base.num * v0.num := by
    field_simp
  rw [e1] at e
  exact e

/-- **C124.** Mass is conserved: through the sphere of every float radius flows what `total_mass_flux` says, up to 2^-45. -/
theorem C124_conserved (isq sq rt) (hL : GoodPowers isq sq rt) (base R rs cs v0 v r : PyFloat) (hb : Within base 110) (hR : Within R 60)
    (h0 : Within v0 300) (hrs : Within rs 60) (hcs : Within cs 60) (hv : Within v 300) (hr : Within r 60) :
    |4 * Real.pi * r.num ^ 2 * (density isq base R v0 v r).num * v.num - (massFlux sq rs cs (densitySonic isq base R rs cs v0)).num| ≤
      ((massFlux sq rs cs (densitySonic isq base R rs cs v0)).num : ℝ) * (1 / 2 ^ 45) := by
  have h1 := (C124_density isq sq rt hL base R v0 v r hb hR h0 hv hr).2
  have h2 := (C124_flux isq sq rt hL base R rs cs v0 hb hR h0 hrs hcs).2
  have p1 := (rel_exact hr).pos
  have p2 := (rel_exact hv).pos
  have p3 := (rel_exact hR).pos
  have p4 := (rel_exact h0).pos
  have p5 := (rel_exact hb).pos
  generalize ((density isq base R v0 v r).num : ℝ) = ρ at *
  generalize ((massFlux sq rs cs (densitySonic isq base R rs cs v0)).num : ℝ) = F at *
  have e : 4 * Real.pi * (R.num : ℝ) ^ 2 * base.num * v0.num = 4 * Real.pi * (r.num : ℝ) ^ 2 * v.num * (base.num * (R.num / r.num) ^ 2 * (v0.num / v.num)) := by
    field_simp
  have k : 0 < 4 * Real.pi * (r.num : ℝ) ^ 2 * v.num := by have := Real.pi_pos; positivity
  have X0 : 0 < (base.num : ℝ) * (R.num / r.num) ^ 2 * (v0.num / v.num) := by positivity
  rw [e] at h2
  have e2 : 4 * Real.pi * (r.num : ℝ) ^ 2 * ρ * v.num = 4 * Real.pi * (r.num : ℝ) ^ 2 * v.num * ρ := by ring
  rw [e2]
  generalize (base.num : ℝ) * (R.num / r.num) ^ 2 * (v0.num / v.num) = X at *
  generalize 4 * Real.pi * (r.num : ℝ) ^ 2 * v.num = K at *
  have h3 : |K * ρ - K * X| ≤ K * X * (1 / 2 ^ 47) := by
    rw [← mul_sub, abs_mul, abs_of_pos k, mul_assoc]
    gcongr
  have h4 := abs_le.1 h2
  have h5 : K * ρ - F = (K * ρ - K * X) - (F - K * X) := by ring
  have h6 := abs_sub (K * ρ - K * X) (F - K * X)
  have KX : 0 < K * X := mul_pos k X0
  rw [h5]
  refine h6.trans ((add_le_add h3 h2).trans ?_)
  generalize K * X = Y at *
  norm_num at h4 ⊢
  linarith [h4.1]

namespace FloatParker

theorem range_bounds {r : PyFloat} (h1 : 1 / 2 ^ 7 ≤ r.num) (h2 : r.num ≤ 2 ^ 250) :
    (0 : ℝ) < r.num ∧ |Real.log r.num| ≤ 175 ∧ 1 / (r.num : ℝ) ≤ 128 ∧ 4 * Real.log r.num + 4 * (1 / (r.num : ℝ) - 1) ≤ 695 := by
  have r0 : 0 < r.num := lt_of_lt_of_le (by norm_num) h1
  have rr : (0 : ℝ) < r.num := by exact_mod_cast r0
  have h1' : (1 : ℝ) / 2 ^ 7 ≤ r.num := by
    have : (((1 / 2 ^ 7 : ℚ)) : ℝ) ≤ r.num := Rat.cast_le.2 h1
    push_cast at this; exact this
  have h2' : (r.num : ℝ) ≤ 2 ^ 250 := by
    have : (r.num : ℝ) ≤ (((2 ^ 250 : ℚ)) : ℝ) := Rat.cast_le.2 h2
    push_cast at this; exact this
  have l2 := Real.log_two_lt_d9
  have l0 := Real.log_two_gt_d9
  have hup : Real.log r.num ≤ 173.3 := by
    have := Real.log_le_log rr h2'
    rw [Real.log_pow] at this
    norm_num at this ⊢
    linarith
  have hdn : -5 ≤ Real.log r.num := by
    have := Real.log_le_log (by norm_num) h1'
    rw [one_div, Real.log_inv, Real.log_pow] at this
    norm_num at this ⊢
    linarith
  have hinv : 1 / (r.num : ℝ) ≤ 128 := by
    rw [div_le_iff₀ rr]; norm_num at h1' ⊢; linarith
  refine ⟨rr, ?_, hinv, ?_⟩
  · rw [abs_le]; constructor <;> norm_num at hup ⊢ <;> linarith
  · rcases le_total (1 : ℝ) r.num with h | h
    · have : 1 / (r.num : ℝ) ≤ 1 := (div_le_one rr).2 h
      norm_num at hup
      linarith
    · have := Real.log_nonpos rr.le h
      linarith

/-- The dimensionless speeds of this range of radii are not extreme. -/
theorem speed_size {u B τ E : ℝ} (u0 : 0 < u) (hB : B ≤ 696) (hτ0 : 0 ≤ τ) (hτ : τ ≤ 1 / 4) (h : u ^ 2 - 1 - 2 * Real.log u ≤ B + 2 * (u ^ 2 + 1) * τ * E)
    (hE : E = 1) : 1 / 2 ^ 510 ≤ u ∧ u ≤ 2 ^ 510 := by
  subst hE
  constructor
  · rcases le_total 1 u with h1 | h1
    · exact le_trans (by rw [div_le_one (by positivity)]; exact one_le_pow₀ (by norm_num)) h1
    · have h2 : -350 ≤ Real.log u := by nlinarith
      rw [← Real.exp_log u0, ← Real.exp_log (show (0 : ℝ) < 1 / 2 ^ 510 by positivity)]
      apply Real.exp_le_exp.2
      rw [one_div, Real.log_inv, Real.log_pow]
      push_cast
      linarith [Real.log_two_gt_d9]
  · have h2 := Real.log_le_sub_one_of_pos u0
    have h3 : u ≤ 2 ^ 6 := by
      by_contra hc
      have := not_le.1 hc
      norm_num at this
      nlinarith
    exact h3.trans (pow_le_pow_right₀ (by norm_num) (by norm_num))

end FloatParker

/-- **C124.** `speed` is a float near the exact speed for the quotient of the radius and the sonic radius that it divides. -/
theorem C124_speed (L : WindLib) (ε : ℝ) (hL : GoodWind L ε) (R rs cs r x : PyFloat) (hcs : Within cs 60)
    (hx : div (if FloatClose.le r R then R else r) rs = x) (hfx : FinD x) (h1 : 1 / 2 ^ 7 ≤ x.num) (h2 : x.num ≤ 2 ^ 250)
    (far : 1 / 10 ^ 6 ≤ |(x.num : ℝ) - 1|) :
    ∃ v, speed L R rs cs r = .real v ∧ FinD v ∧ 0 < v.num ∧
      |(v.num : ℝ) - cs.num * Parker.find x.num| ≤
        cs.num * Real.sqrt ((|Real.log x.num| + 1 / x.num + 3) / 2 ^ 47) + 4 * v.num * (ε + 1 / 2 ^ 48) := by
  obtain ⟨u, k1, k2, k3, k4, -, -⟩ := C123_equation L ε hL x hfx h1 h2 far
  obtain ⟨u', j1, j2, j3⟩ := C123_speed L ε hL x hfx h1 h2 far
  have euu : u' = u := by
    rw [k1] at j1
    injection j1 with h
    exact h.symm
  subst euu
  obtain ⟨b0, b1, b2, b3⟩ := range_bounds h1 h2
  have es := hL.small
  have uu : (0 : ℝ) < u'.num := by exact_mod_cast k3
  have hτ : 0 ≤ ε + 1 / 2 ^ 48 ∧ ε + 1 / 2 ^ 48 ≤ 1 / 4 := by
    refine ⟨?_, by norm_num at es ⊢; linarith⟩
    obtain ⟨_, _, θ, -, -, -, -, hθ, -⟩ := find_core hL hfx h1 h2 far
    exact (abs_nonneg _).trans hθ
  have hsz := speed_size (B := 696) (E := 1) uu le_rfl hτ.1 hτ.2 (by
    have h3 := (abs_le.1 k4).2
    have h4 : (|Real.log x.num| + 1 / (x.num : ℝ) + 3) / 2 ^ 47 ≤ 1 := by
      rw [div_le_one (by positivity)]
      norm_num at b2 ⊢
      linarith
    linarith) rfl
  have hu : Rel u' u'.num 510 1 := ⟨uu, hsz.1, hsz.2, le_rfl, Ap.exact k2 (abs_of_pos uu).le⟩
  have hc := rel_exact hcs
  have hm := hu.mul hc (by norm_num) (by norm_num)
  have c0 := hc.pos
  obtain ⟨m1, m2⟩ := hm.err (G := 1 / 2 ^ 52) (by norm_num [w])
  refine ⟨mul u' cs, by rw [speed, hx, k1]; rfl, m1, ?_, ?_⟩
  · have : (0 : ℝ) < (mul u' cs).num := by
      have h3 := (abs_le.1 m2).1
      have p : (0 : ℝ) < u'.num * cs.num := by positivity
      norm_num at h3
      linarith
    exact_mod_cast this
  · generalize ((mul u' cs).num : ℝ) = v at m2
    have p : (0 : ℝ) < u'.num * cs.num := by positivity
    have h3 := abs_le.1 m2
    have e : v - cs.num * Parker.find x.num = (v - u'.num * cs.num) + cs.num * (u'.num - Parker.find x.num) := by ring
    rw [e]
    refine (abs_add_le _ _).trans ?_
    rw [abs_mul, abs_of_pos c0]
    have h4 : (cs.num : ℝ) * |(u'.num : ℝ) - Parker.find x.num| ≤ cs.num * (Real.sqrt ((|Real.log x.num| + 1 / x.num + 3) / 2 ^ 47) + 2 * u'.num * (ε + 1 / 2 ^ 48)) := by
      gcongr
    have h0 : 0 ≤ ε := by
      obtain ⟨z1, z2, z3, z4⟩ := argument_close hL hfx h1 h2
      obtain ⟨y, y1, y2, y3, y4, -⟩ := hL.lambertw _ (branch x) z1 (z4 far) z2 (branch_cases x)
      by_contra hneg
      have hy : y ≠ 0 := by
        rintro rfl
        have := Real.exp_pos (-700)
        linarith
      have := (abs_nonneg _).trans y4
      nlinarith [abs_pos.2 hy]
    have h5 : (u'.num : ℝ) * cs.num ≤ v * (1 + 1 / 2 ^ 51) := by norm_num at h3 ⊢; linarith [h3.1]
    have h6 : u'.num * cs.num * (1 / 2 ^ 52) + 2 * (u'.num * cs.num) * (ε + 1 / 2 ^ 48) ≤ 4 * v * (ε + 1 / 2 ^ 48) := by
      generalize (u'.num : ℝ) * cs.num = y at *
      have : y * ε ≤ v * (1 + 1 / 2 ^ 51) * ε := by gcongr
      have hv : 0 < v := by norm_num at h5; linarith
      have : 0 ≤ v * ε := by positivity
      norm_num at *
      linarith
    linarith

/-! ### The assumptions can be met -/

namespace FloatParker

theorem rounded_powers : GoodPowers (fun x => roundReal (1 / (x.num : ℝ) ^ 2)) (fun x => roundReal ((x.num : ℝ) ^ 2))
    (fun x => roundReal (Real.sqrt x.num)) := by
  have key : ∀ {y : ℝ}, 1 / 2 ^ 1000 ≤ y → y ≤ 2 ^ 1000 → FinD (roundReal y) ∧ |((roundReal y).num : ℝ) - y| ≤ y / 2 ^ 50 := by
    intro y h1 h2
    have p : 0 < y := lt_of_lt_of_le (by positivity) h1
    have h := round_rel (x := y) (by
      rw [abs_of_pos p]
      refine le_trans ?_ h1
      calc (2 : ℝ) ^ (-1015 : ℤ) ≤ 2 ^ (-1000 : ℤ) := zpow_le_zpow_right₀ (by norm_num) (by norm_num)
        _ = _ := by rw [zpow_neg, one_div]; norm_cast) (by
      rw [abs_of_pos p]
      exact h2.trans (le_of_eq (by norm_cast)))
    rw [abs_of_pos p] at h
    exact ⟨h.1, h.2.trans (by gcongr <;> norm_num)⟩
  refine ⟨fun x hx => ?_, fun x hx => ?_, fun x hx => ?_⟩
  · have hr := rel_exact hx
    obtain ⟨a, b⟩ := hr.size_sq
    have p : (0 : ℝ) < (x.num : ℝ) ^ 2 := by have := hr.pos; positivity
    obtain ⟨h1, h2⟩ := key (y := 1 / (x.num : ℝ) ^ 2) (one_div_le_one_div_of_le p b) (by
      rw [div_le_iff₀ p]
      rw [div_le_iff₀ (by positivity)] at a
      rw [mul_comm]
      exact a)
    refine ⟨h1, ?_⟩
    have : ((|(roundReal (1 / (x.num : ℝ) ^ 2)).num - 1 / x.num ^ 2| : ℚ) : ℝ) ≤ ((1 / x.num ^ 2 / 2 ^ 50 : ℚ) : ℝ) := by
      push_cast; exact h2
    exact_mod_cast this
  · have hr := rel_exact hx
    obtain ⟨a, b⟩ := hr.size_sq
    obtain ⟨h1, h2⟩ := key a b
    refine ⟨h1, ?_⟩
    have : ((|(roundReal ((x.num : ℝ) ^ 2)).num - x.num ^ 2| : ℚ) : ℝ) ≤ ((x.num ^ 2 / 2 ^ 50 : ℚ) : ℝ) := by
      push_cast; exact h2
    exact_mod_cast this
  · have hr := rel_exact hx
    refine key ?_ ?_
    · apply Real.le_sqrt_of_sq_le
      refine le_trans ?_ hr.lo
      rw [div_pow, one_pow, ← pow_mul]
      gcongr <;> norm_num
    · apply Real.sqrt_le_iff.2 ⟨by positivity, hr.hi.trans ?_⟩
      rw [← pow_mul]
      gcongr <;> norm_num

private theorem exWithin {n e : ℕ} (h0 : 0 < n) (h1 : n < 2 ^ 53) (h2 : n ≤ 2 ^ e) : Within (fin false n) e := by
  have e1 : (fin false (n : ℚ)).num = n := by simp [num]
  refine ⟨⟨_, _, rfl, n, 0, h1, by norm_num, by norm_num, by simp⟩, ?_, ?_⟩
  · rw [e1]
    have : (1 : ℚ) ≤ n := by exact_mod_cast h0
    refine le_trans ?_ this
    rw [div_le_one (by positivity)]
    exact one_le_pow₀ (by norm_num)
  · rw [e1]
    exact_mod_cast h2

end FloatParker

example := C124_sonic _ _ _ rounded_powers ⟨fin false (2 : ℕ), fin false (3 : ℕ), fin false (5 : ℕ)⟩ (fin false (7 : ℕ)) (fin false (11 : ℕ))
  (exWithin (by norm_num) (by norm_num) (by norm_num)) (exWithin (by norm_num) (by norm_num) (by norm_num))
  (exWithin (by norm_num) (by norm_num) (by norm_num)) (exWithin (by norm_num) (by norm_num) (by norm_num))
  (exWithin (by norm_num) (by norm_num) (by norm_num))

example := C124_conserved _ _ _ rounded_powers (fin false (2 : ℕ)) (fin false (3 : ℕ)) (fin false (5 : ℕ)) (fin false (7 : ℕ)) (fin false (1 : ℕ))
  (fin false (13 : ℕ)) (fin false (17 : ℕ)) (exWithin (by norm_num) (by norm_num) (by norm_num)) (exWithin (by norm_num) (by norm_num) (by norm_num))
  (exWithin (by norm_num) (by norm_num) (by norm_num)) (exWithin (by norm_num) (by norm_num) (by norm_num))
  (exWithin (by norm_num) (by norm_num) (by norm_num)) (exWithin (by norm_num) (by norm_num) (by norm_num))
  (exWithin (by norm_num) (by norm_num) (by norm_num))

example : ∃ v, speed exWindLib (fin false 1) (fin false 1) (fin false (100 : ℕ)) (fin false 10) = .real v ∧ FinD v ∧ 0 < v.num := by
  have e : div (if FloatClose.le (fin false 10) (fin false 1) then fin false 1 else fin false 10) (fin false 1) = fin false 10 := by
    have hd : IsDouble 10 := ⟨10, 0, by norm_num, by norm_num, by norm_num, by norm_num⟩
    have hl : FloatClose.le (fin false 10) (fin false 1) = false := by simp [FloatClose.le, num]
    rw [hl]
    simp only [PyFloat.div, Bool.false_eq_true, if_false]
    rw [if_neg (by norm_num), div_one, ofMag_of_le hd.nonneg hd.le_max, fl0_of_isDouble hd]
    rfl
  have e1 : (fin false (10 : ℚ)).num = 10 := by simp [num]
  obtain ⟨v, h1, h2, h3, -⟩ := C124_speed exWindLib _ exWindLib_good (fin false 1) (fin false 1) (fin false (100 : ℕ)) (fin false 10) _
    (exWithin (by norm_num) (by norm_num) (by norm_num)) e ⟨_, _, rfl, 10, 0, by norm_num, by norm_num, by norm_num, by norm_num⟩
    (by rw [e1]; norm_num) (by rw [e1]; norm_num) (by rw [e1]; norm_num)
  exact ⟨v, h1, h2, h3⟩

end Verif
