import Verif.Model.FloatPfss
import Verif.Props.FloatField
import Verif.Props.FieldSize

/-!
# Property C115: how accurate the PFSS field is in double precision
-/

set_option exponentiation.threshold 4000

namespace Verif
open Spec PyFloat FloatRange FloatError FloatField FloatPfss

/-- The factor between the Legendre functions and those normalised after Schmidt, up to the sign. -/
noncomputable def Spec.schmidtScale (l m : ℤ) : ℝ :=
  Real.sqrt ((if m = 0 then 1 else 2) * ((l - m).toNat.factorial / (l + m).toNat.factorial))

/-- What is assumed of powers of numbers between zero and two. -/
structure Spec.GoodPow (ε : ℝ) (pow : PyFloat → ℤ → PyFloat) : Prop where
  fin : ∀ x n, FinD x → 0 ≤ x.num → x.num ≤ 2 → 0 < n → n ≤ 341 → FinD (pow x n)
  close : ∀ x n, FinD x → 0 ≤ x.num → x.num ≤ 2 → 0 < n → n ≤ 341 →
    |((pow x n).num : ℝ) - (x.num : ℝ) ^ n| ≤ ε * max ((x.num : ℝ) ^ n) (2 ^ (-1000 : ℤ))

/-- What is assumed of a radius. -/
structure Spec.GoodRadius (x : PyFloat) : Prop where
  fin : FinD x
  low : 2 ^ (-50 : ℤ) ≤ (x.num : ℝ)
  high : (x.num : ℝ) ≤ 2 ^ (50 : ℤ)

/-- What is assumed of a coefficient at a point: it is finite and of moderate size, the degree is one for which the scaling is
right (C105), the Legendre function and its derivative are within `ε` of the exact values, measured after Schmidt, and so are
the cosine and the sine of `m φ`. -/
structure Spec.GoodLine (ε θ φ : ℝ) (k : PFloat) : Prop where
  order_nonneg : 0 ≤ k.m
  order_le : k.m ≤ k.l
  degree : k.l + k.m ≤ 170
  coef : GoodCoef (k.g, k.h)
  p_fin : FinD k.p
  p_close : schmidtScale k.l k.m * |(k.p.num : ℝ) - Spec.legendreP k.l.toNat k.m.toNat (Real.cos θ)| ≤ ε
  q_fin : FinD k.q
  q_close : schmidtScale k.l k.m * |(k.q.num : ℝ) - Spec.legendreP k.l.toNat k.m.toNat (Real.cos θ)| ≤ ε
  d_fin : FinD k.d
  d_close : schmidtScale k.l k.m * |Real.sin θ|
    * |(k.d.num : ℝ) - deriv (Spec.legendreP k.l.toNat k.m.toNat) (Real.cos θ)| ≤ ε * (k.l + 1)
  cs_fin : FinD k.c ∧ FinD k.s
  c_close : |(k.c.num : ℝ) - Real.cos (k.m * φ)| ≤ ε
  s_close : |(k.s.num : ℝ) - Real.sin (k.m * φ)| ≤ ε

/-- The rows hold the pairs stored in a set of coefficients, each once, with their values. -/
structure Spec.SameLines (s : Coefs ℂ) (rows : List PFloat) : Prop where
  nodup : (rows.map fun k => (k.l, k.m)).Nodup
  stored : ∀ l m : ℤ, stores s l m ↔ (l, m) ∈ rows.map fun k => (k.l, k.m)
  coef : ∀ k ∈ rows, coef s k.l k.m = cnum (k.g, k.h)

/-- The size of the field at the fraction `q` of the stellar radius to the radius: `4 q^(l+2) |alpha|` for each coefficient, with
`q^(l+2)` not taken below `2^-400` and the coefficients not below `2^-200`. -/
noncomputable def Spec.pfssSize (q : ℝ) (rows : List PFloat) : ℝ :=
  (rows.map fun k => 4 * (max (q ^ (k.l + 2)) (2 ^ (-400 : ℤ)) * sizeC (k.g, k.h))).sum

namespace FloatPfss

theorem pow_w_small (n : ℕ) (h : n ≤ 2 ^ 30) : w ^ n ≤ 1 + 1 / 10 ^ 6 := by
  have h2 : w ^ n ≤ Real.exp (1 / 2 ^ 52) ^ n := by
    have := w_pos
    gcongr
    have := Real.add_one_le_exp ((1 : ℝ) / 2 ^ 52)
    unfold w
    linarith
  rw [← Real.exp_nat_mul] at h2
  have h3 : (n : ℝ) * (1 / 2 ^ 52) ≤ 1 / 2 ^ 22 := by
    have : (n : ℝ) ≤ 2 ^ 30 := by exact_mod_cast h
    calc (n : ℝ) * (1 / 2 ^ 52) ≤ 2 ^ 30 * (1 / 2 ^ 52) := by gcongr
      _ ≤ 1 / 2 ^ 22 := by norm_num
  have h4 := Real.exp_le_exp.2 h3
  have h5 := Real.add_one_le_exp (-(1 / 2 ^ 22) : ℝ)
  have h6 : Real.exp (1 / 2 ^ 22) * Real.exp (-(1 / 2 ^ 22)) = 1 := by rw [← Real.exp_add]; norm_num
  have h7 := Real.exp_pos (1 / 2 ^ 22)
  have h8 : Real.exp (1 / 2 ^ 22) ≤ 1 + 1 / 10 ^ 6 := by nlinarith
  linarith

theorem pow_err {x q : ℝ} (hq : 0 ≤ q) (h : |x - q| ≤ (w - 1) * q) (n : ℕ) : |x ^ n - q ^ n| ≤ (w ^ n - 1) * q ^ n := by
  induction n with
  | zero => simp
  | succ n ih =>
    have := prod_err ih h (by rw [abs_of_nonneg (by positivity)]) (by rw [abs_of_nonneg hq])
    rw [pow_succ, pow_succ, pow_succ]
    exact this

theorem cast {x y : PyFloat} {v u M M' g g' : ℝ} (h : Ap x v M g) (ex : y = x) (ev : u = v) (eM : M' = M) (eg : g' = g) :
    Ap y u M' g' := by subst ex ev eM eg; exact h

variable {ε θ φ : ℝ} {pow : PyFloat → ℤ → PyFloat}

/-- A power of a quotient. -/
theorem ap_pow (hp : GoodPow ε pow) (hE0 : 0 ≤ ε) {x : PyFloat} {q : ℝ} (hx : Ap x q q w) (hq1 : q ≤ 1) {n : ℤ} (hn : 0 < n)
    (hn' : n ≤ 341) {M : ℝ} (hM : q ^ n ≤ M) (hM' : 2 ^ (-1000 : ℤ) ≤ M) : Ap (pow x n) (q ^ n) M ((1 + ε) * w ^ 341) := by
  have hq0 := hx.size_nonneg
  have hw : w ≤ 11 / 10 := w_le
  have hw1 := one_le_w
  have hw0 := w_pos
  have he := abs_le.1 hx.err
  have b0 : (0 : ℝ) ≤ x.num := by nlinarith
  have b1 : (x.num : ℝ) ≤ 2 := by nlinarith
  have b0' : 0 ≤ x.num := by exact_mod_cast b0
  have b1' : x.num ≤ 2 := by exact_mod_cast b1
  have hc := hp.close x n hx.fd b0' b1' hn hn'
  obtain ⟨k, rfl⟩ := Int.eq_ofNat_of_zero_le hn.le
  simp only [Int.ofNat_eq_natCast, zpow_natCast] at *
  have hM0 : 0 ≤ M := le_trans (by positivity) hM'
  have hwk : w ^ k ≤ w ^ 341 := pow_le_pow_right₀ hw1 (by omega)
  have hwk1 := one_le_pow_w k
  have h1 := pow_err hq0 hx.err k
  have h2 : (x.num : ℝ) ^ k ≤ w ^ k * M := by
    have := (abs_le.1 h1).2
    have h3 : w ^ k * q ^ k ≤ w ^ k * M := by gcongr
    linarith
  have h4 : max ((x.num : ℝ) ^ k) (2 ^ (-1000 : ℤ)) ≤ w ^ k * M :=
    max_le h2 (hM'.trans (le_mul_of_one_le_left hM0 hwk1))
  refine Ap.mono (g := (1 + ε) * w ^ k) (M := M) ⟨hp.fin x k hx.fd b0' b1' hn hn', ?_, ?_⟩ le_rfl ?_ (by gcongr)
  · have h5 : (w ^ k - 1) * q ^ k ≤ (w ^ k - 1) * M := by
      have : 0 ≤ w ^ k - 1 := by linarith
      gcongr
    have h6 : ε * max ((x.num : ℝ) ^ k) (2 ^ (-1000 : ℤ)) ≤ ε * (w ^ k * M) := by gcongr
    have h7 := abs_sub_le ((pow x k).num : ℝ) ((x.num : ℝ) ^ k) (q ^ k)
    have e : ((1 + ε) * w ^ k - 1) * M = ε * (w ^ k * M) + (w ^ k - 1) * M := by ring
    rw [e]
    linarith
  · rw [abs_of_nonneg (by positivity)]; exact hM
  · have := one_le_pow_w 341
    nlinarith

theorem ap_radius {x : PyFloat} (h : GoodRadius x) : Ap x x.num x.num 1 :=
  Ap.exact h.fin (by rw [abs_of_pos (pos_of_low h.low)])

/-- A quotient of radii. -/
theorem ap_quot {x y : PyFloat} (hx : GoodRadius x) (hy : GoodRadius y) (hle : (x.num : ℝ) ≤ y.num) :
    Ap (PyFloat.div x y) (x.num / y.num) (x.num / y.num) w ∧ 2 ^ (-100 : ℤ) ≤ (x.num : ℝ) / y.num ∧ (x.num : ℝ) / y.num ≤ 1 := by
  have px := pos_of_low hx.low
  have py := pos_of_low hy.low
  have ay : |(y.num : ℝ)| = y.num := abs_of_pos py
  have h1 : 2 ^ (-100 : ℤ) ≤ (x.num : ℝ) / y.num := by
    have := dn hx.low (inv_low (x := (y.num : ℝ)) (by rw [ay]; exact hy.high) py.ne')
    rw [ay, mul_one_div] at this
    exact (z2 (by norm_num)).trans this
  have h2 : (x.num : ℝ) / y.num ≤ 1 := (div_le_one py).2 hle
  refine ⟨?_, h1, h2⟩
  have := (ap_radius hx).div (by rw [ay]; exact ap_radius hy) py.ne' le_rfl (by norm_num)
    (by rw [ay]; exact low_le h1 (by norm_num)) (by
      rw [ay]
      exact le_high (by norm_num) (i := 0) (by simpa using h2) (by positivity) (by norm_num))
  rw [ay] at this
  convert this using 1
  ring

/-- The size of the radial functions of a degree. -/
noncomputable def fall (l : ℤ) (q : ℝ) : ℝ := max (q ^ (l + 2)) (2 ^ (-400 : ℤ))

theorem fall_low (l : ℤ) (q : ℝ) : 2 ^ (-400 : ℤ) ≤ fall l q := le_max_right _ _

theorem fall_high {l : ℤ} (hl : 0 ≤ l) {q : ℝ} (h0 : 0 ≤ q) (h1 : q ≤ 1) : fall l q ≤ 2 ^ (0 : ℤ) := by
  refine max_le ?_ (z2 (by norm_num))
  obtain ⟨k, rfl⟩ := Int.eq_ofNat_of_zero_le hl
  rw [zpow_zero, show ((k : ℤ) + 2) = ((k + 2 : ℕ) : ℤ) by push_cast; ring, zpow_natCast]
  exact pow_le_one₀ h0 h1

theorem G_le (hE0 : 0 ≤ ε) (hε : ε ≤ 1 / 10 ^ 9) : 1 ≤ (1 + ε) * w ^ 341 ∧ (1 + ε) * w ^ 341 ≤ 101 / 100 := by
  have h1 := one_le_pow_w 341
  have h2 := pow_w_small 341 (by norm_num)
  constructor
  · nlinarith
  · calc (1 + ε) * w ^ 341 ≤ (1 + 1 / 10 ^ 9) * (1 + 1 / 10 ^ 6) := by gcongr
      _ ≤ 101 / 100 := by norm_num

/-- `l + 1 + l * t`. -/
theorem ap_sum {l : ℤ} (hl : 0 ≤ l) (hl' : l ≤ 170) {x : PyFloat} {t g : ℝ} (hx : Ap x t 1 g) (hg : 1 ≤ g)
    (hg' : g ≤ 101 / 100) :
    Ap (PyFloat.add (ofInt (l + 1)) (PyFloat.mul (ofInt l) x)) (l + 1 + l * t) (2 * (l + 1)) (g * w ^ 2) := by
  have hlr : (0 : ℝ) ≤ l := by exact_mod_cast hl
  have hlr' : (l : ℝ) + 1 ≤ 2 ^ (8 : ℤ) := by
    have : (l : ℝ) ≤ 170 := by exact_mod_cast hl'
    norm_num; linarith
  have hl1 : (2 : ℝ) ^ (0 : ℤ) ≤ l + 1 := by rw [zpow_zero]; linarith
  have hw := w_le
  have hw0 := w_pos
  have hw1 := one_le_w
  have h1 := (ap_int (n := l) hl (by omega) (M := l + 1) (by linarith)).mul hx (by
    rw [mul_one]; exact low_le hl1 (by norm_num)) (by
    rw [mul_one]; exact le_high (by linarith) hlr' (by linarith) (by norm_num))
  have h2 := ap_int (n := l + 1) (by omega) (by omega) (M := l + 1) (by push_cast; exact le_rfl)
  rw [mul_one, one_mul] at h1
  have hgw : 1 ≤ g * w := one_le_mul_of_one_le_of_one_le hg hw1
  have h3 := (h2.mono le_rfl hgw hgw).add h1 (by
    refine (low_le hl1 (by norm_num)).trans ?_; linarith) (by
    rw [← two_mul]
    refine le_high ?_ (up (i := 1) (by norm_num) hlr' (by linarith)) (by linarith) (by norm_num)
    calc g * w ≤ 101 / 100 * (11 / 10) := by gcongr
      _ ≤ 64 := by norm_num)
  convert h3 using 1
  · push_cast; ring
  · ring
  · ring

/-- The two values of `r_l`. -/
theorem ap_rL (hp : GoodPow ε pow) (hE0 : 0 ≤ ε) (hε : ε ≤ 1 / 10 ^ 9) {r r0 rss : PyFloat} (hr : GoodRadius r)
    (hr0 : GoodRadius r0) (hrs : GoodRadius rss) (h1 : (r0.num : ℝ) ≤ r.num) (h2 : (r.num : ℝ) ≤ rss.num) {l : ℤ} (hl : 0 ≤ l)
    (hl' : l ≤ 170) :
    Ap (rL pow l r r0 rss).1 (Pfss.rL l r.num r0.num rss.num).1 (2 * (r.num * fall l (r0.num / r.num)) / (l + 1))
        ((1 + ε) ^ 6 * w ^ 2058) ∧
      Ap (rL pow l r r0 rss).2 (Pfss.rL l r.num r0.num rss.num).2 (2 * fall l (r0.num / r.num)) ((1 + ε) ^ 6 * w ^ 2058) := by
  obtain ⟨q1, q1l, q1h⟩ := ap_quot hr0 hr h1
  obtain ⟨q2, q2l, q2h⟩ := ap_quot hr hrs h2
  obtain ⟨q3, q3l, q3h⟩ := ap_quot hr0 hrs (h1.trans h2)
  have p1 := pos_of_low q1l
  have p2 := pos_of_low q2l
  have p3 := pos_of_low q3l
  have pr := pos_of_low hr.low
  set q := (r0.num : ℝ) / r.num with hq
  set y := (r.num : ℝ) / rss.num with hy
  set z := (r0.num : ℝ) / rss.num with hz
  have one1000 : (2 : ℝ) ^ (-1000 : ℤ) ≤ 1 := by simpa using z2 (show (-1000 : ℤ) ≤ 0 by norm_num)
  have le1 : ∀ {u : ℝ}, 0 < u → u ≤ 1 → u ^ (2 * l + 1) ≤ 1 := by
    intro u u0 u1
    obtain ⟨k, rfl⟩ := Int.eq_ofNat_of_zero_le hl
    rw [show 2 * (k : ℤ) + 1 = ((2 * k + 1 : ℕ) : ℤ) by push_cast; ring, zpow_natCast]
    exact pow_le_one₀ u0.le u1
  obtain ⟨G1, G2⟩ := G_le hE0 hε
  set G := (1 + ε) * w ^ 341 with hG
  have hw := w_le
  have hw0 := w_pos
  have hw1 := one_le_w
  have hwn : ∀ n : ℕ, n ≤ 2 ^ 30 → w ^ n ≤ 101 / 100 := fun n hn => (pow_w_small n hn).trans (by norm_num)
  have c1 := ap_pow hp hE0 q1 q1h (n := l + 2) (by omega) (by omega) (M := fall l q) (le_max_left _ _)
    ((z2 (by norm_num)).trans (fall_low l q))
  have c2 := ap_pow hp hE0 q2 q2h (n := 2 * l + 1) (by omega) (by omega) (M := 1) (le1 p2 q2h) one1000
  have c3 := ap_pow hp hE0 q3 q3h (n := 2 * l + 1) (by omega) (by omega) (M := 1) (le1 p3 q3h) one1000
  rw [← hG] at c1 c2 c3
  have fl := fall_low l q
  have fh := fall_high hl p1.le q1h
  have pf := pos_of_low fl
  have hlr : (0 : ℝ) ≤ l := by exact_mod_cast hl
  have hlr' : (l : ℝ) + 1 ≤ 2 ^ (8 : ℤ) := by
    have : (l : ℝ) ≤ 170 := by exact_mod_cast hl'
    norm_num; linarith
  have hl1 : (2 : ℝ) ^ (0 : ℤ) ≤ l + 1 := by rw [zpow_zero]; linarith
  -- a
  have ha := (ap_radius hr).mul c1 (low_le (dn hr.low fl) (by norm_num))
    (le_high (by linarith) (up hr.high fh pf.le) (by positivity) (by norm_num))
  rw [one_mul] at ha
  -- b
  have one : Ap (fin false 1) 1 1 1 := by
    have := Ap.exact (x := fin false 1) ⟨_, _, rfl, isDouble_one⟩ (M := 1) (by simp [num])
    simpa [num] using this
  have hb := (one.mono le_rfl G1 G1).sub c2 (low_le (i := 0) (by norm_num) (by norm_num)) (by
    refine le_high (by linarith) (i := 1) (by norm_num) (by norm_num) (by norm_num))
  -- e, d
  have he := ap_sum hl hl' c3 G1 G2
  have hd := ap_sum hl hl' c2 G1 G2
  set E : ℝ := l + 1 + l * z ^ (2 * l + 1) with hE
  have zp : 0 < z ^ (2 * l + 1) := zpow_pos p3 _
  have hE1 : (l : ℝ) + 1 ≤ E := by rw [hE]; nlinarith
  have hE2 : E ≤ 2 * (l + 1) := by have := le1 p3 q3h; rw [hE]; nlinarith
  have hE0' : 0 < E := by linarith
  have aE : |E| = E := abs_of_pos hE0'
  have hGw : G * w ^ 2 ≤ 102 / 100 := by
    have := hwn 2 (by norm_num)
    have h3 := pow_w_small 2 (by norm_num)
    calc G * w ^ 2 ≤ 101 / 100 * (1 + 1 / 10 ^ 6) := by gcongr
      _ ≤ 102 / 100 := by norm_num
  have hGw1 : 1 ≤ G * w ^ 2 := one_le_mul_of_one_le_of_one_le G1 (one_le_pow_w 2)
  have heE : Ap (PyFloat.add (ofInt (l + 1)) (PyFloat.mul (ofInt l) (pow (PyFloat.div r0 rss) (2 * l + 1)))) E |E|
      (G ^ 2 * w ^ 4) := by
    refine ⟨he.fd, he.err.trans ?_, le_rfl⟩
    rw [aE]
    have e1 : G ^ 2 * w ^ 4 - 1 = (G * w ^ 2 - 1) * (G * w ^ 2 + 1) := by ring
    rw [e1]
    have : (G * w ^ 2 - 1) * (2 * (l + 1)) ≤ (G * w ^ 2 - 1) * ((G * w ^ 2 + 1) * E) := by
      apply mul_le_mul_of_nonneg_left _ (by linarith)
      nlinarith
    linarith
  have hH : G ^ 2 * w ^ 4 ≤ 3 / 2 := by
    have e : G ^ 2 * w ^ 4 = (G * w ^ 2) ^ 2 := by ring
    rw [e]
    nlinarith
  have hH1 : 1 ≤ G ^ 2 * w ^ 4 := one_le_mul_of_one_le_of_one_le (one_le_pow₀ G1) (one_le_pow_w 4)
  have invE : 2 ^ (-9 : ℤ) ≤ 1 / |E| := inv_low (by
    rw [aE]
    refine hE2.trans ?_
    have e : (2 : ℝ) ^ (9 : ℤ) = 2 * 2 ^ (8 : ℤ) := by norm_num
    rw [e]; linarith) hE0'.ne'
  have invE' : 1 / |E| ≤ 2 ^ (0 : ℤ) := by
    have := inv_high (x := E) (i := 0) (by rw [aE, zpow_zero]; linarith)
    simpa using this
  have invp : 0 < 1 / |E| := pos_of_low invE
  have gfin : ∀ {a b : ℕ}, a ≤ 6 → b ≤ 20 → G ^ a * w ^ b ≤ 64 := by
    intro a b ha hb
    calc G ^ a * w ^ b ≤ G ^ 6 * w ^ 20 := by
          have := pow_le_pow_right₀ G1 ha
          have := pow_le_pow_right₀ hw1 hb
          gcongr
      _ ≤ (101 / 100) ^ 6 * (101 / 100) := by
          have := hwn 20 (by norm_num)
          gcongr
      _ ≤ 64 := by norm_num
  have gg : (1 + ε) ^ 6 * w ^ 2058 = G ^ 6 * w ^ 12 := by rw [hG]; ring
  have gg1 : 1 ≤ (1 + ε) ^ 6 * w ^ 2058 := by
    rw [gg]; exact one_le_mul_of_one_le_of_one_le (one_le_pow₀ G1) (one_le_pow_w 12)
  have hG0 : 0 < G := by linarith
  constructor
  · have hm := ha.mul hb (low_le (dn (dn hr.low fl) (j := 1) (by norm_num : (2:ℝ) ^ (1:ℤ) ≤ 1 + 1)) (by norm_num)) (by
      refine le_high ?_ (up (up hr.high fh pf.le) (j := 1) (by norm_num) (by norm_num)) (by positivity) (by norm_num)
      have := gfin (a := 2) (b := 2) (by norm_num) (by norm_num)
      calc G * w * (G * w) = G ^ 2 * w ^ 2 := by ring
        _ ≤ 64 := this)
    have hv := hm.div heE hE0'.ne' (by
      have := one_le_mul_of_one_le_of_one_le (one_le_pow₀ (n := 2) G1) (one_le_pow_w 3)
      calc (1 : ℝ) ≤ G ^ 2 * w ^ 3 := this
        _ = _ := by ring) hH (by
        rw [div_eq_mul_one_div]
        exact low_le (dn (dn (dn hr.low fl) (j := 1) (by norm_num : (2:ℝ) ^ (1:ℤ) ≤ 1 + 1)) invE) (by norm_num)) (by
        rw [div_eq_mul_one_div]
        refine le_high ?_ (up (up (up hr.high fh pf.le) (j := 1) (by norm_num : (1:ℝ) + 1 ≤ 2 ^ (1:ℤ)) (by norm_num)) invE' invp.le)
          (by positivity) (by norm_num)
        have := gfin (a := 6) (b := 11) (by norm_num) (by norm_num)
        calc _ = G ^ 6 * w ^ 11 := by ring
          _ ≤ 64 := this)
    have hM : (r.num : ℝ) * fall l q * (1 + 1) / |E| ≤ 2 * (r.num * fall l q) / (l + 1) := by
      rw [aE, mul_comm _ ((1 : ℝ) + 1), one_add_one_eq_two]
      gcongr
    refine hv.mono hM gg1 ?_
    rw [gg]
    refine le_of_eq ?_
    ring
  · have hm := c1.neg.mul hd (low_le (dn fl (dn (i := 1) (x := (2 : ℝ)) (by norm_num) hl1)) (by norm_num)) (by
      refine le_high ?_ (up fh (up (i := 1) (x := (2 : ℝ)) (by norm_num) hlr' (by linarith)) (by positivity)) (by positivity) (by norm_num)
      have := gfin (a := 2) (b := 2) (by norm_num) (by norm_num)
      calc G * (G * w ^ 2) = G ^ 2 * w ^ 2 := by ring
        _ ≤ 64 := this)
    have hv := hm.div heE hE0'.ne' (by
      have := one_le_mul_of_one_le_of_one_le (one_le_pow₀ (n := 2) G1) (one_le_pow_w 3)
      calc (1 : ℝ) ≤ G ^ 2 * w ^ 3 := this
        _ = _ := by ring) hH (by
        rw [div_eq_mul_one_div]
        exact low_le (dn (dn fl (dn (i := 1) (x := (2 : ℝ)) (by norm_num) hl1)) invE) (by norm_num)) (by
        rw [div_eq_mul_one_div]
        refine le_high ?_ (up (up fh (up (i := 1) (x := (2 : ℝ)) (by norm_num) hlr' (by linarith)) (by positivity)) invE' invp.le)
          (by positivity) (by norm_num)
        have := gfin (a := 6) (b := 11) (by norm_num) (by norm_num)
        calc _ = G ^ 6 * w ^ 11 := by ring
          _ ≤ 64 := this)
    have hM : fall l q * (2 * (l + 1)) / |E| ≤ 2 * fall l q := by
      rw [aE, div_le_iff₀ hE0']
      have : fall l q * (l + 1) ≤ fall l q * E := mul_le_mul_of_nonneg_left hE1 pf.le
      linarith
    refine hv.mono hM gg1 ?_
    rw [gg]
    refine le_of_eq ?_
    ring

/-! ### The scaling -/

theorem abs_scale {l m : ℤ} (h : 0 ≤ m ∧ m ≤ l) : |Pfss.thetaScale l m| = schmidtScale l m := by
  have h1 := FieldSize.thetaScale_sq h
  have h2 : Pfss.thetaScale l m ^ 2 = (if m = 0 then 1 else 2) * ((l - m).toNat.factorial / (l + m).toNat.factorial : ℝ) := by
    rw [h1, Legendre.cf, show (l - m).toNat = l.toNat - m.toNat by omega, show (l + m).toNat = l.toNat + m.toNat by omega]
  rw [schmidtScale, ← h2, Real.sqrt_sq_eq_abs]

theorem scale_range {l m : ℤ} (h : 0 ≤ m ∧ m ≤ l) (hl : l + m ≤ 170) :
    2 ^ (-600 : ℤ) ≤ schmidtScale l m ∧ schmidtScale l m ≤ 2 ^ (1 : ℤ) := by
  have e1 := one_le_fact (l - m).toNat
  have e2 := fact_le (n := (l + m).toNat) (k := 170) (by omega)
  have e3 := one_le_fact (l + m).toNat
  have e4 := f170
  have e5 := fact_le (n := (l - m).toNat) (k := (l + m).toNat) (by omega)
  have p : (0 : ℝ) < (l + m).toNat.factorial := by linarith
  have hc : (1 : ℝ) ≤ (if m = 0 then 1 else 2) ∧ (if m = 0 then 1 else 2 : ℝ) ≤ 2 := by split_ifs <;> norm_num
  constructor
  · apply Real.le_sqrt_of_sq_le
    have e6 : ((2 : ℝ) ^ (-600 : ℤ)) ^ 2 = (2 ^ 1200)⁻¹ := by
      rw [← zpow_natCast, ← zpow_mul, ← zpow_natCast, ← zpow_neg]; norm_num
    have e7 : ((2 : ℝ) ^ 1200)⁻¹ ≤ ((l - m).toNat.factorial / (l + m).toNat.factorial : ℝ) := by
      rw [inv_eq_one_div, div_le_div_iff₀ (by positivity) p, one_mul]
      calc ((l + m).toNat.factorial : ℝ) ≤ 2 ^ 1020 := e2.trans e4
        _ ≤ 1 * 2 ^ 1200 := by norm_num
        _ ≤ _ := by gcongr
    rw [e6]
    refine e7.trans (le_mul_of_one_le_left (by positivity) hc.1)
  · rw [zpow_one]
    apply Real.sqrt_le_iff.2 ⟨by norm_num, ?_⟩
    have : ((l - m).toNat.factorial / (l + m).toNat.factorial : ℝ) ≤ 1 := (div_le_one p).2 e5
    calc _ ≤ (2 : ℝ) * 1 := by gcongr; exact hc.2
      _ ≤ 2 ^ 2 := by norm_num

variable {N : NumLib} {k : PFloat}

theorem ap_scale (hN : Spec.Accurate N) {l m : ℤ} (h : 0 ≤ m ∧ m ≤ l) (hl : l + m ≤ 170) :
    Ap (FloatRange.thetaScale N l m) (Pfss.thetaScale l m) (schmidtScale l m) (1 + 1 / 10 ^ 5) := by
  obtain ⟨h1, h2⟩ := C105_pfss_accurate hN l m h.1 h.2 hl
  have hd : Dbl (FloatRange.thetaScale N l m) :=
    Dbl.mul (Dbl.mul isDouble_one (hN.sqrt_dbl _)) (hN.sqrt_dbl _)
  refine ⟨?_, ?_, (abs_scale h).le⟩
  · match e : FloatRange.thetaScale N l m with
    | fin s a => rw [e] at hd; exact ⟨s, a, rfl, hd⟩
    | inf s => rw [e] at h1; exact absurd h1 (by simp [isFin])
    | nan => rw [e] at h1; exact absurd h1 (by simp [isFin])
  · rw [abs_scale h] at h2
    linarith

section
variable (h : GoodLine ε θ φ k)
include h

theorem line_eps : 0 ≤ ε := (abs_nonneg _).trans h.c_close

theorem line_deg : 0 ≤ k.l ∧ k.l ≤ 170 ∧ (0 : ℝ) ≤ k.l ∧ (2 : ℝ) ^ (0 : ℤ) ≤ k.l + 1 ∧ (k.l : ℝ) + 1 ≤ 2 ^ (8 : ℤ) := by
  have h0 := h.order_nonneg
  have h1 := h.order_le
  have h2 := h.degree
  have e1 : (0 : ℝ) ≤ k.l := by exact_mod_cast (by omega : (0 : ℤ) ≤ k.l)
  have e2 : (k.l : ℝ) ≤ 170 := by exact_mod_cast (by omega : k.l ≤ 170)
  refine ⟨by omega, by omega, e1, by rw [zpow_zero]; linarith, by norm_num; linarith⟩

theorem ap_value (hθ : OffAxis θ) {x : PyFloat} (hx : FinD x)
    (hc : schmidtScale k.l k.m * |(x.num : ℝ) - Spec.legendreP k.l.toNat k.m.toNat (Real.cos θ)| ≤ ε) :
    Ap x (Spec.legendreP k.l.toNat k.m.toNat (Real.cos θ)) (1 / schmidtScale k.l k.m) (1 + ε) := by
  have hs := Real.sin_pos_of_pos_of_lt_pi hθ.1 hθ.2
  have hb : 0 ≤ k.m ∧ k.m ≤ k.l := ⟨h.order_nonneg, h.order_le⟩
  have hS := pos_of_low (scale_range hb h.degree).1
  refine ⟨hx, ?_, ?_⟩
  · rw [add_sub_cancel_left, mul_one_div, le_div_iff₀ hS, mul_comm]
    exact hc
  · have := FieldSize.tv_le (k := (k.l, k.m)) hb hs.le
    rw [Pfss.tv, abs_mul, abs_scale hb] at this
    rw [le_div_iff₀ hS]
    exact this

/-- `theta`. -/
theorem ap_theta (hN : Spec.Accurate N) (hθ : OffAxis θ) (hε : ε ≤ 1 / 10 ^ 9) :
    Ap (PyFloat.mul k.p (FloatRange.thetaScale N k.l k.m)) (Pfss.tv θ (k.l, k.m)) 1 ((1 + 1 / 10 ^ 5) * (1 + ε) * w) := by
  have hb : 0 ≤ k.m ∧ k.m ≤ k.l := ⟨h.order_nonneg, h.order_le⟩
  have hS := pos_of_low (scale_range hb h.degree).1
  have hE := line_eps h
  have e : 1 / schmidtScale k.l k.m * schmidtScale k.l k.m = 1 := by field_simp
  have := (ap_value h hθ h.p_fin h.p_close).mul (ap_scale hN hb h.degree) (by
    rw [e]; exact low_le (i := 0) (by norm_num) (by norm_num)) (by
    rw [e]
    refine le_high ?_ (i := 0) (by norm_num) (by norm_num) (by norm_num)
    calc (1 + ε) * (1 + 1 / 10 ^ 5) ≤ (1 + 1 / 10 ^ 9) * (1 + 1 / 10 ^ 5) := by gcongr
      _ ≤ 64 := by norm_num)
  rw [e] at this
  exact cast this rfl rfl rfl (by ring)

/-- `dtheta`. -/
theorem ap_dtheta (hN : Spec.Accurate N) (hθ : OffAxis θ) (hε : ε ≤ 1 / 10 ^ 9) {s : PyFloat} (hs : GoodSine ε θ s) :
    Ap (PyFloat.mul (PyFloat.mul k.d (PyFloat.neg s)) (FloatRange.thetaScale N k.l k.m)) (Pfss.td θ (k.l, k.m)) (k.l + 1)
      ((1 + 1 / 10 ^ 5) * (1 + ε) ^ 2 * w ^ 2) := by
  have hb : 0 ≤ k.m ∧ k.m ≤ k.l := ⟨h.order_nonneg, h.order_le⟩
  obtain ⟨S1, S2⟩ := scale_range hb h.degree
  have hS := pos_of_low S1
  have hE := line_eps h
  obtain ⟨l0, l1, l2, l3, l4⟩ := line_deg h
  have hsin := Real.sin_pos_of_pos_of_lt_pi hθ.1 hθ.2
  have asin : |Real.sin θ| = Real.sin θ := abs_of_pos hsin
  have hw0 := w_pos
  have hw := w_le
  set S := schmidtScale k.l k.m with hSd
  have hd : Ap k.d (deriv (Spec.legendreP k.l.toNat k.m.toNat) (Real.cos θ)) ((k.l + 1) / (S * |Real.sin θ|)) (1 + ε) := by
    have hp : 0 < S * |Real.sin θ| := by rw [asin]; positivity
    refine ⟨h.d_fin, ?_, ?_⟩
    · rw [add_sub_cancel_left, ← mul_div_assoc, le_div_iff₀ hp, mul_comm]
      exact h.d_close
    · have := (FieldSize.td_le (k := (k.l, k.m)) hb hsin).1
      rw [Pfss.td, abs_mul, abs_mul, abs_neg, abs_scale hb] at this
      rw [le_div_iff₀ hp]
      calc _ = _ := by ring
        _ ≤ _ := this
  have hsn : 0 < |Real.sin θ| := by rw [asin]; exact hsin
  have e1 : (k.l + 1) / (S * |Real.sin θ|) * |Real.sin θ| = ((k.l : ℝ) + 1) * (1 / S) := by field_simp
  have i1 := inv_low (x := S) (i := 1) (by rw [abs_of_pos hS]; exact S2) hS.ne'
  have i2 := inv_high (x := S) (by rw [abs_of_pos hS]; exact S1)
  rw [abs_of_pos hS] at i1 i2
  have h1 := hd.mul (ap_sine hs).neg (by rw [e1]; exact low_le (dn l3 i1) (by norm_num)) (by
    rw [e1]
    refine le_high ?_ (up l4 i2 (by positivity)) (by positivity) (by norm_num)
    calc (1 + ε) * (1 + ε) ≤ (1 + 1 / 10 ^ 9) * (1 + 1 / 10 ^ 9) := by gcongr
      _ ≤ 64 := by norm_num)
  rw [e1] at h1
  have e2 : ((k.l : ℝ) + 1) * (1 / S) * S = k.l + 1 := by field_simp
  have h2 := h1.mul (ap_scale hN hb h.degree) (by rw [← hSd, e2]; exact low_le l3 (by norm_num)) (by
    rw [← hSd, e2]
    refine le_high ?_ l4 (by positivity) (by norm_num)
    calc (1 + ε) * (1 + ε) * w * (1 + 1 / 10 ^ 5) ≤ (1 + 1 / 10 ^ 9) * (1 + 1 / 10 ^ 9) * (11 / 10) * (1 + 1 / 10 ^ 5) := by gcongr
      _ ≤ 64 := by norm_num)
  rw [← hSd, e2] at h2
  exact cast h2 rfl rfl rfl (by ring)

/-- The two values of `phi_lm`. -/
theorem ap_phi (hε : ε ≤ 1 / 10 ^ 9) :
    Ap (phiLm k.m k.g k.h k.c k.s).1 (Pfss.phiLm k.m k.g.num k.h.num φ).1 (2 * sizeC (k.g, k.h)) ((1 + ε) * w ^ 2) ∧
      Ap (phiLm k.m k.g k.h k.c k.s).2 (Pfss.phiLm k.m k.g.num k.h.num φ).2 (2 * (sizeC (k.g, k.h) * (k.l + 1)))
        ((1 + ε) * w ^ 3) := by
  have hE := line_eps h
  obtain ⟨l0, l1, l2, l3, l4⟩ := line_deg h
  have hw0 := w_pos
  have hw := w_le
  have A1 := sizeC_low (k.g, k.h)
  have A2 := h.coef.2.2
  have hA := pos_of_low A1
  have hc := cap_coef h.coef
  have ag : Ap k.g k.g.num (sizeC (k.g, k.h)) 1 := hc.re
  have ah : Ap k.h k.h.num (sizeC (k.g, k.h)) 1 := hc.im
  set A := sizeC (k.g, k.h) with hAd
  have c1 := ap_unit h.cs_fin.1 h.c_close (Real.abs_cos_le_one _)
  have s1 := ap_unit h.cs_fin.2 h.s_close (Real.abs_sin_le_one _)
  have pr : ∀ {x y : PyFloat} {u v : ℝ}, Ap x u A 1 → Ap y v 1 (1 + ε) → Ap (PyFloat.mul x y) (u * v) A ((1 + ε) * w) := by
    intro x y u v hx hy
    have := hx.mul hy (by rw [mul_one]; exact low_le A1 (by norm_num)) (by
      rw [mul_one]; exact le_high (by linarith) A2 hA.le (by norm_num))
    rwa [mul_one, one_mul] at this
  have hlow : low ≤ A + A := (low_le A1 (by norm_num)).trans (by linarith)
  have hE1 : 1 + ε ≤ 1 + 1 / 10 ^ 9 := by linarith
  have hhigh : (1 + ε) * w * (A + A) ≤ high := by
    rw [← two_mul]
    refine le_high ?_ (up (i := 1) (by norm_num) A2 hA.le) (by positivity) (by norm_num)
    calc (1 + ε) * w ≤ (1 + 1 / 10 ^ 9) * (11 / 10) := by gcongr
      _ ≤ 64 := by norm_num
  have v1 := (pr ag c1).add (pr ah s1) hlow hhigh
  have v2 := (pr ag.neg s1).add (pr ah c1) hlow hhigh
  rw [← two_mul] at v1 v2
  constructor
  · exact cast v1 rfl rfl rfl (by ring)
  · have hm : Ap (ofInt k.m) k.m (k.l + 1) 1 := ap_int h.order_nonneg (by have := h.order_le; omega) (by
      have : (k.m : ℝ) ≤ k.l := by exact_mod_cast h.order_le
      linarith)
    have := v2.mul hm (low_le (dn (dn (i := 1) (x := (2 : ℝ)) (by norm_num) A1) l3) (by norm_num)) (by
      refine le_high ?_ (up (up (i := 1) (x := (2 : ℝ)) (by norm_num) A2 hA.le) l4 (by linarith)) (by positivity) (by norm_num)
      calc (1 + ε) * w * w * 1 ≤ (1 + 1 / 10 ^ 9) * (11 / 10) * (11 / 10) * 1 := by gcongr
        _ ≤ 64 := by norm_num)
    exact cast this rfl rfl (by ring) (by ring)

end

/-! ### The terms -/

theorem gfin (hE0 : 0 ≤ ε) (hε : ε ≤ 1 / 10 ^ 9) {a b : ℕ} (ha : a ≤ 12) (hb : b ≤ 2 ^ 30) :
    1 ≤ (1 + 1 / 10 ^ 5) * (1 + ε) ^ a * w ^ b ∧ (1 + 1 / 10 ^ 5) * (1 + ε) ^ a * w ^ b ≤ 2 := by
  have h1 := one_le_pow_w b
  have h2 : 1 ≤ (1 + ε) ^ a := one_le_pow₀ (by linarith)
  have h3 := pow_w_small b hb
  have h4 : (1 + ε) ^ a ≤ (1 + 1 / 10 ^ 9) ^ 12 := (pow_le_pow_right₀ (by linarith) ha).trans (by gcongr)
  have h5 : (1 + 1 / 10 ^ 5 : ℝ) * (1 + ε) ^ a * w ^ b ≤ (1 + 1 / 10 ^ 5) * (1 + 1 / 10 ^ 9) ^ 12 * (1 + 1 / 10 ^ 6) := by
    have := w_pos
    gcongr
  refine ⟨one_le_mul_of_one_le_of_one_le (one_le_mul_of_one_le_of_one_le (by norm_num) h2) h1, h5.trans (by norm_num)⟩

theorem gle {g : ℝ} (hE0 : 0 ≤ ε) (hε : ε ≤ 1 / 10 ^ 9) (a b : ℕ) (e : g = (1 + 1 / 10 ^ 5) * (1 + ε) ^ a * w ^ b) (ha : a ≤ 12)
    (hb : b ≤ 2 ^ 30) : g ≤ 64 := by
  rw [e]; exact (gfin hE0 hε ha hb).2.trans (by norm_num)

theorem gmono (hE0 : 0 ≤ ε) {a b a' b' : ℕ} (ha : a ≤ a') (hb : b ≤ b') :
    (1 + 1 / 10 ^ 5) * (1 + ε) ^ a * w ^ b ≤ (1 + 1 / 10 ^ 5) * (1 + ε) ^ a' * w ^ b' := by
  have h1 : (1 + ε) ^ a ≤ (1 + ε) ^ a' := pow_le_pow_right₀ (by linarith) ha
  have h2 : w ^ b ≤ w ^ b' := pow_le_pow_right₀ one_le_w hb
  have := w_pos
  gcongr

section
variable {r r0 rss s : PyFloat} (h : GoodLine ε θ φ k) (hN : Spec.Accurate N) (hθ : OffAxis θ) (hε : ε ≤ 1 / 10 ^ 9)
  (hp : GoodPow ε pow) (hr : GoodRadius r) (hr0 : GoodRadius r0) (hrs : GoodRadius rss) (h1 : (r0.num : ℝ) ≤ r.num)
  (h2 : (r.num : ℝ) ≤ rss.num)
include h hr hr0 h1

theorem term_sizes : 2 ^ (-600 : ℤ) ≤ 4 * (fall k.l (r0.num / r.num) * sizeC (k.g, k.h)) ∧
    4 * (fall k.l (r0.num / r.num) * sizeC (k.g, k.h)) ≤ 2 ^ (302 : ℤ) := by
  obtain ⟨-, q1l, q1h⟩ := ap_quot hr0 hr h1
  have p1 := pos_of_low q1l
  obtain ⟨l0, -, -, -, -⟩ := line_deg h
  have f1 := fall_low k.l ((r0.num : ℝ) / r.num)
  have f2 := fall_high l0 p1.le q1h
  have A1 := sizeC_low (k.g, k.h)
  have A2 := h.coef.2.2
  have pA := pos_of_low A1
  have pf := pos_of_low f1
  have e : (4 : ℝ) = 2 ^ (2 : ℤ) := by norm_num
  exact ⟨(z2 (by norm_num)).trans (dn e.ge (dn f1 A1)), (up e.le (up f2 A2 pA.le) (by positivity)).trans (z2 (by norm_num))⟩

include hN hθ hε hp hrs h2

/-- The summand of the radial field. -/
theorem ap_ur : Ap (PyFloat.mul (PyFloat.mul (rL pow k.l r r0 rss).2 (PyFloat.mul k.p (FloatRange.thetaScale N k.l k.m)))
      (phiLm k.m k.g k.h k.c k.s).1)
    ((Pfss.rL k.l r.num r0.num rss.num).2 * Pfss.tv θ (k.l, k.m) * (Pfss.phiLm k.m k.g.num k.h.num φ).1)
    (4 * (fall k.l (r0.num / r.num) * sizeC (k.g, k.h))) ((1 + 1 / 10 ^ 5) * (1 + ε) ^ 10 * w ^ 2067) := by
  have hE := line_eps h
  obtain ⟨l0, l1, l2, l3, l4⟩ := line_deg h
  obtain ⟨-, q1l, q1h⟩ := ap_quot hr0 hr h1
  have p1 := pos_of_low q1l
  have f1 := fall_low k.l ((r0.num : ℝ) / r.num)
  have f2 := fall_high l0 p1.le q1h
  have A1 := sizeC_low (k.g, k.h)
  have A2 := h.coef.2.2
  have pA := pos_of_low A1
  have pf := pos_of_low f1
  have hrl := (ap_rL hp hE hε hr hr0 hrs h1 h2 l0 l1).2
  have ht := ap_theta h hN hθ hε
  have hph := (ap_phi h hε).1
  set F := fall k.l ((r0.num : ℝ) / r.num)
  set A := sizeC (k.g, k.h)
  have d1 := dn (i := 1) (x := (2 : ℝ)) (by norm_num) f1
  have u1 := up (i := 1) (x := (2 : ℝ)) (by norm_num) f2 pf.le
  have dA := dn (i := 1) (x := (2 : ℝ)) (by norm_num) A1
  have uA := up (i := 1) (x := (2 : ℝ)) (by norm_num) A2 pA.le
  have m1 := hrl.mul ht (by rw [mul_one]; exact low_le d1 (by norm_num)) (by
    rw [mul_one]
    exact le_high (gle hE hε 7 2059 (by ring) (by norm_num) (by norm_num)) u1 (by positivity) (by norm_num))
  rw [mul_one] at m1
  have m2 := m1.mul hph (low_le (dn d1 dA) (by norm_num))
    (le_high (gle hE hε 8 2062 (by ring) (by norm_num) (by norm_num)) (up u1 uA (by positivity)) (by positivity) (by norm_num))
  refine m2.mono (le_of_eq (by ring)) (gfin hE hε (by norm_num) (by norm_num)).1 ?_
  refine le_trans (le_of_eq ?_) (gmono (a := 8) (b := 2063) hE (by norm_num) (by norm_num))
  ring

/-- The summand of the polar field. -/
theorem ap_up (hs : GoodSine ε θ s) : Ap (PyFloat.div (PyFloat.mul (PyFloat.mul (rL pow k.l r r0 rss).1
        (PyFloat.mul (PyFloat.mul k.d (PyFloat.neg s)) (FloatRange.thetaScale N k.l k.m))) (phiLm k.m k.g k.h k.c k.s).1) r)
    ((Pfss.rL k.l r.num r0.num rss.num).1 * Pfss.td θ (k.l, k.m) * (Pfss.phiLm k.m k.g.num k.h.num φ).1 / r.num)
    (4 * (fall k.l (r0.num / r.num) * sizeC (k.g, k.h))) ((1 + 1 / 10 ^ 5) * (1 + ε) ^ 10 * w ^ 2067) := by
  have hE := line_eps h
  obtain ⟨l0, l1, l2, l3, l4⟩ := line_deg h
  obtain ⟨-, q1l, q1h⟩ := ap_quot hr0 hr h1
  have p1 := pos_of_low q1l
  have f1 := fall_low k.l ((r0.num : ℝ) / r.num)
  have f2 := fall_high l0 p1.le q1h
  have A1 := sizeC_low (k.g, k.h)
  have A2 := h.coef.2.2
  have pA := pos_of_low A1
  have pf := pos_of_low f1
  have pr := pos_of_low hr.low
  have hrl := (ap_rL hp hE hε hr hr0 hrs h1 h2 l0 l1).1
  have ht := ap_dtheta h hN hθ hε hs
  have hph := (ap_phi h hε).1
  set F := fall k.l ((r0.num : ℝ) / r.num)
  set A := sizeC (k.g, k.h)
  have hl1 : (0 : ℝ) < k.l + 1 := by linarith
  have e1 : 2 * ((r.num : ℝ) * F) / (k.l + 1) * (k.l + 1) = 2 * (r.num * F) := by field_simp
  have d1 := dn (i := 1) (x := (2 : ℝ)) (by norm_num) (dn hr.low f1)
  have u1 := up (i := 1) (x := (2 : ℝ)) (by norm_num) (up hr.high f2 pf.le) (by positivity)
  have dA := dn (i := 1) (x := (2 : ℝ)) (by norm_num) A1
  have uA := up (i := 1) (x := (2 : ℝ)) (by norm_num) A2 pA.le
  have m1 := hrl.mul ht (by rw [e1]; exact low_le d1 (by norm_num)) (by
    rw [e1]
    exact le_high (gle hE hε 8 2060 (by ring) (by norm_num) (by norm_num)) u1 (by positivity) (by norm_num))
  rw [e1] at m1
  have m2 := m1.mul hph (low_le (dn d1 dA) (by norm_num))
    (le_high (gle hE hε 9 2063 (by ring) (by norm_num) (by norm_num)) (up u1 uA (by positivity)) (by positivity) (by norm_num))
  have ar : |(r.num : ℝ)| = r.num := abs_of_pos pr
  have e2 : 2 * ((r.num : ℝ) * F) * (2 * A) / |(r.num : ℝ)| = 4 * (F * A) := by rw [ar]; field_simp; ring
  obtain ⟨t1, t2⟩ := term_sizes h hr hr0 h1
  have m3 := m2.div (y := r) (u := r.num) (by rw [ar]; exact ap_radius hr) pr.ne' (by
      refine le_of_le_of_eq (gfin (a := 9) (b := 2064) hE hε (by norm_num) (by norm_num)).1 ?_
      ring) (by norm_num)
    (by rw [e2]; exact low_le t1 (by norm_num)) (by
      rw [e2]
      exact le_high (gle hE hε 9 2064 (by ring) (by norm_num) (by norm_num)) t2 (by positivity) (by norm_num))
  rw [e2] at m3
  refine m3.mono le_rfl (gfin hE hε (by norm_num) (by norm_num)).1 ?_
  refine le_trans (le_of_eq ?_) (gmono (a := 9) (b := 2065) hE (by norm_num) (by norm_num))
  ring

/-- The summand of the azimuthal field. -/
theorem ap_ua (hs : GoodSine ε θ s) :
    let u := PyFloat.mul (PyFloat.mul (rL pow k.l r r0 rss).1 (PyFloat.mul k.p (FloatRange.thetaScale N k.l k.m)))
      (phiLm k.m k.g k.h k.c k.s).2
    Ap (if neZero u = true then PyFloat.div u (PyFloat.mul r s) else fin false 0)
      ((Pfss.rL k.l r.num r0.num rss.num).1 * Pfss.tv θ (k.l, k.m) * (Pfss.phiLm k.m k.g.num k.h.num φ).2
        / (r.num * Real.sin θ))
      (4 * (fall k.l (r0.num / r.num) * sizeC (k.g, k.h)) / |Real.sin θ|) ((1 + 1 / 10 ^ 5) * (1 + ε) ^ 10 * w ^ 2067) := by
  intro u
  have hE := line_eps h
  obtain ⟨l0, l1, l2, l3, l4⟩ := line_deg h
  obtain ⟨-, q1l, q1h⟩ := ap_quot hr0 hr h1
  have p1 := pos_of_low q1l
  have f1 := fall_low k.l ((r0.num : ℝ) / r.num)
  have f2 := fall_high l0 p1.le q1h
  have A1 := sizeC_low (k.g, k.h)
  have A2 := h.coef.2.2
  have pA := pos_of_low A1
  have pf := pos_of_low f1
  have pr := pos_of_low hr.low
  have hrl := (ap_rL hp hE hε hr hr0 hrs h1 h2 l0 l1).1
  have ht := ap_theta h hN hθ hε
  have hph := (ap_phi h hε).2
  obtain ⟨t1, t2⟩ := term_sizes h hr hr0 h1
  set F := fall k.l ((r0.num : ℝ) / r.num)
  set A := sizeC (k.g, k.h)
  have hl1 : (0 : ℝ) < k.l + 1 := by linarith
  have i1 := inv_low (x := (k.l : ℝ) + 1) (by rw [abs_of_pos hl1]; exact l4) hl1.ne'
  have i2 := inv_high (x := (k.l : ℝ) + 1) (by rw [abs_of_pos hl1]; exact l3)
  rw [abs_of_pos hl1] at i1 i2
  have ip := pos_of_low i1
  have d1 := dn (dn (i := 1) (x := (2 : ℝ)) (by norm_num) (dn hr.low f1)) i1
  have u1 := up (up (i := 1) (x := (2 : ℝ)) (by norm_num) (up hr.high f2 pf.le) (by positivity)) i2 ip.le
  rw [mul_one_div] at d1 u1
  have dA := dn (i := 1) (x := (2 : ℝ)) (by norm_num) (dn A1 l3)
  have uA := up (i := 1) (x := (2 : ℝ)) (by norm_num) (up A2 l4 hl1.le) (by positivity)
  have m1 := hrl.mul ht (by rw [mul_one]; exact low_le d1 (by norm_num)) (by
    rw [mul_one]
    exact le_high (gle hE hε 7 2059 (by ring) (by norm_num) (by norm_num)) u1 (by positivity) (by norm_num))
  rw [mul_one] at m1
  have m2 := m1.mul hph (low_le (dn d1 dA) (by norm_num))
    (le_high (gle hE hε 8 2063 (by ring) (by norm_num) (by norm_num)) (up u1 uA (by positivity)) (by positivity) (by norm_num))
  have S1 := hs.low
  have pS := pos_of_low S1
  have S2 : |Real.sin θ| ≤ 2 ^ (0 : ℤ) := by simpa using Real.abs_sin_le_one θ
  have hw0 := w_pos
  have ww := pow_w_small 1 (by norm_num)
  rw [pow_one] at ww
  have hE1 : 1 + ε ≤ 1 + 1 / 10 ^ 9 := by linarith
  have hden := (ap_radius hr).mul (ap_sine hs) (low_le (dn hr.low S1) (by norm_num))
    (le_high (by linarith) (up hr.high S2 pS.le) (by positivity) (by norm_num))
  have arS : |(r.num : ℝ) * Real.sin θ| = r.num * |Real.sin θ| := by rw [abs_mul, abs_of_pos pr]
  rw [← arS] at hden
  have hne : (r.num : ℝ) * Real.sin θ ≠ 0 := mul_ne_zero pr.ne' (abs_pos.1 pS)
  have e2 : 2 * ((r.num : ℝ) * F) / (k.l + 1) * (2 * (A * (k.l + 1))) / |(r.num : ℝ) * Real.sin θ|
      = 4 * (F * A) / |Real.sin θ| := by rw [arS]; field_simp; ring
  have v1 := inv_low (x := Real.sin θ) S2 (abs_pos.1 pS)
  have v2 := inv_high S1
  have e3 : 4 * (F * A) / |Real.sin θ| = 4 * (F * A) * (1 / |Real.sin θ|) := div_eq_mul_one_div _ _
  have m3 := m2.div hden hne (by
      refine le_of_le_of_eq (gfin (a := 8) (b := 2064) hE hε (by norm_num) (by norm_num)).1 ?_
      ring) (by
      calc 1 * (1 + ε) * w ≤ 1 * (1 + 1 / 10 ^ 9) * (1 + 1 / 10 ^ 6) := by gcongr
        _ ≤ 3 / 2 := by norm_num)
    (by rw [e2, e3]; exact low_le (dn t1 v1) (by norm_num)) (by
      rw [e2, e3]
      exact le_high (gle hE hε 10 2066 (by ring) (by norm_num) (by norm_num)) (up t2 v2 (by positivity)) (by positivity)
        (by norm_num))
  rw [e2] at m3
  have m4 := m3.mono (g' := (1 + 1 / 10 ^ 5) * (1 + ε) ^ 10 * w ^ 2067) le_rfl (gfin hE hε (by norm_num) (by norm_num)).1
    (le_of_eq (by ring))
  by_cases hz : neZero u = true
  · rw [if_pos hz]
    exact m4
  · rw [if_neg hz]
    refine m4.congr (fd_zero false) ?_
    obtain ⟨su, a, eu, -⟩ := m2.fd
    obtain ⟨sd, b, ed, -⟩ := hden.fd
    have eu' : u = fin su a := eu
    rw [eu'] at hz
    have ha : a = 0 := by simpa [neZero] using hz
    have hfd := m3.fd
    rw [eu, ed, ha] at hfd ⊢
    obtain ⟨s', c, ec, -⟩ := hfd
    rw [num_zero]
    unfold PyFloat.div at ec ⊢
    by_cases hb : b = 0
    · simp [hb] at ec
    · simp [hb, ofMag_zero, num_zero]

end

/-! ### The loop -/

theorem fold_sub {α : Type*} {t : α → PyFloat} {v : α → ℝ} {M : α → ℝ} {g : ℝ} {i j : ℤ} (rows : List α)
    (hg : 1 ≤ g) (hg' : g ≤ 32) (h : ∀ r ∈ rows, Ap (t r) (v r) (M r) g) (hi : ∀ r ∈ rows, 2 ^ i ≤ M r)
    (hj : ∀ r ∈ rows, M r ≤ 2 ^ j) (hi' : -1000 ≤ i) (hj' : j ≤ 990) (hn : rows.length ≤ 2 ^ 20) :
    Ap (rows.foldl (fun acc r => PyFloat.sub acc (t r)) (fin false 0)) (rows.map fun r => -v r).sum (rows.map M).sum
      (g * w ^ rows.length) := by
  have := loop_add (t := fun r => (PyFloat.neg (t r), fin false 0)) (v := fun r => ((-v r : ℝ) : ℂ)) rows hg hg' (fun r hr =>
    ⟨by simpa using (h r hr).neg, by simpa using (Ap.zero false (pos_of_low (hi r hr)).le).mono le_rfl hg hg⟩) hi hj hi' hj' hn
  refine cast this.re ?_ ?_ rfl rfl
  · have gen : ∀ (rows : List α) (z : PyFloat × PyFloat), rows.foldl (fun acc r => PyFloat.sub acc (t r)) z.1
        = (rows.foldl (fun acc r => cadd acc (PyFloat.neg (t r), fin false 0)) z).1 := by
      intro rows
      induction rows with
      | nil => intro z; rfl
      | cons r rows ih => intro z; exact ih (cadd z (PyFloat.neg (t r), fin false 0))
    exact gen rows (fin false 0, fin false 0)
  · clear h hi hj hn this
    induction rows with
    | nil => simp
    | cons r rows ih => simp only [List.map_cons, List.sum_cons, Complex.add_re, Complex.ofReal_re, ih]

theorem loop_eq {α : Type*} (rad sn : PyFloat) (pt : α → FloatAxis.PPoint) (rows : List α) :
    FloatAxis.loop rad sn (rows.map pt)
      = (rows.foldl (fun acc k => PyFloat.sub acc (PyFloat.mul (PyFloat.mul (pt k).drl (pt k).theta) (pt k).phi)) (fin false 0),
        rows.foldl (fun acc k => PyFloat.sub acc
          (PyFloat.div (PyFloat.mul (PyFloat.mul (pt k).rl ((pt k).dtheta sn)) (pt k).phi) rad)) (fin false 0),
        rows.foldl (fun acc k => PyFloat.sub acc
          (if neZero (PyFloat.mul (PyFloat.mul (pt k).rl (pt k).theta) (pt k).dphi) = true then
            PyFloat.div (PyFloat.mul (PyFloat.mul (pt k).rl (pt k).theta) (pt k).dphi) (PyFloat.mul rad sn)
            else fin false 0)) (fin false 0)) := by
  unfold FloatAxis.loop
  rw [List.foldl_map]
  generalize fin false 0 = z
  have gen : ∀ (rows : List α) (a b c : PyFloat), rows.foldl (fun (acc : PyFloat × PyFloat × PyFloat) k =>
      (PyFloat.sub acc.1 (PyFloat.mul (PyFloat.mul (pt k).drl (pt k).theta) (pt k).phi),
        PyFloat.sub acc.2.1 (PyFloat.div (PyFloat.mul (PyFloat.mul (pt k).rl ((pt k).dtheta sn)) (pt k).phi) rad),
        PyFloat.sub acc.2.2 (if neZero (PyFloat.mul (PyFloat.mul (pt k).rl (pt k).theta) (pt k).dphi) = true then
            PyFloat.div (PyFloat.mul (PyFloat.mul (pt k).rl (pt k).theta) (pt k).dphi) (PyFloat.mul rad sn)
            else z))) (a, b, c)
      = (rows.foldl (fun acc k => PyFloat.sub acc (PyFloat.mul (PyFloat.mul (pt k).drl (pt k).theta) (pt k).phi)) a,
        rows.foldl (fun acc k => PyFloat.sub acc
          (PyFloat.div (PyFloat.mul (PyFloat.mul (pt k).rl ((pt k).dtheta sn)) (pt k).phi) rad)) b,
        rows.foldl (fun acc k => PyFloat.sub acc
          (if neZero (PyFloat.mul (PyFloat.mul (pt k).rl (pt k).theta) (pt k).dphi) = true then
            PyFloat.div (PyFloat.mul (PyFloat.mul (pt k).rl (pt k).theta) (pt k).dphi) (PyFloat.mul rad sn)
            else z)) c) := by
    intro rows
    induction rows with
    | nil => intro a b c; rfl
    | cons r rows ih => intro a b c; exact ih _ _ _
  exact gen rows z z z

theorem sum_pairs {s : Coefs ℂ} {rows : List PFloat} (h : SameLines s rows) (f : ℤ × ℤ → ℝ) :
    ∑ k ∈ pairs s, f k = (rows.map fun k => f (k.l, k.m)).sum := by
  have e : pairs s = (rows.map fun k => (k.l, k.m)).toFinset := by
    ext k
    rw [mem_pairs, List.mem_toFinset, h.stored]
  rw [e, List.sum_toFinset _ h.nodup, List.map_map]
  rfl

section
variable {s : Coefs ℂ} {rows : List PFloat} {r r0 rss sn : PyFloat} (hl : SameLines s rows) (hk : ∀ k ∈ rows, GoodLine ε θ φ k)
  (hN : Spec.Accurate N) (hθ : OffAxis θ) (hE0 : 0 ≤ ε) (hε : ε ≤ 1 / 10 ^ 9) (hp : GoodPow ε pow) (hr : GoodRadius r) (hr0 : GoodRadius r0)
  (hrs : GoodRadius rss) (h1 : (r0.num : ℝ) ≤ r.num) (h2 : (r.num : ℝ) ≤ rss.num) (hn : rows.length ≤ 2 ^ 20)
  (hs : GoodSine ε θ sn)
include hl hk hN hθ hE0 hε hp hr hr0 hrs h1 h2 hn hs

/-- The three components after the loop. -/
theorem ap_loop : let f := FloatAxis.loop r sn (rows.map (PFloat.point N pow r r0 rss))
    let S := pfssSize (r0.num / r.num) rows
    let G := (1 + 1 / 10 ^ 5) * (1 + ε) ^ 10 * w ^ 2067 * w ^ rows.length
    Ap f.1 (Pfss.fR s r0.num rss.num r.num θ φ) S G ∧ Ap f.2.1 (Pfss.fP s r0.num rss.num r.num θ φ) S G ∧
      Ap f.2.2 (Pfss.fA s r0.num rss.num r.num θ φ) (S / |Real.sin θ|) G := by
  have g := gfin hE0 hε (a := 10) (b := 2067) (by norm_num) (by norm_num)
  have S1 := hs.low
  have pS := pos_of_low S1
  have S2 : |Real.sin θ| ≤ 2 ^ (0 : ℤ) := by simpa using Real.abs_sin_le_one θ
  have v1 := inv_low (x := Real.sin θ) S2 (abs_pos.1 pS)
  have v2 := inv_high S1
  have cre : ∀ k ∈ rows, (Spec.coef s k.l k.m).re = k.g.num := fun k h => by rw [hl.coef k h]; rfl
  have cim : ∀ k ∈ rows, (Spec.coef s k.l k.m).im = k.h.num := fun k h => by rw [hl.coef k h]; rfl
  rw [loop_eq]
  refine ⟨?_, ?_, ?_⟩
  · refine cast (fold_sub rows g.1 (g.2.trans (by norm_num)) (fun k h => ap_ur (hk k h) hN hθ hε hp hr hr0 hrs h1 h2)
      (fun k h => (term_sizes (hk k h) hr hr0 h1).1) (fun k h => (term_sizes (hk k h) hr hr0 h1).2) (by norm_num) (by norm_num) hn)
      rfl ?_ rfl rfl
    rw [Pfss.fR, sum_pairs hl]
    refine congrArg List.sum (List.map_congr_left fun k h => ?_)
    simp only [cre k h, cim k h]
  · refine cast (fold_sub rows g.1 (g.2.trans (by norm_num)) (fun k h => ap_up (hk k h) hN hθ hε hp hr hr0 hrs h1 h2 hs)
      (fun k h => (term_sizes (hk k h) hr hr0 h1).1) (fun k h => (term_sizes (hk k h) hr hr0 h1).2) (by norm_num) (by norm_num) hn)
      rfl ?_ rfl rfl
    rw [Pfss.fP, sum_pairs hl]
    refine congrArg List.sum (List.map_congr_left fun k h => ?_)
    simp only [cre k h, cim k h]
  · refine cast (fold_sub rows g.1 (g.2.trans (by norm_num)) (fun k h => ap_ua (hk k h) hN hθ hε hp hr hr0 hrs h1 h2 hs)
      (fun k h => ?_) (fun k h => ?_) (i := -600 + -0) (j := 302 + -(-100)) (by norm_num) (by norm_num) hn) rfl ?_ ?_ rfl
    · rw [div_eq_mul_one_div]
      exact dn (term_sizes (hk k h) hr hr0 h1).1 v1
    · rw [div_eq_mul_one_div]
      exact up (term_sizes (hk k h) hr hr0 h1).2 v2 (by positivity)
    · rw [Pfss.fA, sum_pairs hl]
      refine congrArg List.sum (List.map_congr_left fun k h => ?_)
      simp only [cre k h, cim k h]
    · rw [pfssSize, div_eq_mul_inv, ← List.sum_map_mul_right]
      refine congrArg List.sum (List.map_congr_left fun k h => ?_)
      rw [div_eq_mul_inv]
      rfl

end

/-! ### The radii and the assertion -/

theorem lt_fin {x y : PyFloat} (hx : FinD x) (hy : FinD y) : lt x y = true ↔ (x.num : ℝ) < y.num := by
  obtain ⟨s, a, rfl, -⟩ := hx
  obtain ⟨t, b, rfl, -⟩ := hy
  simp [lt]

theorem minimum_fin {x y : PyFloat} (hx : FinD x) (hy : FinD y) :
    minimum x y = if lt y x = true then y else x := by
  obtain ⟨s, a, rfl, -⟩ := hx
  obtain ⟨t, b, rfl, -⟩ := hy
  simp [minimum, FloatCoords.isNan]

/-- The assertion in `calculate_all_theta` holds. -/
theorem theta_close (h : GoodLine ε θ φ k) (hN : Spec.Accurate N) (hθ : OffAxis θ) (hε : ε ≤ 1 / 10 ^ 9) :
    isClose (PyFloat.mul k.p (FloatRange.thetaScale N k.l k.m)) (PyFloat.mul (FloatRange.thetaScale N k.l k.m) k.q) = true := by
  have hb : 0 ≤ k.m ∧ k.m ≤ k.l := ⟨h.order_nonneg, h.order_le⟩
  have hS := pos_of_low (scale_range hb h.degree).1
  have hE := line_eps h
  have hsc := ap_scale hN hb h.degree
  set C := FloatRange.thetaScale N k.l k.m
  set S := schmidtScale k.l k.m
  set P := Spec.legendreP k.l.toNat k.m.toNat (Real.cos θ)
  have hC : |(C.num : ℝ)| ≤ (1 + 1 / 10 ^ 5) * S := by
    have h1 := abs_le.1 hsc.err
    have h2 := abs_le.1 hsc.size
    rw [abs_le]
    constructor <;> linarith [h1.1, h1.2, h2.1, h2.2]
  have cap : Ap C C.num ((1 + 1 / 10 ^ 5) * S) 1 := Ap.exact hsc.fd hC
  have e : 1 / S * ((1 + 1 / 10 ^ 5) * S) = 1 + 1 / 10 ^ 5 := by field_simp
  have e' : (1 + 1 / 10 ^ 5) * S * (1 / S) = 1 + 1 / 10 ^ 5 := by field_simp
  have hw := pow_w_small 1 (by norm_num)
  rw [pow_one] at hw
  have m1 := (ap_value h hθ h.p_fin h.p_close).mul cap (by
    rw [e]; exact low_le (i := 0) (by norm_num) (by norm_num)) (by
    rw [e]
    exact le_high (by linarith) (i := 1) (by norm_num) (by norm_num) (by norm_num))
  have m2 := cap.mul (ap_value h hθ h.q_fin h.q_close) (by
    rw [e']; exact low_le (i := 0) (by norm_num) (by norm_num)) (by
    rw [e']
    exact le_high (by linarith) (i := 1) (by norm_num) (by norm_num) (by norm_num))
  rw [e, mul_one] at m1
  rw [e', one_mul] at m2
  have hw52 : w = 1 + 1 / 2 ^ 52 := rfl
  have hb1 : ((1 + ε) * w - 1) * (1 + 1 / 10 ^ 5) ≤ 1 / 10 ^ 8 / 2 := by
    have : (1 + ε) * w ≤ (1 + 1 / 10 ^ 9) * (1 + 1 / 2 ^ 52) := by rw [hw52]; gcongr
    calc ((1 + ε) * w - 1) * (1 + 1 / 10 ^ 5) ≤ ((1 + 1 / 10 ^ 9) * (1 + 1 / 2 ^ 52) - 1) * (1 + 1 / 10 ^ 5) := by gcongr
      _ ≤ 1 / 10 ^ 8 / 2 := by norm_num
  have d1 := m1.err.trans hb1
  have d2 := m2.err.trans hb1
  obtain ⟨s1, a1, e1, -⟩ := m1.fd
  obtain ⟨s2, a2, e2, -⟩ := m2.fd
  rw [e1] at d1 ⊢
  rw [e2] at d2 ⊢
  rw [isClose, decide_eq_true_eq, ← Rat.cast_le (K := ℝ)]
  push_cast
  have d3 := abs_le.1 d1
  have d4 := abs_le.1 d2
  rw [mul_comm _ P] at d4
  have : |(((fin s1 a1).num : ℚ) : ℝ) - ((fin s2 a2).num : ℚ)| ≤ 1 / 10 ^ 8 := by
    rw [abs_le]
    constructor <;> linarith [d3.1, d3.2, d4.1, d4.2]
  have h0 := abs_nonneg (((fin s2 a2).num : ℚ) : ℝ)
  norm_num at this ⊢
  linarith

/-- Which field is computed. -/
theorem spherical_eq {s : Coefs ℂ} {rows : List PFloat} {r r0 rss sn : PyFloat} (hs : RadialSet s) (hl : SameLines s rows)
    (hk : ∀ k ∈ rows, GoodLine ε θ φ k) (hN : Spec.Accurate N) (hθ : OffAxis θ) (hε : ε ≤ 1 / 10 ^ 9)
    (hr0 : FinD r0) (hrs : FinD rss) (hlt : (r0.num : ℝ) < rss.num) :
    spherical N pow sn rows r r0 rss = .ok (
      if lt r r0 = true then (fin false 0, fin false 0, fin false 0)
      else if lt rss r = true then FloatAxis.beyond (PyFloat.mul (PyFloat.div (minimum r rss) r) (PyFloat.div (minimum r rss) r))
        (FloatAxis.loop (minimum r rss) sn (rows.map (PFloat.point N pow (minimum r rss) r0 rss)))
      else FloatAxis.loop (minimum r rss) sn (rows.map (PFloat.point N pow (minimum r rss) r0 rss))) := by
  have hne : rows ≠ [] := by
    rintro rfl
    obtain ⟨l, m, h⟩ := hs.nonempty
    simpa using (hl.stored l m).1 h
  have ha : ∀ x ∈ rows.map (fun k => (k.l, k.m, k.p, k.q)), isClose (PyFloat.mul x.2.2.1 (FloatRange.thetaScale N x.1 x.2.1))
      (PyFloat.mul (FloatRange.thetaScale N x.1 x.2.1) x.2.2.2) = true := by
    intro x hx
    obtain ⟨k, h, rfl⟩ := List.mem_map.1 hx
    exact theta_close (hk k h) hN hθ hε
  unfold spherical allTheta
  simp only [bind, Except.bind, resAssert, pure, Except.pure, if_pos ((lt_fin hr0 hrs).2 hlt), if_neg hne,
    if_pos (fun k h => (hk k h).order_nonneg : ∀ k ∈ rows, 0 ≤ k.m), if_pos ha]
  split_ifs <;> rfl

theorem size_range {rows : List PFloat} {r r0 : PyFloat} (hk : ∀ k ∈ rows, GoodLine ε θ φ k) (hr : GoodRadius r)
    (hr0 : GoodRadius r0) (h1 : (r0.num : ℝ) ≤ r.num) (hn : rows.length ≤ 2 ^ 20) (hne : rows ≠ []) :
    2 ^ (-600 : ℤ) ≤ pfssSize (r0.num / r.num) rows ∧ pfssSize (r0.num / r.num) rows ≤ 2 ^ (322 : ℤ) := by
  have t1 := fun k h => (term_sizes (hk k h) hr hr0 h1).1
  have t2 := fun k h => (term_sizes (hk k h) hr hr0 h1).2
  refine ⟨?_, sum_le rows t2 hn⟩
  obtain ⟨k, h⟩ := List.exists_mem_of_ne_nil _ hne
  refine (t1 k h).trans (List.single_le_sum ?_ _ (List.mem_map_of_mem (f := fun k : PFloat =>
    4 * (max (((r0.num : ℝ) / r.num) ^ (k.l + 2)) (2 ^ (-400 : ℤ)) * sizeC (k.g, k.h))) h))
  intro z hz
  obtain ⟨k', h', rfl⟩ := List.mem_map.1 hz
  exact (pos_of_low (t1 k' h')).le

/-- The field outside the star. -/
theorem ap_field {s : Coefs ℂ} {rows : List PFloat} {r r0 rss sn : PyFloat} (hs : RadialSet s) (hl : SameLines s rows)
    (hk : ∀ k ∈ rows, GoodLine ε θ φ k) (hN : Spec.Accurate N) (hθ : OffAxis θ) (hε : ε ≤ 1 / 10 ^ 9) (hp : GoodPow ε pow)
    (hr : GoodRadius r) (hr0 : GoodRadius r0) (hrs : GoodRadius rss) (hlt : (r0.num : ℝ) < rss.num) (hout : (r0.num : ℝ) ≤ r.num)
    (hsn : GoodSine ε θ sn) (hn : rows.length ≤ 2 ^ 20) :
    ∃ b e, spherical N pow sn rows r r0 rss = .ok b ∧ Pfss.evalSpherical s r.num θ φ r0.num rss.num = .ok e ∧
      let R := min (r.num : ℝ) rss.num
      let S := pfssSize (r0.num / R) rows * (R / r.num) ^ 2
      let G := (1 + 1 / 10 ^ 5) * (1 + ε) ^ 10 * w ^ (rows.length + 2071)
      2 ^ (-800 : ℤ) ≤ S ∧ S ≤ 2 ^ (322 : ℤ) ∧ Ap b.1 e.1 S G ∧ Ap b.2.1 e.2.1 S G ∧ Ap b.2.2 e.2.2 (S / |Real.sin θ|) G := by
  have hne : rows ≠ [] := by
    rintro rfl
    obtain ⟨l, m, h⟩ := hs.nonempty
    simpa using (hl.stored l m).1 h
  obtain ⟨k0, hk0⟩ := List.exists_mem_of_ne_nil _ hne
  have hE0 := line_eps (hk k0 hk0)
  have c1 : ¬ lt r r0 = true := by rw [lt_fin hr.fin hr0.fin]; exact not_lt.2 hout
  have S1 := hsn.low
  have pS := pos_of_low S1
  have S2 : |Real.sin θ| ≤ 2 ^ (0 : ℤ) := by simpa using Real.abs_sin_le_one θ
  have v1 := inv_low (x := Real.sin θ) S2 (abs_pos.1 pS)
  have v2 := inv_high S1
  have pr := pos_of_low hr.low
  have prs := pos_of_low hrs.low
  refine ⟨_, _, spherical_eq hs hl hk hN hθ hε hr0.fin hrs.fin hlt, Pfss.evalSpherical_eq hs hlt _ _ _, ?_⟩
  rw [if_neg c1, if_neg (not_lt.2 hout)]
  by_cases hbey : (rss.num : ℝ) < r.num
  · have c2 : lt rss r = true := (lt_fin hrs.fin hr.fin).2 hbey
    rw [if_pos c2, if_pos hbey, minimum_fin hr.fin hrs.fin, if_pos c2, min_eq_right hbey.le]
    obtain ⟨a1, a2, a3⟩ := ap_loop hl hk hN hθ hE0 hε hp hrs hr0 hrs hlt.le le_rfl hn hsn
    obtain ⟨z1, z3⟩ := size_range hk hrs hr0 hlt.le hn hne
    obtain ⟨q1, q2, q3⟩ := ap_quot hrs hr hbey.le
    set S := pfssSize ((r0.num : ℝ) / rss.num) rows
    set q := (rss.num : ℝ) / r.num
    have q3' : q ≤ 2 ^ (0 : ℤ) := by simpa using q3
    have pq := pos_of_low q2
    have pz := pos_of_low z1
    have hw := w_le
    have hw0 := w_pos
    have qq := q1.mul q1 (low_le (dn q2 q2) (by norm_num)) (le_high (by nlinarith) (up q3' q3' pq.le) (by positivity) (by norm_num))
    have eg : ∀ n : ℕ, (1 + 1 / 10 ^ 5) * (1 + ε) ^ 10 * w ^ 2067 * w ^ n * (w * w * w)
        = (1 + 1 / 10 ^ 5) * (1 + ε) ^ 10 * w ^ (n + 2070) := fun n => by ring
    have eh : ∀ n : ℕ, (1 + 1 / 10 ^ 5) * (1 + ε) ^ 10 * w ^ 2067 * w ^ n * (w * w * w) * w
        = (1 + 1 / 10 ^ 5) * (1 + ε) ^ 10 * w ^ (n + 2071) := fun n => by ring
    have hg := gle hE0 hε 10 (rows.length + 2070) (eg rows.length) (by norm_num) (by omega)
    have dq := dn z1 (dn q2 q2)
    have uq := up z3 (up q3' q3' pq.le) (by positivity)
    have e3 : S / |Real.sin θ| * (q * q) = S * (q * q) * (1 / |Real.sin θ|) := by ring
    have m1 := a1.mul qq (low_le dq (by norm_num)) (le_high hg uq (by positivity) (by norm_num))
    have m2 := a2.mul qq (low_le dq (by norm_num)) (le_high hg uq (by positivity) (by norm_num))
    have m3 := a3.mul qq (by rw [e3]; exact low_le (dn dq v1) (by norm_num)) (by
      rw [e3]
      exact le_high hg (up uq v2 (by positivity)) (by positivity) (by norm_num))
    rw [eh] at m1 m2 m3
    have e2 : q ^ 2 = q * q := sq q
    refine ⟨?_, ?_, cast m1 rfl (by rw [e2]) (by rw [e2]) rfl, cast m2 rfl (by rw [e2]) (by rw [e2]) rfl,
      cast m3 rfl (by rw [e2]) (by rw [e2]; ring) rfl⟩
    · rw [e2]; exact dq
    · rw [e2]; exact uq.trans (z2 (by norm_num))
  · have c2 : ¬ lt rss r = true := by rw [lt_fin hrs.fin hr.fin]; exact hbey
    rw [if_neg c2, if_neg hbey, minimum_fin hr.fin hrs.fin, if_neg c2, min_eq_left (not_lt.1 hbey)]
    obtain ⟨a1, a2, a3⟩ := ap_loop hl hk hN hθ hE0 hε hp hr hr0 hrs hout (not_lt.1 hbey) hn hsn
    obtain ⟨z1, z3⟩ := size_range hk hr hr0 hout hn hne
    have e1 : ((r.num : ℝ) / r.num) ^ 2 = 1 := by rw [div_self pr.ne', one_pow]
    have eg : (1 + 1 / 10 ^ 5) * (1 + ε) ^ 10 * w ^ 2067 * w ^ rows.length
        = (1 + 1 / 10 ^ 5) * (1 + ε) ^ 10 * w ^ (rows.length + 2067) := by ring
    rw [eg] at a1 a2 a3
    have g1 := (gfin hE0 hε (a := 10) (b := rows.length + 2071) (by norm_num) (by omega)).1
    have gm := gmono hE0 (a := 10) (a' := 10) (b := rows.length + 2067) (b' := rows.length + 2071) le_rfl (by omega)
    simp only [e1, mul_one]
    exact ⟨(z2 (by norm_num)).trans z1, z3, a1.mono le_rfl g1 gm, a2.mono le_rfl g1 gm, a3.mono le_rfl g1 gm⟩

end FloatPfss

variable {ε θ φ : ℝ} {pow : PyFloat → ℤ → PyFloat} {N : NumLib}

/-- **C115**: inside the star the field is exactly zero. -/
theorem C115_inside {rows : List PFloat} {r r0 rss sn : PyFloat} {b : PyFloat × PyFloat × PyFloat}
    (h : spherical N pow sn rows r r0 rss = .ok b) (hr : FinD r) (hr0 : FinD r0) (hin : r.num < r0.num) :
    b = (fin false 0, fin false 0, fin false 0) := by
  have c : lt r r0 = true := (lt_fin hr hr0).2 (by exact_mod_cast hin)
  unfold spherical resAssert at h
  simp only [bind, Except.bind, pure, Except.pure, c, if_true] at h
  split_ifs at h
  all_goals dsimp only at h
  split at h
  · exact absurd h (by simp)
  · exact (Except.ok.inj h).symm

/-- **C115**: a source surface inside the star is refused, and so are a set without coefficients and negative orders. -/
theorem C115_refused {rows : List PFloat} {r r0 rss sn : PyFloat} (hr0 : FinD r0) (hrs : FinD rss) :
    (rss.num ≤ r0.num → spherical N pow sn rows r r0 rss = .error .assertion) ∧
    (r0.num < rss.num → spherical N pow sn [] r r0 rss = .error .value) ∧
    (r0.num < rss.num → (∃ k ∈ rows, k.m < 0) → spherical N pow sn rows r r0 rss = .error .assertion) := by
  refine ⟨fun h => ?_, fun h => ?_, fun h ⟨k, hk, hm⟩ => ?_⟩
  · have c : ¬ lt r0 rss = true := by rw [lt_fin hr0 hrs]; exact not_lt.2 (by exact_mod_cast h)
    unfold spherical resAssert
    rw [if_neg c]
    rfl
  · have c : lt r0 rss = true := (lt_fin hr0 hrs).2 (by exact_mod_cast h)
    unfold spherical resAssert
    rw [if_pos c]
    rfl
  · have c : lt r0 rss = true := (lt_fin hr0 hrs).2 (by exact_mod_cast h)
    have c2 : ¬ rows = [] := by rintro rfl; simp at hk
    have c3 : ¬ ∀ k ∈ rows, 0 ≤ k.m := fun h => absurd (h k hk) (by omega)
    unfold spherical resAssert
    simp only [bind, Except.bind, pure, Except.pure, if_pos c, if_neg c2, if_neg c3]
    rfl

/-- **C115**: outside the star each component of the field, evaluated in double precision, is within the stated distance of the
exact one. -/
theorem C115_spherical {s : Coefs ℂ} {rows : List PFloat} {r r0 rss sn : PyFloat} (hs : RadialSet s) (hl : SameLines s rows)
    (hk : ∀ k ∈ rows, GoodLine ε θ φ k) (hN : Spec.Accurate N) (hθ : OffAxis θ) (hε : ε ≤ 1 / 10 ^ 9) (hp : GoodPow ε pow)
    (hr : GoodRadius r) (hr0 : GoodRadius r0) (hrs : GoodRadius rss) (hlt : (r0.num : ℝ) < rss.num) (hout : (r0.num : ℝ) ≤ r.num)
    (hsn : GoodSine ε θ sn) (hn : rows.length ≤ 2 ^ 20) :
    ∃ b e, spherical N pow sn rows r r0 rss = .ok b ∧ Pfss.evalSpherical s r.num θ φ r0.num rss.num = .ok e ∧
      let R := min (r.num : ℝ) rss.num
      let bound := ((1 + 1 / 10 ^ 5) * (1 + ε) ^ 10 * (1 + 1 / 2 ^ 52) ^ (rows.length + 2071) - 1)
        * (pfssSize (r0.num / R) rows * (R / r.num) ^ 2)
      (FinD b.1 ∧ |(b.1.num : ℝ) - e.1| ≤ bound) ∧ (FinD b.2.1 ∧ |(b.2.1.num : ℝ) - e.2.1| ≤ bound) ∧
        FinD b.2.2 ∧ |(b.2.2.num : ℝ) - e.2.2| ≤ bound / |Real.sin θ| := by
  obtain ⟨b, e, hb, he, -, -, a1, a2, a3⟩ := ap_field hs hl hk hN hθ hε hp hr hr0 hrs hlt hout hsn hn
  refine ⟨b, e, hb, he, FloatField.done a1, FloatField.done a2, a3.fd, ?_⟩
  have := a3.err
  rw [← mul_div_assoc] at this
  exact this

/-- **C115**: so is each cartesian component. -/
theorem C115_cartesian {s : Coefs ℂ} {rows : List PFloat} {r r0 rss sθ cθ sφ cφ : PyFloat} (hs : RadialSet s)
    (hl : SameLines s rows) (hk : ∀ k ∈ rows, GoodLine ε θ φ k) (hN : Spec.Accurate N) (hθ : OffAxis θ) (hε : ε ≤ 1 / 10 ^ 9)
    (hp : GoodPow ε pow) (hr : GoodRadius r) (hr0 : GoodRadius r0) (hrs : GoodRadius rss) (hlt : (r0.num : ℝ) < rss.num)
    (hout : (r0.num : ℝ) ≤ r.num) (hsn : GoodSine ε θ sθ) (ht : GoodTrig ε θ φ sθ cθ sφ cφ) (hn : rows.length ≤ 2 ^ 20) :
    ∃ F e, FloatPfss.cartesian N pow sθ cθ sφ cφ rows r r0 rss = .ok F ∧
      Pfss.evalSpherical s r.num θ φ r0.num rss.num = .ok e ∧
      let B := toCartesian θ φ e.1 e.2.1 e.2.2
      let R := min (r.num : ℝ) rss.num
      let bound := ((1 + 1 / 10 ^ 5) * (1 + ε) ^ 12 * (1 + 1 / 2 ^ 52) ^ (rows.length + 2075) - 1)
        * (pfssSize (r0.num / R) rows * (R / r.num) ^ 2 * (2 + 1 / |Real.sin θ|))
      (FinD F.1 ∧ |(F.1.num : ℝ) - B 0| ≤ bound) ∧ (FinD F.2.1 ∧ |(F.2.1.num : ℝ) - B 1| ≤ bound) ∧
        FinD F.2.2 ∧ |(F.2.2.num : ℝ) - B 2| ≤ bound := by
  have hE0 : 0 ≤ ε := (abs_nonneg _).trans ht.sinθ
  obtain ⟨b, e, hb, he, s1, s2, a1, a2, a3⟩ := ap_field hs hl hk hN hθ hε hp hr hr0 hrs hlt hout hsn hn
  have S1 := hsn.low
  have pS := pos_of_low S1
  have S2 : |Real.sin θ| ≤ 1 := Real.abs_sin_le_one θ
  have v2 := inv_high S1
  set S := pfssSize (r0.num / min (r.num : ℝ) rss.num) rows * (min (r.num : ℝ) rss.num / r.num) ^ 2
  have p1 := pos_of_low s1
  have hS : S ≤ S / |Real.sin θ| := (le_div_iff₀ pS).2 (mul_le_of_le_one_right p1.le S2)
  have hg := gfin hE0 hε (a := 10) (b := rows.length + 2071) (by norm_num) (by omega)
  have key := ap_cartesian ht (hε.trans (by norm_num)) (f := b) a1 a2 a3 hg.1 (hg.2.trans (by norm_num)) (i := -800) (j := 424)
    (by norm_num) (by norm_num) s1 s1 (s1.trans hS) (by
      have h1 : S / |Real.sin θ| ≤ 2 ^ (322 + -(-100) : ℤ) := by
        rw [div_eq_mul_one_div]
        exact up s2 v2 (by positivity)
      have e : (2 : ℝ) ^ (424 : ℤ) = 4 * 2 ^ (322 + -(-100) : ℤ) := by
        rw [show (424 : ℤ) = 2 + (322 + -(-100)) by norm_num, zpow_add₀ (by norm_num)]; norm_num
      have h2 := hS.trans h1
      have h3 : (0 : ℝ) ≤ 2 ^ (322 + -(-100) : ℤ) := by positivity
      rw [e]
      linarith)
  have eg : (1 + 1 / 10 ^ 5) * (1 + ε) ^ 10 * w ^ (rows.length + 2071) * (1 + ε) ^ 2 * w ^ 4
      = (1 + 1 / 10 ^ 5) * (1 + ε) ^ 12 * (1 + 1 / 2 ^ 52) ^ (rows.length + 2075) := by unfold w; ring
  have es : S + S + S / |Real.sin θ| = S * (2 + 1 / |Real.sin θ|) := by ring
  rw [eg, es] at key
  refine ⟨_, e, ?_, he, FloatField.done key.1, FloatField.done key.2.1, FloatField.done key.2.2⟩
  unfold FloatPfss.cartesian
  rw [hb]
  rfl

/-- **C115**: with library functions accurate to 1e-9, all components are accurate to 2e-5 of the sizes of their terms. -/
theorem C115_digits (n : ℕ) (hn : n ≤ 2 ^ 20 + 2075) (hE0 : 0 ≤ ε) (hε : ε ≤ 1 / 10 ^ 9) :
    (1 + 1 / 10 ^ 5) * (1 + ε) ^ 12 * (1 + 1 / 2 ^ 52) ^ n - 1 ≤ 2 / 10 ^ 5 := by
  have h1 : (1 + 1 / 2 ^ 52 : ℝ) ^ n ≤ 1 + 1 / 10 ^ 6 := pow_w_small n (by omega)
  have h2 : (1 + ε) ^ 12 ≤ (1 + 1 / 10 ^ 9) ^ 12 := by gcongr
  have h3 : (1 + 1 / 10 ^ 5 : ℝ) * (1 + ε) ^ 12 * (1 + 1 / 2 ^ 52) ^ n
      ≤ (1 + 1 / 10 ^ 5) * (1 + 1 / 10 ^ 9) ^ 12 * (1 + 1 / 10 ^ 6) := by gcongr
  refine (sub_le_sub_right h3 1).trans ?_
  norm_num

/-! A dipole of strength one seen on the equator, beyond a source surface at two stellar radii, with powers rounded to the nearest
double. -/

private def exPower (x : PyFloat) (n : ℤ) : PyFloat := ofMag false (|x.num| ^ n)

private theorem exPower_good : GoodPow (1 / 10 ^ 9) exPower := by
  have key : ∀ x n, FinD x → 0 ≤ x.num → x.num ≤ 2 → 0 < n → n ≤ 341 →
      Ap (exPower x n) ((x.num : ℝ) ^ n) (max ((x.num : ℝ) ^ n) (2 ^ (-1000 : ℤ))) (1 * w) := by
    intro x n _ h0 h2 hn hn'
    have h0' : (0 : ℝ) ≤ x.num := by exact_mod_cast h0
    have h2' : (x.num : ℝ) ≤ 2 := by exact_mod_cast h2
    have hpow : (0 : ℝ) ≤ (x.num : ℝ) ^ n := zpow_nonneg h0' n
    obtain ⟨k, rfl⟩ := Int.eq_ofNat_of_zero_le hn.le
    simp only [Int.ofNat_eq_natCast, zpow_natCast] at *
    refine ap_ofMag (zpow_nonneg (abs_nonneg _) _) ?_ ?_ (low_le (le_max_right _ _) (by norm_num)) ?_
    · rw [abs_of_nonneg h0]
      simp [num]
    · rw [abs_of_nonneg hpow]
      exact le_max_left _ _
    · refine le_high (i := 341) (by norm_num) (max_le ?_ (z2 (by norm_num))) (le_max_of_le_left hpow) (by norm_num)
      calc (x.num : ℝ) ^ k ≤ 2 ^ k := by gcongr
        _ ≤ 2 ^ 341 := pow_le_pow_right₀ (by norm_num) (by omega)
        _ = 2 ^ (341 : ℤ) := by norm_cast
  constructor
  · exact fun x n h h0 h2 hn hn' => (key x n h h0 h2 hn hn').fd
  · intro x n h h0 h2 hn hn'
    have k := key x n h h0 h2 hn hn'
    refine k.err.trans (mul_le_mul_of_nonneg_right ?_ k.size_nonneg)
    unfold w
    norm_num

private theorem exRadius {q : ℚ} (h : IsDouble q) (h1 : 1 ≤ q) (h4 : q ≤ 4) : GoodRadius (fin false q) := by
  have h1' : (1 : ℝ) ≤ q := by exact_mod_cast h1
  have h4' : (q : ℝ) ≤ 4 := by exact_mod_cast h4
  refine ⟨⟨_, _, rfl, h⟩, ?_, ?_⟩ <;> simp only [num, Bool.false_eq_true, if_false]
  · exact le_trans (by norm_num) h1'
  · exact h4'.trans (by norm_num)

private def exEquator : PFloat :=
  ⟨1, 0, fin false 1, fin false 0, fin false 0, fin false 1, fin false 0, fin false 1, fin false 0⟩

private theorem exEquator_good : GoodLine (1 / 10 ^ 9) (Real.pi / 2) 0 exEquator := by
  have hL : Spec.legendreP 1 0 = fun x => x := by
    funext x
    simp [legendreP, rodNorm, rod, rodBase]
    ring
  constructor <;> try simp only [exEquator, Int.toNat_one, Int.toNat_zero, hL]
  · exact le_rfl
  · norm_num
  · norm_num
  · refine ⟨⟨_, _, rfl, isDouble_one⟩, ⟨_, _, rfl, isDouble_zero⟩, ?_⟩
    simp only [sizeC, num, Bool.false_eq_true, if_false, Rat.cast_zero, abs_zero, Rat.cast_one, abs_one]
    exact max_le (max_le (by norm_num) (by positivity)) (z2 (by norm_num))
  · exact ⟨_, _, rfl, isDouble_zero⟩
  · simp [num]
  · exact ⟨_, _, rfl, isDouble_zero⟩
  · simp [num]
  · exact ⟨_, _, rfl, isDouble_one⟩
  · simp [num]
  · exact ⟨⟨_, _, rfl, isDouble_one⟩, ⟨_, _, rfl, isDouble_zero⟩⟩
  · simp [num]
  · simp [num]

private noncomputable def exAxial : Coefs ℂ := ⟨[0], .cplx, [((1, 0), [1])], 1, 0⟩

private theorem exAxial_radial : RadialSet exAxial := by
  have hr : Reach exAxial := by
    refine Reach.append (s := Coefs.new [0] .cplx) (.int 1) (.int 0) [1] ?_ rfl
    exact Reach.new _ _ (by simp)
  refine ⟨wellFormed_of_WF hr.WF, rfl, ⟨1, 0, rfl⟩, fun l m hm => ?_⟩
  have := (Coefs.has_int exAxial l m).1 hm
  simp only [Coefs.keys, exAxial, List.map_cons, List.map_nil, List.mem_singleton, Prod.mk.injEq] at this
  omega

private theorem exAxial_same : SameLines exAxial [exEquator] := by
  refine ⟨by simp, fun l m => ?_, ?_⟩
  · rw [stores, Coefs.has_int]
    simp [Coefs.keys, exAxial, exEquator]
  · intro k hk
    rw [List.mem_singleton.1 hk]
    show (1 : ℂ) = cnum (fin false 1, fin false 0)
    apply Complex.ext <;> simp [cnum, num]

/-- The polar component at four stellar radii. -/
example : ∃ b e, spherical exLib exPower (fin false 1) [exEquator] (fin false 4) (fin false 1) (fin false 2) = .ok b ∧
    Pfss.evalSpherical exAxial 4 (Real.pi / 2) 0 1 2 = .ok e ∧ FinD b.2.1 ∧ |(b.2.1.num : ℝ) - e.2.1| ≤ 1 / 10 ^ 5 / 4 := by
  have h4 : IsDouble 4 := ⟨1, 2, by norm_num, by norm_num, by norm_num, by norm_num⟩
  have hsn : GoodSine (1 / 10 ^ 9) (Real.pi / 2) (fin false 1) :=
    ⟨⟨_, _, rfl, isDouble_one⟩, by simp [num], by simpa using z2 (show (-100 : ℤ) ≤ 0 by norm_num)⟩
  obtain ⟨b, e, hb, he, -, h, -⟩ := C115_spherical exAxial_radial exAxial_same (by simpa using exEquator_good) exLib_accurate
    ⟨by positivity, by linarith [Real.pi_pos]⟩ le_rfl exPower_good (exRadius h4 (by norm_num) le_rfl)
    (exRadius isDouble_one le_rfl (by norm_num)) (exRadius isDouble_two (by norm_num) (by norm_num)) (by simp [num])
    (by simp [num]) hsn (by simp)
  refine ⟨b, e, hb, by simpa [num] using he, h.1, h.2.trans ?_⟩
  have hd := C115_digits (ε := 1 / 10 ^ 9) 2072 (by norm_num) (by norm_num) le_rfl
  have e1 : pfssSize (((fin false 1).num : ℝ) / min ((fin false 4).num : ℝ) (fin false 2).num) [exEquator] = 1 / 2 := by
    have h1 : max ((1 / 2 : ℝ) ^ (3 : ℤ)) (2 ^ (-400 : ℤ)) = 1 / 8 := by
      rw [max_eq_left]
      · norm_num
      · have := z2 (show (-400 : ℤ) ≤ -3 by norm_num)
        norm_num at this ⊢
    have h2 : sizeC (exEquator.g, exEquator.h) = 1 := by
      have h3 : (2 : ℝ) ^ (-200 : ℤ) ≤ 1 := by simpa using z2 (show (-200 : ℤ) ≤ 0 by norm_num)
      simp only [sizeC, exEquator, num, Bool.false_eq_true, if_false, Rat.cast_zero, abs_zero, Rat.cast_one, abs_one]
      rw [max_eq_left (a := (1 : ℝ)) (b := 0) (by norm_num), max_eq_left h3]
    have h5 : ((fin false 1).num : ℝ) / min ((fin false 4).num : ℝ) (fin false 2).num = 1 / 2 := by
      simp only [num, Bool.false_eq_true, if_false]
      norm_num
    simp only [pfssSize, List.map_cons, List.map_nil, List.sum_cons, List.sum_nil, h2, h5]
    have : (exEquator.l + 2 : ℤ) = 3 := rfl
    rw [this, h1]
    norm_num
  have e2 : (min ((fin false 4).num : ℝ) (fin false 2).num / (fin false 4).num) ^ 2 = 1 / 4 := by
    simp only [num, Bool.false_eq_true, if_false]
    norm_num
  rw [e1, e2]
  have e3 : (1 + 1 / 10 ^ 5 : ℝ) * (1 + 1 / 10 ^ 9) ^ 10 * (1 + 1 / 2 ^ 52) ^ ([exEquator].length + 2071)
      ≤ (1 + 1 / 10 ^ 5) * (1 + 1 / 10 ^ 9) ^ 12 * (1 + 1 / 2 ^ 52) ^ 2072 := by
    have : (1 + 1 / 10 ^ 9 : ℝ) ^ 10 ≤ (1 + 1 / 10 ^ 9) ^ 12 := pow_le_pow_right₀ (by norm_num) (by norm_num)
    simp only [List.length_cons, List.length_nil]
    gcongr
  linarith

end Verif
