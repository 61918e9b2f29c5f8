import Verif.Lemmas.FloatFactors
import Verif.Props.Cli
import Verif.Props.Converter

/-!
# C118: converting a file with the factors as they are computed
-/

set_option exponentiation.threshold 4000

namespace Verif
open Spec PyFloat FloatRange FloatError FloatField FloatPfss Cli

namespace Spec

/-- A finite float that is zero or neither very small nor very large. -/
def Moderate (k : ℕ) (y : PyFloat) : Prop :=
  IsFinite y ∧ (value y = 0 ∨ (2 : ℚ) ^ (-(k : ℤ)) ≤ |value y| ∧ |value y| ≤ 2 ^ (k : ℤ))

/-- A float within a relative error of a number. -/
def WithinRel (ε v : ℝ) (y : PyFloat) : Prop := IsFinite y ∧ |(value y : ℝ) - v| ≤ ε * |v|

end Spec

namespace FloatFactors

theorem fd_iff {x : PyFloat} : Fd x ↔ IsFinite x := by
  constructor
  · rintro ⟨s, a, rfl, n, e, h1, h2, h3, rfl⟩; exact ⟨s, n, e, h1, h2, h3, rfl⟩
  · rintro ⟨s, n, e, h1, h2, h3, rfl⟩; exact ⟨s, _, rfl, n, e, h1, h2, h3, rfl⟩

theorem value_eq_num {x : PyFloat} (h : Fd x) : value x = x.num := by
  obtain ⟨s, a, rfl, -⟩ := h; rfl

theorem Ap.within {x : PyFloat} {v g ε : ℝ} (h : Ap x v |v| g) (hg : g ≤ 1 + ε) : WithinRel ε v x := by
  refine ⟨fd_iff.1 h.fd, ?_⟩
  rw [value_eq_num h.fd]
  refine h.err.trans ?_
  gcongr
  linarith

theorem mul_zeroD {x : PyFloat} (h : Fd x) : ∃ s, PyFloat.mul x (fin false 0) = fin s 0 := by
  obtain ⟨s, a, rfl, -⟩ := h
  exact ⟨_, by simp only [PyFloat.mul, mul_zero]; rw [ofMag_of_le le_rfl maxDouble_isDouble.nonneg, fl0_zero]⟩

theorem ap_prod {a x : PyFloat} {u v h g : ℝ} {k i : ℤ} (ha : Ap a u |u| h) (hx : Ap x v |v| g)
    (hu : u = 0 ∨ (2 : ℝ) ^ (-k) ≤ |u| ∧ |u| ≤ 2 ^ k) (hv1 : (2 : ℝ) ^ (-i) ≤ |v|) (hv2 : |v| ≤ 2 ^ i) (hki : k + i ≤ 1010)
    (hgh : h * g ≤ 64) : Ap (PyFloat.mul a x) (u * v) |u * v| (h * g * w) := by
  rcases hu with rfl | ⟨h1, h2⟩
  · have hn : (a.num : ℝ) = 0 := by
      have := ha.err
      rw [abs_zero, mul_zero, sub_zero] at this
      exact abs_eq_zero.1 (le_antisymm this (abs_nonneg _))
    obtain ⟨⟨s, b, rfl, hb⟩, -, -⟩ := ha
    have hb0 : b = 0 := by
      have h3 := num_abs s hb.nonneg
      have h4 : (fin s b).num = 0 := by exact_mod_cast hn
      rw [← h3, h4, abs_zero]
    subst hb0
    obtain ⟨⟨t, c, rfl, hc⟩, -, -⟩ := hx
    have e : PyFloat.mul (fin s 0) (fin t c) = fin (s != t) 0 := by
      simp only [PyFloat.mul, zero_mul]; rw [ofMag_of_le le_rfl maxDouble_isDouble.nonneg, fl0_zero]
    rw [e, zero_mul, abs_zero]
    refine ⟨fd_zero _, ?_, by simp⟩
    rw [num_zero]; simp
  · rw [abs_mul]
    exact ha.mul hx (low_le (dn h1 hv1) (by omega)) (le_high hgh (up h2 hv2 (abs_nonneg _)) (by positivity) (by omega))

theorem times_close {z : PyComplex} {x : PyFloat} {u1 u2 v h g : ℝ} {k i : ℤ} (h1 : Ap z.1 u1 |u1| h) (h2 : Ap z.2 u2 |u2| h)
    (hx : Ap x v |v| g) (hu1 : u1 = 0 ∨ (2 : ℝ) ^ (-k) ≤ |u1| ∧ |u1| ≤ 2 ^ k) (hu2 : u2 = 0 ∨ (2 : ℝ) ^ (-k) ≤ |u2| ∧ |u2| ≤ 2 ^ k)
    (hv1 : (2 : ℝ) ^ (-i) ≤ |v|) (hv2 : |v| ≤ 2 ^ i) (hki : k + i ≤ 1010) (hgh : h * g ≤ 64) :
    Ap (times x z).1 (u1 * v) |u1 * v| (h * g * w) ∧ Ap (times x z).2 (u2 * v) |u2 * v| (h * g * w) := by
  obtain ⟨s, e1⟩ := mul_zeroD h1.fd
  obtain ⟨t, e2⟩ := mul_zeroD h2.fd
  unfold times PyFloat.cmul
  simp only [e1, e2, PyFloat.neg]
  exact ⟨(ap_prod h1 hx hu1 hv1 hv2 hki hgh).add_zero _, (ap_prod h2 hx hu2 hv1 hv2 hki hgh).zero_add _⟩

theorem Moderate.ap {k : ℕ} {y : PyFloat} (h : Moderate k y) :
    Ap y (value y) |(value y : ℝ)| 1 ∧ ((value y : ℝ) = 0 ∨ (2 : ℝ) ^ (-(k : ℤ)) ≤ |(value y : ℝ)| ∧ |(value y : ℝ)| ≤ 2 ^ (k : ℤ)) := by
  have hf := fd_iff.2 h.1
  constructor
  · rw [value_eq_num hf]
    exact Ap.exact hf le_rfl
  · rcases h.2 with h0 | ⟨h1, h2⟩
    · exact Or.inl (by exact_mod_cast h0)
    · right
      have h1' := (Rat.cast_le (K := ℝ)).2 h1
      have h2' := (Rat.cast_le (K := ℝ)).2 h2
      rw [Rat.cast_zpow, Rat.cast_ofNat, Rat.cast_abs] at h1' h2'
      exact ⟨h1', h2'⟩

/-- Writing to seven digits and reading. -/
theorem rounded_close {x y : PyFloat} {v g : ℝ} {k : ℤ} (hx : Ap x v |v| g) (hv : v = 0 ∨ (2 : ℝ) ^ (-k) ≤ |v| ∧ |v| ≤ 2 ^ k) (hk : k ≤ 1010)
    (hg : g ≤ 1 + 1 / 10 ^ 12) (hy : Rounded7 x y) : WithinRel (5001 / 10 ^ 10) v y := by
  obtain ⟨-, fy, d, -, -, hn, hd, hyx⟩ := hy
  refine ⟨fy, ?_⟩
  have hxv : |(value x : ℝ) - v| ≤ 1 / 10 ^ 12 * |v| := by
    rw [value_eq_num hx.fd]
    refine hx.err.trans ?_
    gcongr
    linarith
  rcases hv with rfl | ⟨h1, h2⟩
  · rw [abs_zero, mul_zero, sub_zero] at hxv ⊢
    have h0 : (value x : ℝ) = 0 := abs_eq_zero.1 (le_antisymm hxv (abs_nonneg _))
    have h0' : value x = 0 := by exact_mod_cast h0
    rw [h0', abs_zero, mul_zero, sub_zero] at hyx
    have : |(value y : ℝ)| ≤ 0 := by exact_mod_cast hyx
    simpa using this
  · have hd' : |(d : ℝ) - value x| ≤ 5 / 10 ^ 7 * |(value x : ℝ)| := by
      have h := (Rat.cast_le (K := ℝ)).2 hd
      push_cast at h
      exact h
    have hV := abs_nonneg v
    have k1 := abs_sub_abs_le_abs_sub (value x : ℝ) v
    have k2 := abs_sub_abs_le_abs_sub v (value x : ℝ)
    rw [abs_sub_comm] at k2
    have k3 := abs_sub_abs_le_abs_sub (d : ℝ) (value x)
    have k4 := abs_sub_abs_le_abs_sub (value x : ℝ) d
    rw [abs_sub_comm] at k4
    have dlow : (1 / 2) * |v| ≤ |(d : ℝ)| := by linarith
    have dhigh : |(d : ℝ)| ≤ 2 * |v| := by linarith
    have l1 : (2 : ℝ) ^ (-1022 : ℤ) ≤ |(d : ℝ)| := by
      refine le_trans ?_ dlow
      calc (2 : ℝ) ^ (-1022 : ℤ) ≤ 2 ^ (-1 + -k : ℤ) := z2 (by omega)
        _ ≤ 1 / 2 * |v| := dn (by norm_num) h1
    have l2 : |(d : ℝ)| ≤ 2 ^ (1023 : ℤ) := by
      refine dhigh.trans ?_
      calc 2 * |v| ≤ 2 ^ (1 + k : ℤ) := up (by norm_num) h2 hV
        _ ≤ 2 ^ (1023 : ℤ) := z2 (by omega)
    have l1' : (2 : ℚ) ^ (-1022 : ℤ) ≤ |d| := by
      rw [← Rat.cast_le (K := ℝ), Rat.cast_zpow, Rat.cast_ofNat, Rat.cast_abs]; exact l1
    have l2' : |d| ≤ (2 : ℚ) ^ (1023 : ℤ) := by
      rw [← Rat.cast_le (K := ℝ), Rat.cast_zpow, Rat.cast_ofNat, Rat.cast_abs]; exact l2
    have dd : IsDouble (fl0 |d|) := fl0_isDouble _ (abs_nonneg _) (lt_of_le_of_lt
      (fl0_le_max (lt_of_lt_of_le (by positivity) l1') (l2'.trans FloatCoords.big_le_max)) maxDouble_lt)
    have hn' := hn (fin (decide (d < 0)) (fl0 |d|)) (fd_iff.1 ⟨_, _, rfl, dd⟩)
    have e : |value (fin (decide (d < 0)) (fl0 |d|)) - d| = abs (fl0 |d| - |d|) := by
      rcases lt_or_ge d 0 with hd0 | hd0
      · simp only [value, hd0, decide_true, if_true]
        rw [abs_of_neg hd0, ← abs_neg]
        congr 1; ring
      · simp only [value, not_lt.2 hd0, decide_false, Bool.false_eq_true, if_false]
        rw [abs_of_nonneg hd0]
    rw [e] at hn'
    have hn2 := hn'.trans (fl0_rel l1')
    have hn3 : |(value y : ℝ) - d| ≤ |(d : ℝ)| / 2 ^ 53 := by
      have h := (Rat.cast_le (K := ℝ)).2 hn2
      push_cast at h
      exact h
    have t1 := abs_sub_le (value y : ℝ) d v
    have t2 := abs_sub_le (d : ℝ) (value x) v
    have t3 : |(d : ℝ)| / 2 ^ 53 ≤ 2 * |v| / 2 ^ 53 := by gcongr
    have t4 : 2 * |v| / 2 ^ 53 ≤ 1 / 10 ^ 15 * |v| := by
      have e : 2 * |v| / 2 ^ 53 = 2 / 2 ^ 53 * |v| := by ring
      rw [e]; exact mul_le_mul_of_nonneg_right (by norm_num) hV
    have t5 : |(value x : ℝ)| ≤ (1 + 1 / 10 ^ 12) * |v| := by linarith
    linarith

theorem good_factor {x : PyFloat} {v : ℝ} {n : ℕ} (hn : n ≤ 100) (h : Ap x v |v| (w ^ n)) : WithinRel (1 / 10 ^ 13) v x :=
  Ap.within h ((w_pow_le hn).1.trans (by
    have : (n : ℝ) ≤ 100 := by exact_mod_cast hn
    have h2 : (n : ℝ) / 2 ^ 51 ≤ 100 / 2 ^ 51 := by gcongr
    have h3 : (100 : ℝ) / 2 ^ 51 ≤ 1 / 10 ^ 13 := by norm_num
    linarith))

theorem w_small {n : ℕ} (hn : n ≤ 100) : w ^ n ≤ 1 + 1 / 10 ^ 12 := by
  refine (w_pow_le hn).1.trans ?_
  have : (n : ℝ) ≤ 100 := by exact_mod_cast hn
  have h2 : (n : ℝ) / 2 ^ 51 ≤ 100 / 2 ^ 51 := by gcongr
  have h3 : (100 : ℝ) / 2 ^ 51 ≤ 1 / 10 ^ 12 := by norm_num
  linarith

theorem forward_bounds {L : FactorLib} (hL : GoodFactorLib L) {l m : ℤ} (h0 : 0 ≤ l) (hl : l ≤ 2 ^ 62 - 1) :
    (2 : ℝ) ^ (-62 : ℤ) ≤ |toPfss l m| ∧ |toPfss l m| ≤ 2 ^ (62 : ℤ) ∧ (2 : ℝ) ^ (-62 : ℤ) ≤ |1 / toPfss l m| ∧
      |1 / toPfss l m| ≤ 2 ^ (62 : ℤ) ∧ toPfss l m ≠ 0 := by
  obtain ⟨x, -, -, h1, h2⟩ := ap_forward hL (m := m) h0 hl
  have hne : toPfss l m ≠ 0 := by
    intro h; rw [h, abs_zero] at h1; norm_num at h1
  have h1' : (2 : ℝ) ^ (-62 : ℤ) ≤ |toPfss l m| := le_trans (by norm_num) h1
  have h2' : |toPfss l m| ≤ 2 ^ (62 : ℤ) := by exact_mod_cast h2
  refine ⟨h1', h2', ?_, ?_, hne⟩
  · rw [abs_div, abs_one]; exact inv_low h2' hne
  · rw [abs_div, abs_one]; simpa using inv_high h1'

/-- One entry of the PFSS file. -/
theorem forward_entry {L : FactorLib} (hL : GoodFactorLib L) {l m : ℤ} (h0 : 0 ≤ l) (hl : l ≤ 2 ^ 62 - 1) {z : PyComplex} {k : ℕ} (hk : k ≤ 900)
    (hz : Moderate k z.1 ∧ Moderate k z.2) {x : PyFloat} (hx : forward L l m = .ok x) :
    (IsFinite (times x z).1 ∧ IsFinite (times x z).2) ∧
    ∀ y : PyComplex, Rounded7 (times x z).1 y.1 → Rounded7 (times x z).2 y.2 →
      WithinRel (5001 / 10 ^ 10) (toPfss l m * value z.1) y.1 ∧ WithinRel (5001 / 10 ^ 10) (toPfss l m * value z.2) y.2 := by
  obtain ⟨x', e, hap, -, -⟩ := ap_forward hL (m := m) h0 hl
  rw [hx] at e; cases e
  obtain ⟨b1, b2, -, -, -⟩ := forward_bounds hL (m := m) h0 hl
  obtain ⟨a1, r1⟩ := Moderate.ap hz.1
  obtain ⟨a2, r2⟩ := Moderate.ap hz.2
  have hw : 1 * w ^ 20 ≤ 64 := by linarith [(w_pow_le (n := 20) (by norm_num)).2]
  obtain ⟨c1, c2⟩ := times_close (k := k) (i := 62) a1 a2 hap r1 r2 b1 b2 (by omega) hw
  have hg : 1 * w ^ 20 * w ≤ 1 + 1 / 10 ^ 12 := by
    rw [one_mul, ← pow_succ]; exact w_small (by norm_num)
  have rng : ∀ u : ℝ, (u = 0 ∨ (2 : ℝ) ^ (-(k : ℤ)) ≤ |u| ∧ |u| ≤ 2 ^ (k : ℤ)) →
      (u * toPfss l m = 0 ∨ (2 : ℝ) ^ (-(k + 62 : ℤ)) ≤ |u * toPfss l m| ∧ |u * toPfss l m| ≤ 2 ^ (k + 62 : ℤ)) := by
    rintro u (h | ⟨h, h'⟩)
    · left; rw [h, zero_mul]
    · right
      rw [abs_mul, neg_add]
      exact ⟨dn h b1, up h' b2 (abs_nonneg _)⟩
  refine ⟨⟨fd_iff.1 c1.fd, fd_iff.1 c2.fd⟩, fun y y1 y2 => ?_⟩
  rw [mul_comm (toPfss l m), mul_comm (toPfss l m)]
  exact ⟨rounded_close c1 (rng _ r1) (by omega) hg y1, rounded_close c2 (rng _ r2) (by omega) hg y2⟩

/-- One row of the ZDI file. -/
theorem back_entry {L : FactorLib} (hL : GoodFactorLib L) {l m : ℤ} (h0 : 0 ≤ l) (hl : l ≤ 2 ^ 62 - 1) {z : PyComplex} {k : ℕ} (hk : k ≤ 900)
    (hz : Moderate k z.1 ∧ Moderate k z.2) {x b : PyFloat} (hx : inverse L l m = .ok x) (hb : beta L l = .ok b) :
    ((IsFinite (times x z).1 ∧ IsFinite (times x z).2) ∧ IsFinite (times b (times x z)).1 ∧ IsFinite (times b (times x z)).2) ∧
    (∀ y : PyComplex, Rounded7 (times x z).1 y.1 → Rounded7 (times x z).2 y.2 →
      WithinRel (5001 / 10 ^ 10) (value z.1 / toPfss l m) y.1 ∧ WithinRel (5001 / 10 ^ 10) (value z.2 / toPfss l m) y.2) ∧
    ∀ y : PyComplex, Rounded7 (times b (times x z)).1 y.1 → Rounded7 (times b (times x z)).2 y.2 →
      WithinRel (5001 / 10 ^ 10) (tangential l * (value z.1 / toPfss l m)) y.1 ∧
      WithinRel (5001 / 10 ^ 10) (tangential l * (value z.2 / toPfss l m)) y.2 := by
  obtain ⟨x', e, hap⟩ := ap_inverse hL (m := m) h0 hl
  rw [hx] at e; cases e
  obtain ⟨b', e, hbp, t1, t2⟩ := ap_beta hL h0 hl
  rw [hb] at e; cases e
  obtain ⟨-, -, b1, b2, -⟩ := forward_bounds hL (m := m) h0 hl
  obtain ⟨a1, r1⟩ := Moderate.ap hz.1
  obtain ⟨a2, r2⟩ := Moderate.ap hz.2
  have hw : 1 * w ^ 41 ≤ 64 := by linarith [(w_pow_le (n := 41) (by norm_num)).2]
  obtain ⟨c1, c2⟩ := times_close (k := k) (i := 62) a1 a2 hap r1 r2 b1 b2 (by omega) hw
  have e42 : 1 * w ^ 41 * w = w ^ 42 := by ring
  rw [e42] at c1 c2
  have rng : ∀ {u v : ℝ} {k i : ℤ}, (2 : ℝ) ^ (-i) ≤ |v| → |v| ≤ 2 ^ i → (u = 0 ∨ (2 : ℝ) ^ (-k) ≤ |u| ∧ |u| ≤ 2 ^ k) →
      (u * v = 0 ∨ (2 : ℝ) ^ (-(k + i : ℤ)) ≤ |u * v| ∧ |u * v| ≤ 2 ^ (k + i : ℤ)) := by
    rintro u v k i b1 b2 (h | ⟨h, h'⟩)
    · left; rw [h, zero_mul]
    · right
      rw [abs_mul, neg_add]
      exact ⟨dn h b1, up h' b2 (abs_nonneg _)⟩
  have s1 := rng b1 b2 r1
  have s2 := rng b1 b2 r2
  have t1' : (2 : ℝ) ^ (-2 : ℤ) ≤ |tangential l| := by rw [abs_of_pos (by linarith)]; norm_num at t1 ⊢; linarith
  have t2' : |tangential l| ≤ 2 ^ (2 : ℤ) := by rw [abs_of_pos (by linarith)]; norm_num; linarith
  have hw2 : w ^ 42 * w ^ 47 ≤ 64 := by
    calc w ^ 42 * w ^ 47 = w ^ 89 := by ring
      _ ≤ 64 := by linarith [(w_pow_le (n := 89) (by norm_num)).2]
  obtain ⟨d1, d2⟩ := times_close (i := 2) c1 c2 hbp s1 s2 t1' t2' (by omega) hw2
  have e90 : w ^ 42 * w ^ 47 * w = w ^ 90 := by ring
  rw [e90] at d1 d2
  refine ⟨⟨⟨fd_iff.1 c1.fd, fd_iff.1 c2.fd⟩, fd_iff.1 d1.fd, fd_iff.1 d2.fd⟩, fun y y1 y2 => ?_, fun y y1 y2 => ?_⟩
  · have := And.intro (rounded_close c1 s1 (by omega) (w_small (by norm_num)) y1) (rounded_close c2 s2 (by omega) (w_small (by norm_num)) y2)
    rwa [mul_one_div, mul_one_div] at this
  · have := And.intro (rounded_close d1 (rng t1' t2' s1) (by omega) (w_small (by norm_num)) y1)
      (rounded_close d2 (rng t1' t2' s2) (by omega) (w_small (by norm_num)) y2)
    rwa [mul_one_div, mul_one_div, mul_comm _ (tangential l), mul_comm _ (tangential l)] at this

/-! ### Refusals and success -/

theorem scaleF_raises {s : Coefs PyComplex} (hs : s.WF) (f : ℤ → ℤ → Res PyFloat) {e0 : Err}
    (hf : ∀ k ∈ s.keys, (∃ x, f k.1 k.2 = .ok x) ∨ f k.1 k.2 = .error e0) (hk : ∃ k ∈ s.keys, f k.1 k.2 = .error e0) :
    scaleF s f = .error e0 := by
  obtain ⟨o, e1, w1, k1, -⟩ := Coefs.copy_spec hs
  have key : ∀ (ks : List Key) (o : Coefs PyComplex), o.WF → (∀ k ∈ ks, k ∈ o.keys) →
      (∀ k ∈ ks, (∃ x, f k.1 k.2 = .ok x) ∨ f k.1 k.2 = .error e0) → (∃ k ∈ ks, f k.1 k.2 = .error e0) →
      ks.foldlM (fun o k => (do
        let x ← f k.1 k.2
        @Coefs.imulAt _ _ ⟨PyFloat.cmul⟩ o k (x, .fin false 0) : Res (Coefs PyComplex))) o = .error e0 := by
    intro ks
    induction ks with
    | nil => rintro o - - - ⟨k, hk, -⟩; cases hk
    | cons k0 ks ih =>
      intro o ho hsub hall hex
      rw [List.foldlM_cons]
      rcases hall k0 List.mem_cons_self with ⟨x, hx⟩ | hx
      · obtain ⟨o1, e1, w1, k1, -⟩ := @Coefs.imulAt_ok _ _ ⟨PyFloat.cmul⟩ o ho k0 (hsub k0 List.mem_cons_self) (x, .fin false 0)
        rw [hx]
        show (do let o ← @Coefs.imulAt _ _ ⟨PyFloat.cmul⟩ o k0 (x, .fin false 0); _) = _
        rw [e1]
        refine ih o1 w1 (fun k h => by rw [k1]; exact hsub k (List.mem_cons_of_mem _ h)) (fun k h => hall k (List.mem_cons_of_mem _ h)) ?_
        obtain ⟨k, hk, he⟩ := hex
        rcases List.mem_cons.1 hk with rfl | hk
        · rw [hx] at he; cases he
        · exact ⟨k, hk, he⟩
      · rw [hx]; rfl
  rw [scaleF, e1]
  exact key s.keys o w1 (fun k h => by rw [k1]; simpa using h) hf hk

theorem forward_cases (L : FactorLib) (l m : ℤ) : (∃ x, forward L l m = .ok x) ∨ forward L l m = .error .type := by
  unfold forward sqrtInt
  by_cases h : -2 ^ 63 ≤ 2 * l + 1 ∧ 2 * l + 1 < 2 ^ 64
  · left; rw [if_pos h]; exact ⟨_, rfl⟩
  · right; rw [if_neg h]; rfl

theorem inverse_cases (L : FactorLib) (l m : ℤ) : (∃ x, inverse L l m = .ok x) ∨ inverse L l m = .error .type := by
  unfold inverse
  rcases forward_cases L l m with ⟨x, h⟩ | h
  · left; rw [h]; exact ⟨_, rfl⟩
  · right; rw [h]; rfl

theorem forward_error (L : FactorLib) {l : ℤ} (m : ℤ) (h : 2 * l + 1 < -2 ^ 63 ∨ 2 ^ 64 ≤ 2 * l + 1) : forward L l m = .error .type := by
  have e : sqrtInt L (2 * l + 1) = .error .type := if_neg (by omega)
  unfold forward
  rw [e]; rfl

theorem converts (E : PyEnv) {F : Factors} {o : Options} {s : Coefs PyComplex} {n : ℕ} (hs : s.WF) (hn : s.dflt = List.replicate (n + 1) zeroJ)
    (h1 : o.noConversion = false) (hcol : o.pfssToZdi = true → s.dflt.length = 1)
    (hF : ∀ k ∈ s.keys, (∃ x, F.fwd k.1 k.2 = .ok x) ∧ (∃ x, F.inv k.1 k.2 = .ok x) ∧ ∃ x, F.beta k.1 k.2 = .ok x) :
    ∃ u, converted E F o s = .ok u := by
  have pick : ∀ {f : ℤ → ℤ → Res PyFloat} {ks : List Key}, (∀ k ∈ ks, ∃ x, f k.1 k.2 = .ok x) → ∃ g : Key → PyFloat, ∀ k ∈ ks, f k.1 k.2 = .ok (g k) := by
    intro f ks h
    refine ⟨fun k => match f k.1 k.2 with | .ok x => x | .error _ => .nan, fun k hk => ?_⟩
    obtain ⟨x, hx⟩ := h k hk
    simp only [hx]
  rcases h2 : o.pfssToZdi
  · obtain ⟨c, rest, e, w, ck, cd, ct, cg⟩ := first_column hs hn
    rw [converted, if_neg (by simp [h1]), if_neg (by simp [h2]), e]
    obtain ⟨g, hg⟩ := pick (f := F.fwd) (ks := c.keys) (fun k hk => (hF k (by rw [ck] at hk; simpa using hk)).1)
    obtain ⟨u, e', -⟩ := scaleF_spec w F.fwd g hg
    exact ⟨u, e'⟩
  · rw [converted, if_neg (by simp [h1]), if_pos h2, if_neg (by rw [not_not]; exact hcol h2)]
    obtain ⟨g, hg⟩ := pick (f := F.inv) (ks := s.keys) (fun k hk => (hF k hk).2.1)
    obtain ⟨a, ea, wa, ka, -⟩ := scaleF_spec hs F.inv g hg
    obtain ⟨g', hg'⟩ := pick (f := F.beta) (ks := a.keys) (fun k hk => (hF k (by rw [ka] at hk; simpa using hk)).2.2)
    obtain ⟨b, eb, wb, -⟩ := scaleF_spec wa F.beta g' hg'
    obtain ⟨c, ec, wc, -⟩ := Coefs.zerosLike_spec wa
    have hw : ∀ x ∈ [a, b, c], x.WF := by
      intro x hx
      simp only [List.mem_cons, List.not_mem_nil, or_false] at hx
      rcases hx with rfl | rfl | rfl
      exacts [wa, wb, wc]
    obtain ⟨r, er, -⟩ := Coefs.hstack_spec hw (E.iter_ok ([a, b, c].flatMap Coefs.keys))
    refine ⟨r, ?_⟩
    rw [pfssToZdi, ea]
    show (scaleF a F.beta >>= _ : Res (Coefs PyComplex)) = _
    rw [eb]
    show (a.zerosLike >>= _ : Res (Coefs PyComplex)) = _
    rw [ec]
    exact er

end FloatFactors

open FloatFactors Coefs

theorem FloatFactors.degree_nonneg {E : PyEnv} {t : Text} {s : Coefs PyComplex} (hr : readMagnetogram E t = .ok s) {l m : ℤ}
    (h : stores s l m) : 0 ≤ l := (abs_nonneg m).trans ((read_column E hr).1.valid (l, m) ((has_int s l m).1 h))

/-! ## C118 -/

/-- **C118.** The factor to the PFSS convention is accurate to thirteen digits, for every degree that can matter and any order. -/
theorem C118_forward (L : FactorLib) (hL : GoodFactorLib L) (l m : ℤ) (h0 : 0 ≤ l) (hl : l ≤ 2 ^ 62 - 1) :
    ∃ x, forward L l m = .ok x ∧ WithinRel (1 / 10 ^ 13) (toPfss l m) x := by
  obtain ⟨x, e, h, -⟩ := ap_forward hL (m := m) h0 hl
  exact ⟨x, e, good_factor (by norm_num) h⟩

/-- **C118.** So is the factor back. -/
theorem C118_inverse (L : FactorLib) (hL : GoodFactorLib L) (l m : ℤ) (h0 : 0 ≤ l) (hl : l ≤ 2 ^ 62 - 1) :
    ∃ x, inverse L l m = .ok x ∧ WithinRel (1 / 10 ^ 13) (1 / toPfss l m) x := by
  obtain ⟨x, e, h⟩ := ap_inverse hL (m := m) h0 hl
  exact ⟨x, e, good_factor (by norm_num) h⟩

/-- **C118.** So is the ratio of the tangential to the radial coefficients. -/
theorem C118_beta (L : FactorLib) (hL : GoodFactorLib L) (l : ℤ) (h0 : 0 ≤ l) (hl : l ≤ 2 ^ 62 - 1) :
    ∃ x, beta L l = .ok x ∧ WithinRel (1 / 10 ^ 13) (tangential l) x := by
  obtain ⟨x, e, h, -⟩ := ap_beta hL h0 hl
  exact ⟨x, e, good_factor (by norm_num) h⟩

/-- **C118.** The numbers meant are those of the real-valued model, to which the claims on the conversion (C25 to C29) refer. -/
theorem C118_meant (l m : ℤ) (h0 : 0 ≤ l) : Converter.forwardFactor l m = toPfss l m ∧ Converter.betaFactor l m = tangential l := by
  have hl0 : (0 : ℝ) ≤ l := by exact_mod_cast h0
  constructor
  · unfold Converter.forwardFactor toPfss
    have hp : (-1 : ℝ) ^ (m % 2) = if m % 2 = 0 then 1 else -1 := by
      rcases Int.emod_two_eq_zero_or_one m with h | h <;> simp [h]
    rw [hp, Real.sqrt_div (by positivity)]
    have hm : ((-(if m = 0 then 1 else 0) + 2 : ℝ)) = if m = 0 then 1 else 2 := by split_ifs <;> norm_num
    rw [hm, Real.sqrt_mul (x := if m = 0 then 1 else 2) (by split_ifs <;> norm_num)]
    split_ifs <;> field_simp
  · unfold Converter.betaFactor tangential Pfss.rL
    simp only [div_one, one_zpow, one_mul, mul_one]
    ring

/-- **C118.** A degree of 2^63 or more is refused with TypeError, and nothing is written. -/
theorem C118_degree_refused (E : PyEnv) (L : FactorLib) (src : Text) (o : Options) (d : Disk) (t : Text) (s : Coefs PyComplex)
    (h1 : o.noConversion = false) (h : d.read o.input = .ok t) (hr : readMagnetogram E t = .ok s)
    (hcol : o.pfssToZdi = true → s.dflt.length = 1)
    (hd : ∃ l m : ℤ, stores s l m ∧ 2 ^ 63 ≤ l) :
    main E (factors L) src o d = .error .type d := by
  obtain ⟨w, -, n, hn⟩ := read_column E hr
  obtain ⟨l, m, hs, hlarge'⟩ := hd
  have hlarge : 2 * l + 1 < -2 ^ 63 ∨ 2 ^ 64 ≤ 2 * l + 1 := by omega
  have hk := (has_int s l m).1 hs
  have hc : converted E (factors L) o s = .error .type := by
    rcases h2 : o.pfssToZdi
    · obtain ⟨c, rest, e, wc, ck, -⟩ := first_column w hn
      rw [converted, if_neg (by simp [h1]), if_neg (by simp [h2]), e]
      exact scaleF_raises wc _ (fun k _ => forward_cases L k.1 k.2) ⟨(l, m), by rw [ck]; simpa using hk, forward_error L m hlarge⟩
    · rw [converted, if_neg (by simp [h1]), if_pos h2, if_neg (by rw [not_not]; exact hcol h2), pfssToZdi]
      have : scaleF s (factors L).inv = .error .type := scaleF_raises w _ (fun k _ => inverse_cases L k.1 k.2)
        ⟨(l, m), hk, by show inverse L l m = _; unfold inverse; rw [forward_error L m hlarge]; rfl⟩
      rw [this]; rfl
  rw [main_run, h]
  simp only [hr, hc]

/-- **C118.** Nothing else can go wrong in the conversion: the program succeeds when the input is a magnetogram with degrees below
2⁶² (with one column, if it is to be converted back), the range of degrees to write is not empty, and the output file has another name,
can be written and, if its name was made up, is new. -/
theorem C118_succeeds (E : PyEnv) (L : FactorLib) (hL : GoodFactorLib L) (src : Text) (o : Options) (d : Disk) (t : Text) (s : Coefs PyComplex)
    (h1 : o.noConversion = false) (h : d.read o.input = .ok t) (hr : readMagnetogram E t = .ok s)
    (hcol : o.pfssToZdi = true → s.dflt.length = 1) (hdeg0 : ∀ l m : ℤ, stores s l m → l ≤ 2 ^ 62 - 1)
    (hwin : 0 ≤ o.degreeMax.getD s.degreeMax) (hname : target o ≠ o.input) (hfree : o.output = none → d.node (d.place (target o)) = none)
    (hw : d.writable (d.place (target o)) = true) (henc : ∀ c ∈ (if header o then target o else src), d.encodes c = true) :
    ∃ d', main E (factors L) src o d = .ok () d' := by
  have hdeg : ∀ l m : ℤ, stores s l m → 0 ≤ l ∧ l ≤ 2 ^ 62 - 1 := fun l m hs => ⟨degree_nonneg hr hs, hdeg0 l m hs⟩
  obtain ⟨w, -, n, hn⟩ := read_column E hr
  obtain ⟨u, hu⟩ := converts E (F := factors L) w hn h1 hcol (fun k hk => by
    obtain ⟨a, b⟩ := hdeg k.1 k.2 ((has_int s k.1 k.2).2 hk)
    obtain ⟨x, hx, -⟩ := ap_forward hL (m := k.2) a b
    obtain ⟨y, hy, -⟩ := ap_inverse hL (m := k.2) a b
    obtain ⟨v, hv, -⟩ := ap_beta hL a b
    exact ⟨⟨x, hx⟩, ⟨y, hy⟩, v, hv⟩)
  obtain ⟨wu, du, nu⟩ := converted_spec E (factors L) o w hn hu
  have hon : outputName d o.input o.output (ending o) = .ok (target o) := by
    unfold outputName
    unfold target at hname hfree ⊢
    rcases ho : o.output with _ | name
    · have hf := hfree ho
      rw [ho] at hname hf
      simp only [Option.getD_none] at hname hf ⊢
      rw [if_neg (by simp [Disk.pathExists, hf]), if_neg (Ne.symm hname)]
    · rw [ho] at hname
      simp only [Option.getD_some] at hname ⊢
      rw [if_neg (Ne.symm hname)]
  obtain ⟨text, ht⟩ : ∃ text, writeMagnetogram src (target o) u o.degreeMax 0 (header o) = .ok text := by
    rcases hx : writeMagnetogram src (target o) u o.degreeMax 0 (header o) with e | text
    · rcases ((C22_write_raises_iff src (target o) u o.degreeMax 0 (header o) (wellFormed_of_WF wu)).1).1 ⟨e, hx⟩ with h | h
      · exact absurd h nu
      · exact absurd ⟨0, 0, by rw [du]; exact ⟨le_rfl, hwin, by simp, le_rfl⟩⟩ h
    · exact ⟨text, rfl⟩
  have hall : text.all d.encodes = true := by
    rw [List.all_eq_true]
    intro c hc
    rcases written_chars wu src (target o) o.degreeMax 0 (header o) ht c hc with h8 | h8
    · exact d.ascii c h8
    · exact henc c h8
  refine ⟨d.put (d.place (target o)) text, ?_⟩
  rw [main_run, h]
  simp only [hr, hu]
  show (lift (outputName d o.input o.output (ending o)) >>= fun name =>
      lift (writeMagnetogram src name u o.degreeMax 0 (header o)) >>= fun text => Disk.write name text) d = _
  rw [hon, lift_ok, ht, lift_ok]
  unfold Disk.write
  rw [if_neg (by rw [hw]; simp), if_neg (by rw [hall]; simp)]

/-- **C118.** From a ZDI file to a PFSS file, text to text: every number in the output is within 5.001·10⁻⁷ of the exact factor times the
number in the input. Six decimals of the format account for 5·10⁻⁷ of that, all rounding errors of the computation for the rest. -/
theorem C118_zdi_to_pfss (E : PyEnv) (L : FactorLib) (hL : GoodFactorLib L) (src : Text) (o : Options) (d d' : Disk) (t : Text)
    (s : Coefs PyComplex) (h1 : o.noConversion = false) (h2 : o.pfssToZdi = false) (h : d.read o.input = .ok t)
    (hr : readMagnetogram E t = .ok s) (hm : main E (factors L) src o d = .ok () d') (hh : HeaderHarmless E.digits src (target o) o.swmfHeader)
    (hdeg0 : ∀ l m : ℤ, stores s l m → l ≤ 2 ^ 62 - 1)
    (hz : ∀ l m : ℤ, stores s l m → ∀ z ∈ (valueAt s l m).head?, Moderate 900 z.1 ∧ Moderate 900 z.2) :
    ∃ text r, d'.read (target o) = .ok text ∧ readMagnetogram E text = .ok r ∧ r.dflt = [zeroJ] ∧
      (∀ l m : ℤ, stores r l m ↔ InWindow (o.degreeMax.getD s.degreeMax) 0 l m) ∧
      ∀ l m, InWindow (o.degreeMax.getD s.degreeMax) 0 l m → ∃ y, valueAt r l m = [y] ∧
        (stores s l m → ∃ z, (valueAt s l m).head? = some z ∧ WithinRel (5001 / 10 ^ 10) (toPfss l m * value z.1) y.1 ∧
          WithinRel (5001 / 10 ^ 10) (toPfss l m * value z.2) y.2) ∧
        (¬ stores s l m → ZeroNumber y) := by
  have hdeg : ∀ l m : ℤ, stores s l m → 0 ≤ l ∧ l ≤ 2 ^ 62 - 1 := fun l m hs => ⟨degree_nonneg hr hs, hdeg0 l m hs⟩
  obtain ⟨text, r, a, b, c, e, f⟩ := C59_zdi_to_pfss E (factors L) src o d d' t s h1 h2 h hr hm hh
    (fun l m x hs hx z hzz => (forward_entry hL (hdeg l m hs).1 (hdeg l m hs).2 (by norm_num) (hz l m hs z hzz) hx).1)
  refine ⟨text, r, a, b, c, e, fun l m hlm => ?_⟩
  obtain ⟨y, hy, p, q⟩ := f l m hlm
  refine ⟨y, hy, fun hs => ?_, q⟩
  obtain ⟨x, z, hx, hzz, r1, r2⟩ := p hs
  exact ⟨z, hzz, (forward_entry hL (hdeg l m hs).1 (hdeg l m hs).2 (by norm_num) (hz l m hs z hzz) hx).2 y r1 r2⟩

/-- **C118.** And back: the first column is the inverse factor times the input, the second the tangential ratio times that, the third zero. -/
theorem C118_pfss_to_zdi (E : PyEnv) (L : FactorLib) (hL : GoodFactorLib L) (src : Text) (o : Options) (d d' : Disk) (t : Text)
    (s : Coefs PyComplex) (h1 : o.noConversion = false) (h2 : o.pfssToZdi = true) (h : d.read o.input = .ok t)
    (hr : readMagnetogram E t = .ok s) (hm : main E (factors L) src o d = .ok () d') (hh : HeaderHarmless E.digits src (target o) false)
    (hdeg0 : ∀ l m : ℤ, stores s l m → l ≤ 2 ^ 62 - 1)
    (hz : ∀ l m : ℤ, stores s l m → ∀ z ∈ (valueAt s l m).head?, Moderate 900 z.1 ∧ Moderate 900 z.2) :
    ∃ text r, d'.read (target o) = .ok text ∧ readMagnetogram E text = .ok r ∧ r.dflt = [zeroJ, zeroJ, zeroJ] ∧
      (∀ l m : ℤ, stores r l m ↔ InWindow (o.degreeMax.getD s.degreeMax) 0 l m) ∧
      ∀ l m, InWindow (o.degreeMax.getD s.degreeMax) 0 l m → ∃ y1 y2 y3, valueAt r l m = [y1, y2, y3] ∧
        (stores s l m → ∃ z, valueAt s l m = [z] ∧
          (WithinRel (5001 / 10 ^ 10) (value z.1 / toPfss l m) y1.1 ∧ WithinRel (5001 / 10 ^ 10) (value z.2 / toPfss l m) y1.2) ∧
          WithinRel (5001 / 10 ^ 10) (tangential l * (value z.1 / toPfss l m)) y2.1 ∧
          WithinRel (5001 / 10 ^ 10) (tangential l * (value z.2 / toPfss l m)) y2.2) ∧
        (¬ stores s l m → ZeroNumber y1 ∧ ZeroNumber y2) ∧ ZeroNumber y3 := by
  have hdeg : ∀ l m : ℤ, stores s l m → 0 ≤ l ∧ l ≤ 2 ^ 62 - 1 := fun l m hs => ⟨degree_nonneg hr hs, hdeg0 l m hs⟩
  obtain ⟨text, r, a, b, c, e, f⟩ := C59_pfss_to_zdi E (factors L) src o d d' t s h1 h2 h hr hm hh
    (fun l m x b hs hx hb z hzz => (back_entry hL (hdeg l m hs).1 (hdeg l m hs).2 (by norm_num) (hz l m hs z hzz) hx hb).1)
  refine ⟨text, r, a, b, c, e, fun l m hlm => ?_⟩
  obtain ⟨y1, y2, y3, hy, p, q⟩ := f l m hlm
  refine ⟨y1, y2, y3, hy, fun hs => ?_, q⟩
  obtain ⟨x, b, z, hx, hb, hzz, r1, r2⟩ := p hs
  have := back_entry hL (hdeg l m hs).1 (hdeg l m hs).2 (by norm_num) (hz l m hs z (by rw [hzz]; rfl)) hx hb
  exact ⟨z, hzz, this.2.1 y1 r1.1 r1.2, this.2.2 y2 r2.1 r2.2⟩

theorem FloatFactors.round_rel {a b v c x y ε : ℝ} (hc : c ≠ 0) (hε : ε = 5001 / 10 ^ 10) (h1 : |x - c * v| ≤ ε * |c * v|)
    (h2 : |y - b * (x / c)| ≤ ε * |b * (x / c)|) (ha : a = b * v) : |y - a| ≤ 1001 / 10 ^ 9 * |a| := by
  subst ha
  have hx : |x / c - v| ≤ ε * |v| := by
    have e : x / c - v = (x - c * v) / c := by field_simp
    have hc' := abs_pos.2 hc
    rw [e, abs_div, div_le_iff₀ hc']
    rw [abs_mul] at h1
    linarith
  have h3 : |b * (x / c) - b * v| ≤ ε * |b * v| := by
    rw [← mul_sub, abs_mul, abs_mul]
    have := mul_le_mul_of_nonneg_left hx (abs_nonneg b)
    linarith
  have h4 := abs_sub_abs_le_abs_sub (b * (x / c)) (b * v)
  have h5 := abs_sub_le y (b * (x / c)) (b * v)
  have h6 : ε * |b * (x / c)| ≤ ε * ((1 + ε) * |b * v|) := by
    have : 0 ≤ ε := by rw [hε]; norm_num
    gcongr
    linarith
  have h7 := abs_nonneg (b * v)
  rw [hε] at h6 h3 h2
  nlinarith

/-- **C118.** There and back through files: the first column of the second file agrees with the first column of the original file to within
1.001·10⁻⁶, the second column is the potential field's, to the same accuracy, and the third is zero. -/
theorem C118_round_trip (E : PyEnv) (L : FactorLib) (hL : GoodFactorLib L) (src : Text) (o p : Options) (d d1 d2 : Disk) (t : Text)
    (s : Coefs PyComplex) (ho1 : o.noConversion = false) (ho2 : o.pfssToZdi = false) (hp1 : p.noConversion = false)
    (hp2 : p.pfssToZdi = true) (hop : p.input = target o) (h : d.read o.input = .ok t) (hr : readMagnetogram E t = .ok s)
    (hm1 : main E (factors L) src o d = .ok () d1) (hm2 : main E (factors L) src p d1 = .ok () d2)
    (hh1 : HeaderHarmless E.digits src (target o) o.swmfHeader) (hh2 : HeaderHarmless E.digits src (target p) false)
    (hdeg0 : ∀ l m : ℤ, stores s l m → l ≤ 2 ^ 62 - 1) (hmax : 0 ≤ o.degreeMax.getD s.degreeMax ∧ o.degreeMax.getD s.degreeMax ≤ 2 ^ 62 - 1)
    (hz : ∀ l m : ℤ, stores s l m → ∀ z ∈ (valueAt s l m).head?, Moderate 800 z.1 ∧ Moderate 800 z.2) :
    ∃ text r, d2.read (target p) = .ok text ∧ readMagnetogram E text = .ok r ∧ r.dflt = [zeroJ, zeroJ, zeroJ] ∧
      (∀ l m : ℤ, stores r l m ↔ InWindow (p.degreeMax.getD (o.degreeMax.getD s.degreeMax)) 0 l m) ∧
      ∀ l m, InWindow (p.degreeMax.getD (o.degreeMax.getD s.degreeMax)) 0 l m → ∃ y1 y2 y3, valueAt r l m = [y1, y2, y3] ∧
        (InWindow (o.degreeMax.getD s.degreeMax) 0 l m → stores s l m → ∃ z, (valueAt s l m).head? = some z ∧
          (WithinRel (1001 / 10 ^ 9) (value z.1) y1.1 ∧ WithinRel (1001 / 10 ^ 9) (value z.2) y1.2) ∧
          WithinRel (1001 / 10 ^ 9) (tangential l * value z.1) y2.1 ∧ WithinRel (1001 / 10 ^ 9) (tangential l * value z.2) y2.2) ∧
        (¬ (InWindow (o.degreeMax.getD s.degreeMax) 0 l m ∧ stores s l m) → ZeroNumber y1 ∧ ZeroNumber y2) ∧ ZeroNumber y3 := by
  have hdeg : ∀ l m : ℤ, stores s l m → 0 ≤ l ∧ l ≤ 2 ^ 62 - 1 := fun l m hs => ⟨degree_nonneg hr hs, hdeg0 l m hs⟩
  have mod_mono : ∀ {y : PyFloat}, Moderate 800 y → Moderate 900 y := by
    rintro y ⟨f, h⟩
    refine ⟨f, h.imp id fun h => ⟨le_trans (zpow_le_zpow_right₀ (by norm_num) (by norm_num)) h.1,
      h.2.trans (zpow_le_zpow_right₀ (by norm_num) (by norm_num))⟩⟩
  obtain ⟨text1, r1, a1, b1, c1, e1, f1⟩ := C118_zdi_to_pfss E L hL src o d d1 t s ho1 ho2 h hr hm1 hh1 hdeg0
    (fun l m hs z hzz => ⟨mod_mono (hz l m hs z hzz).1, mod_mono (hz l m hs z hzz).2⟩)
  have near : ∀ {c ε : ℝ} {v : ℚ} {y : PyFloat}, (2 : ℝ) ^ (-62 : ℤ) ≤ |c| → |c| ≤ 2 ^ (62 : ℤ) → ε ≤ 1 / 2 →
      (v = 0 ∨ (2 : ℚ) ^ (-((800 : ℕ) : ℤ)) ≤ |v| ∧ |v| ≤ 2 ^ ((800 : ℕ) : ℤ)) → WithinRel ε (c * v) y → Moderate 900 y := by
    rintro c ε v y g1 g2 hε hv ⟨fy, hy⟩
    refine ⟨fy, ?_⟩
    rcases hv with rfl | ⟨v1, v2⟩
    · left
      rw [Rat.cast_zero, mul_zero, abs_zero, mul_zero, sub_zero] at hy
      have := abs_eq_zero.1 (le_antisymm hy (abs_nonneg _))
      exact_mod_cast this
    · right
      have v1' := (Rat.cast_le (K := ℝ)).2 v1
      have v2' := (Rat.cast_le (K := ℝ)).2 v2
      rw [Rat.cast_zpow, Rat.cast_ofNat, Rat.cast_abs] at v1' v2'
      have k1 := abs_sub_abs_le_abs_sub (value y : ℝ) (c * v)
      have k2 := abs_sub_abs_le_abs_sub (c * v) (value y : ℝ)
      rw [abs_sub_comm] at k2
      have k3 : ε * |c * v| ≤ 1 / 2 * |c * v| := by gcongr
      have l1 : (1 / 2) * |c * v| ≤ |(value y : ℝ)| := by linarith
      have l2 : |(value y : ℝ)| ≤ 2 * |c * v| := by have := abs_nonneg (c * v); linarith
      rw [abs_mul] at l1 l2
      constructor
      · rw [← Rat.cast_le (K := ℝ), Rat.cast_zpow, Rat.cast_ofNat, Rat.cast_abs]
        refine le_trans ?_ l1
        exact (z2 (by norm_num)).trans (dn (i := -1) (by norm_num) (dn g1 v1'))
      · rw [← Rat.cast_le (K := ℝ), Rat.cast_zpow, Rat.cast_ofNat, Rat.cast_abs]
        refine l2.trans ?_
        exact (up (i := 1) (by norm_num) (up g2 v2' (abs_nonneg _)) (by positivity)).trans (z2 (by norm_num))
  have hdeg1 : ∀ l m : ℤ, stores r1 l m → 0 ≤ l ∧ l ≤ 2 ^ 62 - 1 := by
    intro l m hs
    obtain ⟨i1, i2, -, -⟩ := (e1 l m).1 hs
    exact ⟨i1, i2.trans hmax.2⟩
  have zeroM : ∀ {y : PyFloat}, IsFinite y → value y = 0 → Moderate 900 y := fun f h => ⟨f, Or.inl h⟩
  obtain ⟨w1, -, -⟩ := read_column E b1
  have hD : r1.degreeMax = o.degreeMax.getD s.degreeMax := by
    have hin : stores r1 (o.degreeMax.getD s.degreeMax) 0 := (e1 _ _).2 ⟨hmax.1, le_rfl, by simpa using hmax.1, le_rfl⟩
    have hk := (has_int r1 _ _).1 hin
    have hle := w1.degUpper _ hk
    rcases w1.degAttained with ⟨h3, -⟩ | ⟨k, h3, h4⟩
    · rw [h3] at hk; cases hk
    · obtain ⟨-, i2, -, -⟩ := (e1 k.1 k.2).1 ((has_int r1 k.1 k.2).2 h3)
      exact le_antisymm (h4 ▸ i2) hle
  have fin1 : ∀ l m : ℤ, stores r1 l m → ∀ z ∈ (valueAt r1 l m).head?, Moderate 900 z.1 ∧ Moderate 900 z.2 := by
    intro l m hs z hzz
    obtain ⟨y, hy, p1, p2⟩ := f1 l m ((e1 l m).1 hs)
    rw [hy] at hzz
    cases hzz
    by_cases hst : stores s l m
    · obtain ⟨z0, hz0, q1, q2⟩ := p1 hst
      obtain ⟨g1, g2, -, -, -⟩ := forward_bounds hL (m := m) (hdeg l m hst).1 (hdeg l m hst).2
      obtain ⟨n1, n2⟩ := hz l m hst z0 hz0
      exact ⟨near g1 g2 (by norm_num) n1.2 q1, near g1 g2 (by norm_num) n2.2 q2⟩
    · obtain ⟨a, b, rfl⟩ := p2 hst
      exact ⟨zeroM (fd_iff.1 (fd_zero _)) (by cases a <;> simp [value]), zeroM (fd_iff.1 (fd_zero _)) (by cases b <;> simp [value])⟩
  obtain ⟨text2, r2, a2, b2, c2, e2, f2⟩ := C118_pfss_to_zdi E L hL src p d1 d2 text1 r1 hp1 hp2 (by rw [hop]; exact a1) b1 hm2 hh2 (fun l m h => (hdeg1 l m h).2) fin1
  rw [hD] at e2 f2
  refine ⟨text2, r2, a2, b2, c2, e2, fun l m hlm => ?_⟩
  obtain ⟨y1, y2, y3, hy, p1, p2, p3⟩ := f2 l m hlm
  refine ⟨y1, y2, y3, hy, fun hin hs => ?_, fun hn => ?_, p3⟩
  · obtain ⟨y, hy', q1, -⟩ := f1 l m hin
    obtain ⟨z, hz0, u1, u2⟩ := q1 hs
    obtain ⟨z', hz', ⟨v1, v2⟩, v3, v4⟩ := p1 ((e1 l m).2 hin)
    rw [hy'] at hz'
    cases hz'
    obtain ⟨-, -, -, -, hne⟩ := forward_bounds hL (m := m) (hdeg l m hs).1 (hdeg l m hs).2
    refine ⟨z, hz0, ⟨⟨v1.1, ?_⟩, v2.1, ?_⟩, ⟨v3.1, ?_⟩, v4.1, ?_⟩
    · exact round_rel (b := 1) hne rfl u1.2 (by rw [one_mul]; exact v1.2) (by rw [one_mul])
    · exact round_rel (b := 1) hne rfl u2.2 (by rw [one_mul]; exact v2.2) (by rw [one_mul])
    · exact round_rel hne rfl u1.2 v3.2 rfl
    · exact round_rel hne rfl u2.2 v4.2 rfl
  · by_cases hin : InWindow (o.degreeMax.getD s.degreeMax) 0 l m
    · have hs : ¬ stores s l m := fun hs => hn ⟨hin, hs⟩
      obtain ⟨y, hy', -, q2⟩ := f1 l m hin
      obtain ⟨z', hz', ⟨v1, v2⟩, v3, v4⟩ := p1 ((e1 l m).2 hin)
      rw [hy'] at hz'
      cases hz'
      obtain ⟨a, b, rfl⟩ := q2 hs
      have zero : ∀ a, value (fin a 0) = 0 := fun a => by cases a <;> simp [value]
      simp only [zero, Rat.cast_zero, zero_div, mul_zero] at v1 v2 v3 v4
      have key : ∀ {y : PyFloat}, WithinRel (5001 / 10 ^ 10) 0 y → ∃ a, y = fin a 0 := by
        rintro y ⟨⟨a, n, e, -, -, -, rfl⟩, h⟩
        rw [abs_zero, mul_zero, sub_zero] at h
        have h0 : value (fin a (n * 2 ^ e)) = 0 := by
          have := abs_eq_zero.1 (le_antisymm h (abs_nonneg _))
          exact_mod_cast this
        refine ⟨a, ?_⟩
        congr 1
        cases a
        · simpa only [value, Bool.false_eq_true, if_false] using h0
        · simpa only [value, if_true, neg_eq_zero] using h0
      obtain ⟨a1, g1⟩ := key v1
      obtain ⟨a2, g2⟩ := key v2
      obtain ⟨a3, g3⟩ := key v3
      obtain ⟨a4, g4⟩ := key v4
      exact ⟨⟨a1, a2, by rw [← g1, ← g2]⟩, a3, a4, by rw [← g3, ← g4]⟩
    · exact p2 (fun hs => hin ((e1 l m).1 hs))

/-! ### Non-vacuity -/

theorem FloatFactors.sqrt_close {q : ℚ} (hd : IsDouble q) (h : 0 < q) : ∃ r : ℚ, 0 < r ∧ IsDouble r ∧ |r ^ 2 - q| ≤ q / 2 ^ 51 := by
  have hq : (0 : ℝ) < q := by exact_mod_cast h
  have hs := Real.sqrt_pos.2 hq
  have hsq := Real.sq_sqrt hq.le
  set t := Real.sqrt (q : ℝ) with ht
  obtain ⟨u, hu1, hu2⟩ := exists_rat_btwn (show t < t * (1 + 1 / 2 ^ 60) by nlinarith)
  obtain ⟨k, hk⟩ := IsDouble.multiple hd
  have hlow : (2 : ℝ) ^ (-537 : ℤ) ≤ t := by
    apply Real.le_sqrt_of_sq_le
    have hk0 : 1 ≤ k := by
      rcases Nat.eq_zero_or_pos k with rfl | hk0
      · simp at hk; linarith
      · exact hk0
    have hk1 : (1 : ℝ) ≤ k := by exact_mod_cast hk0
    have e : (q : ℝ) = k * 2 ^ (-1074 : ℤ) := by rw [hk]; push_cast; rfl
    have e2 : ((2 : ℝ) ^ (-537 : ℤ)) ^ 2 = 2 ^ (-1074 : ℤ) := by rw [← zpow_natCast, ← zpow_mul]; norm_num
    rw [e, e2]
    have : (0 : ℝ) < 2 ^ (-1074 : ℤ) := by positivity
    nlinarith
  have hhigh : t ≤ 2 ^ (512 : ℤ) := by
    rw [ht, Real.sqrt_le_left (by positivity)]
    have h1 := lt_of_le_of_lt (IsDouble.le_max hd) maxDouble_lt
    have h2 : (q : ℝ) < (((2 : ℚ) ^ (1024 : ℤ) : ℚ) : ℝ) := Rat.cast_lt.2 h1
    rw [Rat.cast_zpow, Rat.cast_ofNat] at h2
    have e2 : ((2 : ℝ) ^ (512 : ℤ)) ^ 2 = 2 ^ (1024 : ℤ) := by rw [← zpow_natCast, ← zpow_mul]; norm_num
    rw [e2]
    exact h2.le
  have u0 : (0 : ℝ) < u := by linarith
  have u0' : 0 < u := by exact_mod_cast u0
  have l1 : (2 : ℚ) ^ (-1022 : ℤ) ≤ u := by
    rw [← Rat.cast_le (K := ℝ), Rat.cast_zpow, Rat.cast_ofNat]
    exact (z2 (by norm_num)).trans (hlow.trans hu1.le)
  have l2 : u ≤ (2 : ℚ) ^ (1023 : ℤ) := by
    rw [← Rat.cast_le (K := ℝ), Rat.cast_zpow, Rat.cast_ofNat]
    have h3 : t * (1 + 1 / 2 ^ 60) ≤ 2 ^ (512 + 1 : ℤ) := up hhigh (by norm_num) (by norm_num)
    exact hu2.le.trans (h3.trans (z2 (by norm_num)))
  have dd : IsDouble (fl0 u) := fl0_isDouble _ u0'.le (lt_of_le_of_lt (fl0_le_max u0' (l2.trans FloatCoords.big_le_max)) maxDouble_lt)
  have hr := fl0_rel l1
  have hr' : |(fl0 u : ℝ) - u| ≤ u / 2 ^ 53 := by
    have := (Rat.cast_le (K := ℝ)).2 hr
    push_cast at this
    exact this
  generalize fl0 u = r at *
  have a1 := abs_le.1 hr'
  have r0 : (0 : ℝ) < r := by
    have : (u : ℝ) / 2 ^ 53 < u := by rw [div_lt_iff₀ (by norm_num)]; nlinarith
    linarith
  refine ⟨r, by exact_mod_cast r0, dd, ?_⟩
  have b1 : t * (1 - 1 / 2 ^ 53) ≤ r := by
    have : (u : ℝ) * (1 - 1 / 2 ^ 53) ≤ r := by linarith
    have h3 : t * (1 - 1 / 2 ^ 53) ≤ u * (1 - 1 / 2 ^ 53) := mul_le_mul_of_nonneg_right hu1.le (by norm_num)
    linarith
  have b2 : (r : ℝ) ≤ t * (1 + 1 / 2 ^ 53 + 1 / 2 ^ 59) := by
    have h3 : (r : ℝ) ≤ u * (1 + 1 / 2 ^ 53) := by linarith
    have h4 : (u : ℝ) * (1 + 1 / 2 ^ 53) ≤ t * (1 + 1 / 2 ^ 60) * (1 + 1 / 2 ^ 53) := mul_le_mul_of_nonneg_right hu2.le (by norm_num)
    have h5 : t * ((1 + 1 / 2 ^ 60) * (1 + 1 / 2 ^ 53)) ≤ t * (1 + 1 / 2 ^ 53 + 1 / 2 ^ 59) := mul_le_mul_of_nonneg_left (by norm_num) hs.le
    linarith
  have key : |(r : ℝ) ^ 2 - q| ≤ q / 2 ^ 51 := by
    rw [← hsq, abs_le]
    have c1 : (t * (1 - 1 / 2 ^ 53)) ^ 2 ≤ (r : ℝ) ^ 2 := pow_le_pow_left₀ (mul_nonneg hs.le (by norm_num)) b1 2
    have c2 : (r : ℝ) ^ 2 ≤ (t * (1 + 1 / 2 ^ 53 + 1 / 2 ^ 59)) ^ 2 := pow_le_pow_left₀ r0.le b2 2
    rw [mul_pow] at c1 c2
    have c3 : t ^ 2 * (1 - 1 / 2 ^ 51) ≤ t ^ 2 * (1 - 1 / 2 ^ 53) ^ 2 := mul_le_mul_of_nonneg_left (by norm_num) (by positivity)
    have c4 : t ^ 2 * (1 + 1 / 2 ^ 53 + 1 / 2 ^ 59) ^ 2 ≤ t ^ 2 * (1 + 1 / 2 ^ 51) := mul_le_mul_of_nonneg_left (by norm_num) (by positivity)
    constructor <;> linarith
  have : ((|r ^ 2 - q| : ℚ) : ℝ) ≤ ((q / 2 ^ 51 : ℚ) : ℝ) := by push_cast; exact key
  exact Rat.cast_le.1 this

open Classical in
/-- Functions as assumed: a nearly correct square root, the rounded reciprocal and the rounded power. -/
noncomputable def FloatFactors.exFactorLib : FactorLib where
  sqrt
    | fin s q => if q = 0 then fin s 0 else
        if h : ∃ r : ℚ, 0 < r ∧ IsDouble r ∧ |r ^ 2 - q| ≤ q / 2 ^ 51 then fin false h.choose else nan
    | inf false => inf false
    | _ => nan
  recip x := PyFloat.div (fin false 1) x
  pow
    | fin _ q, n => ofMag false (q ^ n)
    | _, _ => nan

theorem FloatFactors.exFactorLib_good : GoodFactorLib exFactorLib where
  sqrt q hd h := by
    have he := sqrt_close hd h
    refine ⟨he.choose, he.choose_spec.1, he.choose_spec.2.1, ?_, he.choose_spec.2.2⟩
    simp only [exFactorLib, h.ne', if_false, dif_pos he]
  recip s q hd h1 h2 := by
    have hq : 0 < q := lt_of_lt_of_le (by norm_num) h1
    have i1 : 1 / q ≤ 2 ^ 100 := by
      rw [div_le_iff₀ hq]
      calc (1 : ℚ) = 2 ^ 100 * (1 / 2 ^ 100) := by norm_num
        _ ≤ 2 ^ 100 * q := by gcongr
    have i2 : 1 / 2 ^ 100 ≤ 1 / q := one_div_le_one_div_of_le hq h2
    have l1 : (2 : ℚ) ^ (-1022 : ℤ) ≤ 1 / q := by
      refine le_trans ?_ i2
      rw [one_div, ← zpow_natCast, ← zpow_neg]
      exact zpow_le_zpow_right₀ (by norm_num) (by norm_num)
    have l2 : 1 / q ≤ maxDouble := by
      refine i1.trans (le_trans ?_ FloatCoords.big_le_max)
      rw [← zpow_natCast]
      exact zpow_le_zpow_right₀ (by norm_num) (by norm_num)
    have p := one_div_pos.2 hq
    refine ⟨fl0 (1 / q), fl0_isDouble _ p.le (lt_of_le_of_lt (fl0_le_max p l2) maxDouble_lt), ?_, ?_⟩
    · simp only [exFactorLib, PyFloat.div, hq.ne', if_false]
      rw [ofMag_of_le p.le l2]
      cases s <;> rfl
    · have h3 := fl0_rel l1
      have e : fl0 (1 / q) * q - 1 = (fl0 (1 / q) - 1 / q) * q := by field_simp
      rw [e, abs_mul, abs_of_pos hq]
      calc |fl0 (1 / q) - 1 / q| * q ≤ 1 / q / 2 ^ 53 * q := by gcongr
        _ = 1 / 2 ^ 53 := by field_simp
        _ ≤ 1 / 2 ^ 52 := by norm_num
  pow_one n _ := by
    simp only [exFactorLib, one_zpow]
    rw [ofMag_of_le zero_le_one isDouble_one.le_max, fl0_of_isDouble isDouble_one]
  pow_small q n hd h0 h1 hn := by
    have p0 : 0 ≤ q ^ n := pow_nonneg h0 n
    have p1 : q ^ n ≤ 1 := pow_le_one₀ h0 (by linarith)
    have l2 : q ^ n ≤ maxDouble := p1.trans isDouble_one.le_max
    have dd : IsDouble (fl0 (q ^ n)) := by
      rcases p0.eq_or_lt with h | h
      · rw [← h, fl0_zero]; exact isDouble_zero
      · exact fl0_isDouble _ p0 (lt_of_le_of_lt (fl0_le_max h l2) maxDouble_lt)
    refine ⟨fl0 (q ^ n), dd, ?_, ?_⟩
    · simp only [exFactorLib, zpow_natCast]
      rw [ofMag_of_le p0 l2]
    · rcases le_or_gt ((2 : ℚ) ^ (-1022 : ℤ)) (q ^ n) with h | h
      · refine (fl0_rel h).trans ?_
        have : q ^ n / 2 ^ 53 ≤ q ^ n / 2 ^ 50 := by gcongr <;> norm_num
        have h9 : (0 : ℚ) ≤ 1 / 2 ^ 100 := by norm_num
        linarith
      · rcases p0.eq_or_lt with h' | h'
        · rw [← h', fl0_zero]; norm_num
        · have h3 := fl0_nearest h' isDouble_zero
          rw [zero_sub, abs_neg, abs_of_pos h'] at h3
          have h4 : (2 : ℚ) ^ (-1022 : ℤ) ≤ 1 / 2 ^ 100 := by
            rw [one_div, ← zpow_natCast, ← zpow_neg]
            exact zpow_le_zpow_right₀ (by norm_num) (by norm_num)
          have h9 : 0 ≤ q ^ n / 2 ^ 50 := by positivity
          have h5 : |fl0 (q ^ n) - q ^ n| ≤ 1 / 2 ^ 100 := h3.trans (h.le.trans h4)
          linarith

example := C118_forward exFactorLib exFactorLib_good 5 (-3) (by norm_num) (by norm_num)
example := C118_inverse exFactorLib exFactorLib_good 5 4 (by norm_num) (by norm_num)
example := C118_beta exFactorLib exFactorLib_good 5 (by norm_num) (by norm_num)
/-- The dipole. -/
example : tangential 1 = 52 / 55 := by unfold tangential; norm_num
example := C118_meant 5 (-3) (by norm_num)

/-- A disk with one file, `in.dat`. -/
def FloatFactors.factorDisk (t : Text) : Disk where
  place := fun n => if n = "in.dat".toList then 0 else n.length + 1
  node := fun i => if i = 0 then some (some t) else none
  writable := fun _ => true
  encodes := fun c => decide (c.toNat < 128)
  ascii := by intro c h; simpa using h

def FloatFactors.factorText : Text := "1 0 1.5 0\n2 1 -3 0.25\n".toList

def FloatFactors.factorSet : Coefs PyComplex := match readMagnetogram demoEnv factorText with | .ok s => s | .error _ => new [] .cplx

theorem FloatFactors.factorSet_read : readMagnetogram demoEnv factorText = .ok factorSet := by decide +kernel

theorem FloatFactors.factorSet_stores {l m : ℤ} (h : stores factorSet l m) : (l = 1 ∧ m = 0) ∨ (l = 2 ∧ m = 1) := by
  have h1 := (has_int factorSet l m).1 h
  rw [show factorSet.keys = [(1, 0), (2, 1)] by decide +kernel] at h1
  simpa using h1

theorem FloatFactors.factorSet_deg {l m : ℤ} (h : stores factorSet l m) : 0 ≤ l ∧ l ≤ 2 ^ 62 - 1 := by
  rcases factorSet_stores h with ⟨rfl, -⟩ | ⟨rfl, -⟩ <;> norm_num

private theorem moderate_of {a : Bool} {n : ℕ} {e : ℤ} (h : n < 2 ^ 53) (h1 : -50 ≤ e) (h2 : e ≤ 50) {k : ℕ} (hk : 800 ≤ k) :
    Moderate k (fin a (n * 2 ^ e)) := by
  refine ⟨⟨a, n, e, h, by omega, by omega, rfl⟩, ?_⟩
  have hp : (0 : ℚ) < 2 ^ e := by positivity
  have ea : |value (fin a (n * 2 ^ e))| = n * 2 ^ e := by
    cases a <;> simp [value, abs_mul, abs_of_pos hp]
  rcases Nat.eq_zero_or_pos n with rfl | hn
  · left; cases a <;> simp [value]
  · right
    rw [ea]
    have hn1 : (1 : ℚ) ≤ n := by exact_mod_cast hn
    constructor
    · calc (2 : ℚ) ^ (-(k : ℤ)) ≤ 2 ^ e := zpow_le_zpow_right₀ (by norm_num) (by omega)
        _ ≤ n * 2 ^ e := by nlinarith
    · have hn2 : (n : ℚ) ≤ 2 ^ (53 : ℤ) := by exact_mod_cast h.le
      calc (n : ℚ) * 2 ^ e ≤ 2 ^ (53 : ℤ) * 2 ^ e := by gcongr
        _ = 2 ^ (53 + e) := by rw [zpow_add₀ (by norm_num)]
        _ ≤ 2 ^ (k : ℤ) := zpow_le_zpow_right₀ (by norm_num) (by omega)

theorem FloatFactors.factorSet_moderate {k : ℕ} (hk : 800 ≤ k) {l m : ℤ} (h : stores factorSet l m) (z : PyComplex)
    (hz : z ∈ (valueAt factorSet l m).head?) : Moderate k z.1 ∧ Moderate k z.2 := by
  rcases factorSet_stores h with ⟨rfl, rfl⟩ | ⟨rfl, rfl⟩
  · rw [show (valueAt factorSet 1 0).head? = some (.fin false (3 / 2), .fin false 0) by decide +kernel] at hz
    cases hz
    constructor
    · convert moderate_of (a := false) (n := 3) (e := -1) (by norm_num) (by norm_num) (by norm_num) hk using 2; norm_num
    · convert moderate_of (a := false) (n := 0) (e := 0) (by norm_num) (by norm_num) (by norm_num) hk using 2; norm_num
  · rw [show (valueAt factorSet 2 1).head? = some (.fin true 3, .fin false (1 / 4)) by decide +kernel] at hz
    cases hz
    constructor
    · convert moderate_of (a := true) (n := 3) (e := 0) (by norm_num) (by norm_num) (by norm_num) hk using 2; norm_num
    · convert moderate_of (a := false) (n := 1) (e := -2) (by norm_num) (by norm_num) (by norm_num) hk using 2; norm_num

def FloatFactors.factorOptions : Options := { input := "in.dat".toList, swmfHeader := false }

/-- Both runs of the program on an actual file, with the names made up by the program. -/
theorem FloatFactors.factor_runs : ∃ d1 d2, main demoEnv (factors exFactorLib) [] factorOptions (factorDisk factorText) = .ok () d1 ∧
    main demoEnv (factors exFactorLib) [] { input := "in_wso.dat".toList, pfssToZdi := true } d1 = .ok () d2 := by
  have hdm : factorOptions.degreeMax.getD factorSet.degreeMax = 2 := by decide +kernel
  have t1 : target factorOptions = "in_wso.dat".toList := by decide +kernel
  obtain ⟨d1, hd1⟩ := C118_succeeds demoEnv exFactorLib exFactorLib_good [] factorOptions (factorDisk factorText) factorText factorSet rfl
    (by decide +kernel) factorSet_read (by intro h; cases h) (fun l m h => (factorSet_deg h).2) (by rw [hdm]; norm_num) (by decide +kernel)
    (by intro _; decide +kernel) rfl (by intro c hc; rw [show header factorOptions = false by decide +kernel] at hc; cases hc)
  have hh1 : HeaderHarmless demoEnv.digits [] (target factorOptions) factorOptions.swmfHeader := by
    simp [HeaderHarmless, factorOptions, NoBreak]
  obtain ⟨text1, r1, a1, b1, c1, e1, f1⟩ := C118_zdi_to_pfss demoEnv exFactorLib exFactorLib_good [] factorOptions (factorDisk factorText) d1
    factorText factorSet rfl rfl (by decide +kernel) factorSet_read hd1 hh1 (fun l m h => (factorSet_deg h).2)
    (fun l m h z hz => factorSet_moderate (by norm_num) h z hz)
  rw [hdm] at e1
  have hput : ∃ text, d1 = (factorDisk factorText).put ((factorDisk factorText).place (target factorOptions)) text := by
    obtain ⟨_, _, _, text, _, _, _, _, _, h⟩ := run_ok hd1
    exact ⟨text, h⟩
  obtain ⟨text0, hput⟩ := hput
  have hD1 : 0 ≤ r1.degreeMax := by
    obtain ⟨w1, -, -⟩ := read_column demoEnv b1
    have := w1.degUpper _ ((has_int r1 0 0).1 ((e1 0 0).2 (by unfold InWindow; norm_num)))
    exact this
  obtain ⟨d2, hd2⟩ := C118_succeeds demoEnv exFactorLib exFactorLib_good [] { input := "in_wso.dat".toList, pfssToZdi := true } d1 text1 r1 rfl
    (by rw [← t1]; exact a1) b1 (by intro _; rw [c1]; rfl) (fun l m h => by
      obtain ⟨-, i2, -, -⟩ := (e1 l m).1 h
      exact i2.trans (by norm_num)) hD1 (by decide +kernel) (by
      intro _
      rw [hput]
      exact ((put_same (factorDisk factorText) _ text0).2.2.2
        ((factorDisk factorText).place (target { input := "in_wso.dat".toList, pfssToZdi := true })) (by decide +kernel)).trans
        (by decide +kernel)) (by rw [hput]; rfl) (by intro c hc; cases hc)
  exact ⟨d1, d2, hd1, hd2⟩

/-- There and back from an actual file. -/
example : ∃ d1 d2 text r y1 y2 y3, main demoEnv (factors exFactorLib) [] factorOptions (factorDisk factorText) = .ok () d1 ∧
    main demoEnv (factors exFactorLib) [] { input := "in_wso.dat".toList, pfssToZdi := true } d1 = .ok () d2 ∧
    d2.read "in_wso_zdi.dat".toList = .ok text ∧ readMagnetogram demoEnv text = .ok r ∧ valueAt r 2 1 = [y1, y2, y3] ∧
    WithinRel (1001 / 10 ^ 9) (-3) y1.1 ∧ WithinRel (1001 / 10 ^ 9) (tangential 2 * -3) y2.1 ∧ ZeroNumber y3 := by
  have hdm : factorOptions.degreeMax.getD factorSet.degreeMax = 2 := by decide +kernel
  have t1 : target factorOptions = "in_wso.dat".toList := by decide +kernel
  obtain ⟨d1, d2, hd1, hd2⟩ := factor_runs
  have hh1 : HeaderHarmless demoEnv.digits [] (target factorOptions) factorOptions.swmfHeader := by
    simp [HeaderHarmless, factorOptions, NoBreak]
  obtain ⟨text, r, x1, x2, x3, x4, x5⟩ := C118_round_trip demoEnv exFactorLib exFactorLib_good [] factorOptions
    { input := "in_wso.dat".toList, pfssToZdi := true } (factorDisk factorText) d1 d2 factorText factorSet rfl rfl rfl rfl t1.symm
    (by decide +kernel) factorSet_read hd1 hd2 hh1 (by simp [HeaderHarmless, NoBreak]) (fun l m h => (factorSet_deg h).2) (by rw [hdm]; norm_num)
    (fun l m h z hz => factorSet_moderate (by norm_num) h z hz)
  rw [hdm] at x4 x5
  have hin : InWindow 2 0 2 1 := by unfold InWindow; norm_num
  obtain ⟨y1, y2, y3, hy, p1, -, p3⟩ := x5 2 1 hin
  obtain ⟨z, hz, ⟨q1, -⟩, q2, -⟩ := p1 hin ((has_int factorSet 2 1).2 (by decide +kernel))
  rw [show (valueAt factorSet 2 1).head? = some (.fin true 3, .fin false (1 / 4)) by decide +kernel] at hz
  cases hz
  have hv : ((value (fin true 3) : ℚ) : ℝ) = -3 := by norm_num [value]
  rw [hv] at q1 q2
  refine ⟨d1, d2, text, r, y1, y2, y3, hd1, hd2, ?_, x2, hy, q1, q2, p3⟩
  rw [← x1]
  congr 1

/-- A degree that is too large. -/
example : main demoEnv (factors exFactorLib) [] factorOptions (factorDisk "9223372036854775808 0 1 0\n".toList)
    = .error .type (factorDisk "9223372036854775808 0 1 0\n".toList) := by
  obtain ⟨s, hs, hk⟩ : ∃ s, readMagnetogram demoEnv "9223372036854775808 0 1 0\n".toList = .ok s ∧ (9223372036854775808, 0) ∈ s.keys := by
    refine ⟨match readMagnetogram demoEnv "9223372036854775808 0 1 0\n".toList with | .ok s => s | .error _ => new [] .cplx, ?_, ?_⟩ <;>
      decide +kernel
  exact C118_degree_refused demoEnv exFactorLib [] _ _ _ s rfl (by decide +kernel) hs (by intro h; cases h)
    ⟨_, _, (has_int s _ _).2 hk, by norm_num⟩

end Verif
