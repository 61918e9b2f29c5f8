import Verif.Props.Identify
import Mathlib.Analysis.Calculus.Deriv.MeanValue

/-!
# Property C103: flux and mean square of the radial field on spheres
-/

namespace Verif
open Spec Zdi Pfss Legendre Identify Parseval intervalIntegral

namespace Spec

/-- The integral over the unit sphere. -/
noncomputable def overSphere (F : ℝ → ℝ → ℝ) : ℝ :=
  ∫ θ in (0 : ℝ)..Real.pi, (∫ φ in (0 : ℝ)..2 * Real.pi, F θ φ) * Real.sin θ

/-- The radial component that `evaluate_spherical` returns, 0 if it raises. -/
noncomputable def radialOf (s : Coefs ℂ) (r0 rss r θ φ : ℝ) : ℝ :=
  match evalSpherical s r θ φ r0 rss with
  | .ok f => f.1
  | .error _ => 0

/-- By how much the radial field of degree `l` has fallen off at radius `r`: `(r0/r)^(l+2)` for a source surface far away. -/
noncomputable def fallOff (l : ℤ) (r0 rss r : ℝ) : ℝ :=
  (r0 / min r rss) ^ (l + 2) * ((l + 1 + l * (min r rss / rss) ^ (2 * l + 1)) / (l + 1 + l * (r0 / rss) ^ (2 * l + 1)))
    * (min r rss / r) ^ 2

/-- The part of a coefficient that shows, squared. -/
noncomputable def visibleSq (m : ℤ) (c : ℂ) : ℝ := c.re ^ 2 + if m = 0 then 0 else c.im ^ 2

end Spec

namespace PfssFlux

theorem radialOf_eq {s : Coefs ℂ} (h : RadialSet s) {r0 rss r : ℝ} (h0 : 0 < r0) (h1 : r0 < rss) (hr : r0 ≤ r) (θ φ : ℝ) :
    radialOf s r0 rss r θ φ = fR s r0 rss (min r rss) θ φ * (min r rss / r) ^ 2 := by
  obtain ⟨f, e, hf⟩ := evalSpherical_fst h h0 h1 hr θ φ
  rw [radialOf, e]; exact hf

theorem overSphere_congr {F G : ℝ → ℝ → ℝ} (h : ∀ θ φ, 0 ≤ Real.sin θ → F θ φ = G θ φ) : overSphere F = overSphere G := by
  refine integral_congr fun θ hθ => ?_
  rw [Set.uIcc_of_le Real.pi_pos.le] at hθ
  have := Real.sin_nonneg_of_nonneg_of_le_pi hθ.1 hθ.2
  simp only [h θ _ this]

theorem overSphere_mul (F : ℝ → ℝ → ℝ) (c : ℝ) : overSphere (fun θ φ => F θ φ * c) = overSphere F * c := by
  rw [overSphere, overSphere, ← integral_mul_const]
  refine integral_congr fun θ _ => ?_
  simp only [integral_mul_const]
  ring

theorem thP_zero (θ : ℝ) : thP 0 0 θ = 1 := by simp [thP, rod, rodBase, rodNorm]

theorem thP_int (l : ℕ) : ∫ θ in (0 : ℝ)..Real.pi, thP l 0 θ * Real.sin θ = if l = 0 then 2 else 0 := by
  have e : ∀ θ, thP l 0 θ * Real.sin θ = thP l 0 θ * thP 0 0 θ * Real.sin θ := fun θ => by rw [thP_zero, mul_one]
  simp only [e]
  split_ifs with h
  · subst h; rw [integral_thP_self le_rfl]; norm_num
  · rw [integral_thP_ne _ h]

theorem expi_int {m : ℤ} (hm : 0 ≤ m) (x : ℂ) :
    ∫ φ in (0 : ℝ)..2 * Real.pi, (x * expi m φ).re = if m = 0 then 2 * Real.pi * x.re else 0 := by
  have e := phi_pair hm le_rfl x 1
  have e1 : ∀ φ, (1 * expi 0 φ : ℂ).re = 1 := fun φ => by simp [expi]
  simp only [e1, mul_one] at e
  rw [e]
  split_ifs with h
  · rw [A, if_pos h]; simp; ring
  · rfl

theorem K_cont (S : Finset (ℤ × ℤ)) (x : ℤ × ℤ → ℂ) (θ : ℝ) : Continuous fun φ => (K S x thP θ φ).re := by
  unfold K
  fun_prop

/-- The integral over the sphere of a sum of harmonics. -/
theorem K_flux {S : Finset (ℤ × ℤ)} (hS : ∀ k ∈ S, 0 ≤ k.2 ∧ k.2 ≤ k.1) (x : ℤ × ℤ → ℂ) :
    overSphere (fun θ φ => (K S x thP θ φ).re) = if (0, 0) ∈ S then 4 * Real.pi * (x (0, 0)).re else 0 := by
  have e : ∀ θ, (∫ φ in (0 : ℝ)..2 * Real.pi, (K S x thP θ φ).re) * Real.sin θ
      = ∑ k ∈ S, (if k.2 = 0 then 2 * Real.pi * (x k).re else 0) * (thP k.1.toNat k.2.toNat θ * Real.sin θ) := by
    intro θ
    simp only [K, Complex.re_sum]
    rw [integral_finset_sum fun k _ => Continuous.intervalIntegrable (by fun_prop) _ _, Finset.sum_mul]
    refine Finset.sum_congr rfl fun k hk => ?_
    rw [expi_int (hS k hk).1]
    split_ifs
    · rw [Complex.re_mul_ofReal]; ring
    · simp
  rw [overSphere]
  simp only [e]
  rw [integral_finset_sum fun k _ => Continuous.intervalIntegrable (by fun_prop) _ _]
  have e2 : ∀ k ∈ S, ∫ θ in (0 : ℝ)..Real.pi, (if k.2 = 0 then 2 * Real.pi * (x k).re else 0)
      * (thP k.1.toNat k.2.toNat θ * Real.sin θ) = if k = (0, 0) then 4 * Real.pi * (x (0, 0)).re else 0 := by
    intro k hk
    rw [integral_const_mul]
    by_cases h2 : k.2 = 0
    · rw [if_pos h2, h2, Int.toNat_zero, thP_int]
      by_cases h1 : k.1 = 0
      · have : k = (0, 0) := Prod.ext h1 h2
        subst this
        simp; ring
      · have hk1 := hS k hk
        rw [if_neg (by omega), if_neg (fun h => h1 (by rw [h]))]; ring
    · rw [if_neg h2, if_neg (fun h => h2 (by rw [h])), zero_mul]
  rw [Finset.sum_congr rfl e2, Finset.sum_ite_eq']

theorem neg_rL (l : ℤ) (r0 rss r : ℝ) :
    -(rL l (min r rss) r0 rss).2 * (min r rss / r) ^ 2 = fallOff l r0 rss r := by
  rw [rL, fallOff]; ring

theorem thetaScale_sq {l m : ℤ} (h0 : 0 ≤ m) (h1 : m ≤ l) :
    thetaScale l m ^ 2 * N l.toNat m.toNat = (if m = 0 then 2 else 4) / (2 * l + 1) := by
  obtain ⟨m, rfl⟩ := Int.eq_ofNat_of_zero_le h0
  obtain ⟨l, rfl⟩ := Int.eq_ofNat_of_zero_le (le_trans h0 h1)
  have hml : m ≤ l := by omega
  have f1 : spFactorial ((l : ℤ) - m) = ((l - m).factorial : ℝ) := by
    rw [spFactorial, if_neg (by omega), show ((l : ℤ) - m).toNat = l - m by omega]
  have f2 : spFactorial ((l : ℤ) + m) = ((l + m).factorial : ℝ) := by
    rw [spFactorial, if_neg (by omega), show ((l : ℤ) + m).toNat = l + m by omega]
  have p1 : (0 : ℝ) < ((l - m).factorial : ℝ) := by positivity
  have p2 : (0 : ℝ) < ((l + m).factorial : ℝ) := by positivity
  have s1 : ((-1 : ℝ) ^ (m : ℤ)) ^ 2 = 1 := by
    rw [zpow_natCast, ← pow_mul, mul_comm, pow_mul]; norm_num
  rw [thetaScale, N, f1, f2, mul_pow, mul_pow, s1, Real.sq_sqrt (by positivity), Real.sq_sqrt (by split_ifs <;> norm_num),
    Int.toNat_natCast, Int.toNat_natCast]
  push_cast
  have p3 : (2 * (l : ℝ) + 1) ≠ 0 := by positivity
  split_ifs <;> field_simp <;> ring

theorem A_conj (m : ℤ) (c : ℂ) (w : ℝ) :
    A m ((starRingEnd ℂ) c * (w : ℂ)) ((starRingEnd ℂ) c * (w : ℂ))
      = Real.pi * w ^ 2 * ((if m = 0 then 2 else 1) * visibleSq m c) := by
  rw [A, visibleSq]
  split_ifs <;> simp [Complex.mul_re, Complex.mul_im] <;> ring

/-! ### The fall-off of one degree -/

/-- The fall-off of degree `n` in units of the source surface radius. -/
noncomputable def T (n : ℕ) (a u : ℝ) : ℝ := (a / u) ^ (n + 2) * ((n + 1 + n * u ^ (2 * n + 1)) / (n + 1 + n * a ^ (2 * n + 1)))

/-- The ratio of two successive degrees, up to a constant. -/
noncomputable def R (n : ℕ) (u : ℝ) : ℝ := (n + 2 + (n + 1) * u ^ (2 * n + 3)) / (u * (n + 1 + n * u ^ (2 * n + 1)))

theorem R_pos (n : ℕ) {u : ℝ} (hu : 0 < u) : 0 < R n u := by unfold R; positivity
theorem T_pos (n : ℕ) {a u : ℝ} (ha : 0 < a) (hu : 0 < u) : 0 < T n a u := by unfold T; positivity

theorem T_succ (n : ℕ) {a u : ℝ} (ha : 0 < a) (hu : 0 < u) : T (n + 1) a u = T n a u * (R n u / R n a) := by
  unfold T R
  have q1 : (n : ℝ) + 1 + n * u ^ (2 * n + 1) ≠ 0 := by positivity
  have q2 : (n : ℝ) + 1 + n * a ^ (2 * n + 1) ≠ 0 := by positivity
  have q3 : (n : ℝ) + 2 + (n + 1) * a ^ (2 * n + 3) ≠ 0 := by positivity
  have e1 : 2 * (n + 1) + 1 = 2 * n + 3 := by ring
  rw [e1]
  push_cast
  have q4 : (n : ℝ) + 1 + 1 + (n + 1) * a ^ (2 * n + 3) ≠ 0 := by positivity
  have e2 : (a / u) ^ (n + 1 + 2) = (a / u) ^ (n + 2) * (a / u) := by ring
  rw [e2]
  field_simp
  ring

theorem R_deriv (n : ℕ) {u : ℝ} (hu : 0 < u) : HasDerivAt (R n)
    ((n + 1) * (2 * (n + 1) ^ 2 * u ^ 2 * u ^ (2 * n + 1) + n * u ^ 2 * (u ^ (2 * n + 1)) ^ 2 - (n + 2)
      - 2 * n * (n + 2) * u ^ (2 * n + 1)) / (u * (n + 1 + n * u ^ (2 * n + 1))) ^ 2) u := by
  unfold R
  have q1 : u * ((n : ℝ) + 1 + n * u ^ (2 * n + 1)) ≠ 0 := by positivity
  have d1 := ((hasDerivAt_pow (2 * n + 3) u).const_mul ((n : ℝ) + 1)).const_add ((n : ℝ) + 2)
  have d2 := ((hasDerivAt_pow (2 * n + 1) u).const_mul (n : ℝ)).const_add ((n : ℝ) + 1)
  have d3 := (hasDerivAt_id u).mul d2
  refine (d1.div d3 q1).congr_deriv ?_
  simp only [id, Pi.mul_apply]
  congr 1
  push_cast
  have e1 : ∀ j, j = 2 * n + 2 → u ^ j = u * u ^ (2 * n + 1) := by rintro _ rfl; ring
  have e2 : ∀ j, j = 2 * n → u * u ^ j = u ^ (2 * n + 1) := by rintro _ rfl; ring
  have e3 : u ^ (2 * n + 3) = u ^ 2 * u ^ (2 * n + 1) := by ring
  have e4 := e2 (2 * n) rfl
  have e5 := e1 (2 * n + 2) rfl
  rw [e5, e3]
  generalize u ^ (2 * n + 1) = w at *
  generalize u ^ (2 * n) = v at *
  subst e4
  ring

theorem R_strictAnti (n : ℕ) : StrictAntiOn (R n) (Set.Ioc 0 1) := by
  refine strictAntiOn_of_deriv_neg (convex_Ioc 0 1) ?_ ?_
  · intro u hu
    exact (R_deriv n hu.1).continuousAt.continuousWithinAt
  · intro u hu
    rw [interior_Ioc] at hu
    rw [(R_deriv n hu.1).deriv]
    have hu0 := hu.1
    have w0 : 0 < u ^ (2 * n + 1) := by positivity
    have w1 : u ^ (2 * n + 1) < 1 := pow_lt_one₀ hu.1.le hu.2 (by omega)
    have u2 : u ^ 2 < 1 := pow_lt_one₀ hu.1.le hu.2 (by omega)
    have hn : (0 : ℝ) ≤ n := Nat.cast_nonneg n
    refine div_neg_of_neg_of_pos (mul_neg_of_pos_of_neg (by positivity) ?_) (by positivity)
    generalize u ^ (2 * n + 1) = w at *
    generalize u ^ 2 = v at *
    have k1 : 2 * ((n : ℝ) + 1) ^ 2 * v * w ≤ 2 * ((n : ℝ) + 1) ^ 2 * w := by
      have : 0 ≤ 2 * ((n : ℝ) + 1) ^ 2 * w := by positivity
      nlinarith
    have k2 : (n : ℝ) * v * w ^ 2 ≤ n * w := by
      have : 0 ≤ (n : ℝ) * w := by positivity
      have : v * w ≤ 1 := by nlinarith
      nlinarith
    nlinarith

theorem R_anti (n : ℕ) {u v : ℝ} (hu : 0 < u) (huv : u ≤ v) (hv : v ≤ 1) : R n v ≤ R n u :=
  (R_strictAnti n).antitoneOn ⟨hu, huv.trans hv⟩ ⟨hu.trans_le huv, hv⟩ huv

theorem T_ratio {n n' : ℕ} (hn : n ≤ n') {a u v : ℝ} (ha : 0 < a) (hu : 0 < u) (huv : u ≤ v) (hv : v ≤ 1) :
    T n' a v * T n a u ≤ T n a v * T n' a u := by
  have hv0 := hu.trans_le huv
  induction n', hn using Nat.le_induction with
  | base => exact le_rfl
  | succ k hk ih =>
    rw [T_succ k ha hv0, T_succ k ha hu]
    have p1 := R_pos k ha
    have p2 := R_pos k hv0
    have p3 := T_pos n ha hv0
    have p4 := T_pos k ha hu
    calc T k a v * (R k v / R k a) * T n a u = T k a v * T n a u * (R k v / R k a) := by ring
      _ ≤ T n a v * T k a u * (R k v / R k a) := mul_le_mul_of_nonneg_right ih (by positivity)
      _ ≤ T n a v * T k a u * (R k u / R k a) :=
        mul_le_mul_of_nonneg_left (div_le_div_of_nonneg_right (R_anti k hu huv hv) p1.le) (by positivity)
      _ = T n a v * (T k a u * (R k u / R k a)) := by ring

theorem T_ratio_strict {n n' : ℕ} (hn : n < n') {a u v : ℝ} (ha : 0 < a) (hu : 0 < u) (huv : u < v) (hv : v ≤ 1) :
    T n' a v * T n a u < T n a v * T n' a u := by
  have hv0 := hu.trans huv
  obtain ⟨k, rfl⟩ : ∃ k, n' = k + 1 := ⟨n' - 1, by omega⟩
  rw [T_succ k ha hv0, T_succ k ha hu]
  have p1 := R_pos k ha
  have p2 := R_pos k hv0
  have p3 := T_pos n ha hv0
  have p4 := T_pos k ha hu
  calc T k a v * (R k v / R k a) * T n a u = T k a v * T n a u * (R k v / R k a) := by ring
    _ ≤ T n a v * T k a u * (R k v / R k a) :=
      mul_le_mul_of_nonneg_right (T_ratio (by omega) ha hu huv.le hv) (by positivity)
    _ < T n a v * T k a u * (R k u / R k a) :=
      mul_lt_mul_of_pos_left (div_lt_div_of_pos_right (R_strictAnti k ⟨hu, huv.le.trans hv⟩ ⟨hv0, hv⟩ huv) p1)
        (by positivity)
    _ = T n a v * (T k a u * (R k u / R k a)) := by ring

theorem fallOff_T (n : ℕ) {r0 rss r : ℝ} (h0 : 0 < r0) (h1 : r0 < rss) (hr : r0 ≤ r) :
    fallOff n r0 rss r = T n (r0 / rss) (min r rss / rss) * (min r rss / r) ^ 2 := by
  have p1 : 0 < rss := h0.trans h1
  have p2 : 0 < min r rss := lt_min (h0.trans_le hr) p1
  rw [fallOff, T]
  have e1 : r0 / rss / (min r rss / rss) = r0 / min r rss := by field_simp
  have z1 : ∀ x : ℝ, x ^ ((n : ℤ) + 2) = x ^ (n + 2) := fun x => by
    rw [show (n : ℤ) + 2 = ((n + 2 : ℕ) : ℤ) by push_cast; ring, zpow_natCast]
  have z2 : ∀ x : ℝ, x ^ (2 * (n : ℤ) + 1) = x ^ (2 * n + 1) := fun x => by
    rw [show 2 * (n : ℤ) + 1 = ((2 * n + 1 : ℕ) : ℤ) by push_cast; ring, zpow_natCast]
  rw [e1, z1, z2, z2]
  push_cast
  rfl

section
variable {r0 rss r r' : ℝ}

theorem fallOff_pos {l : ℤ} (hl : 0 ≤ l) (h0 : 0 < r0) (h1 : r0 < rss) (hr : r0 ≤ r) : 0 < fallOff l r0 rss r := by
  obtain ⟨n, rfl⟩ := Int.eq_ofNat_of_zero_le hl
  have p1 : 0 < rss := h0.trans h1
  have p3 : 0 < r := h0.trans_le hr
  have p2 : 0 < min r rss := lt_min p3 p1
  rw [fallOff_T n h0 h1 hr]
  have := T_pos n (div_pos h0 p1) (div_pos p2 p1)
  positivity

/-- The ratio of a higher to a lower degree never grows. -/
theorem fallOff_ratio {l l' : ℤ} (hl : 0 ≤ l) (hll : l ≤ l') (h0 : 0 < r0) (h1 : r0 < rss) (hr : r0 ≤ r) (hrr : r ≤ r') :
    fallOff l' r0 rss r' * fallOff l r0 rss r ≤ fallOff l r0 rss r' * fallOff l' r0 rss r := by
  obtain ⟨n, rfl⟩ := Int.eq_ofNat_of_zero_le hl
  obtain ⟨n', rfl⟩ := Int.eq_ofNat_of_zero_le (hl.trans hll)
  have p1 : 0 < rss := h0.trans h1
  have p2 : 0 < min r rss := lt_min (h0.trans_le hr) p1
  rw [fallOff_T n h0 h1 hr, fallOff_T n h0 h1 (hr.trans hrr), fallOff_T n' h0 h1 hr, fallOff_T n' h0 h1 (hr.trans hrr)]
  have := T_ratio (n := n) (n' := n') (by omega) (div_pos h0 p1) (div_pos p2 p1)
    (div_le_div_of_nonneg_right (min_le_min_right rss hrr) p1.le) (by rw [div_le_one p1]; exact min_le_right r' rss)
  have q := mul_le_mul_of_nonneg_right this (by positivity : 0 ≤ (min r' rss / r') ^ 2 * (min r rss / r) ^ 2)
  nlinarith [q]

theorem fallOff_ratio_strict {l l' : ℤ} (hl : 0 ≤ l) (hll : l < l') (h0 : 0 < r0) (h1 : r0 < rss) (hr : r0 ≤ r) (hrr : r < r')
    (hs : r < rss) :
    fallOff l' r0 rss r' * fallOff l r0 rss r < fallOff l r0 rss r' * fallOff l' r0 rss r := by
  obtain ⟨n, rfl⟩ := Int.eq_ofNat_of_zero_le hl
  obtain ⟨n', rfl⟩ := Int.eq_ofNat_of_zero_le (hl.trans hll.le)
  have p1 : 0 < rss := h0.trans h1
  have p3 : 0 < r := h0.trans_le hr
  have p4 : 0 < r' := p3.trans hrr
  have p2 : 0 < min r rss := lt_min p3 p1
  have p5 : 0 < min r' rss := lt_min p4 p1
  have p6 : min r rss < min r' rss := by rw [min_eq_left hs.le]; exact lt_min hrr hs
  rw [fallOff_T n h0 h1 hr, fallOff_T n h0 h1 (hr.trans hrr.le), fallOff_T n' h0 h1 hr, fallOff_T n' h0 h1 (hr.trans hrr.le)]
  have := T_ratio_strict (n := n) (n' := n') (by omega) (div_pos h0 p1) (div_pos p2 p1)
    (div_lt_div_of_pos_right p6 p1) (by rw [div_le_one p1]; exact min_le_right r' rss)
  have q := mul_lt_mul_of_pos_right this (by positivity : 0 < (min r' rss / r') ^ 2 * (min r rss / r) ^ 2)
  nlinarith [q]

theorem fallOff_zero (h0 : 0 < r0) (h1 : r0 < rss) (hr : r0 ≤ r) : fallOff 0 r0 rss r = (r0 / r) ^ 2 := by
  have p1 : 0 < rss := h0.trans h1
  have p3 : 0 < r := h0.trans_le hr
  have p2 : 0 < min r rss := lt_min p3 p1
  have e := fallOff_T 0 h0 h1 hr
  rw [Nat.cast_zero] at e
  rw [e, T]
  simp
  field_simp

/-- `r²` times the fall-off never grows. -/
theorem fallOff_anti {l : ℤ} (hl : 0 ≤ l) (h0 : 0 < r0) (h1 : r0 < rss) (hr : r0 ≤ r) (hrr : r ≤ r') :
    r' ^ 2 * fallOff l r0 rss r' ≤ r ^ 2 * fallOff l r0 rss r := by
  have p3 : 0 < r := h0.trans_le hr
  have p4 : 0 < r' := p3.trans_le hrr
  have := fallOff_ratio le_rfl hl h0 h1 hr hrr
  rw [fallOff_zero h0 h1 hr, fallOff_zero h0 h1 (hr.trans hrr), div_pow, div_pow] at this
  have q := mul_le_mul_of_nonneg_right this (by positivity : 0 ≤ r ^ 2 * r' ^ 2 / r0 ^ 2)
  field_simp at q
  linarith

theorem fallOff_anti_strict {l : ℤ} (hl : 0 < l) (h0 : 0 < r0) (h1 : r0 < rss) (hr : r0 ≤ r) (hrr : r < r') (hs : r < rss) :
    r' ^ 2 * fallOff l r0 rss r' < r ^ 2 * fallOff l r0 rss r := by
  have p3 : 0 < r := h0.trans_le hr
  have p4 : 0 < r' := p3.trans hrr
  have := fallOff_ratio_strict le_rfl hl h0 h1 hr hrr hs
  rw [fallOff_zero h0 h1 hr, fallOff_zero h0 h1 (hr.trans hrr.le), div_pow, div_pow] at this
  have q := mul_lt_mul_of_pos_right this (by positivity : 0 < r ^ 2 * r' ^ 2 / r0 ^ 2)
  field_simp at q
  linarith

end

theorem visibleSq_nonneg (m : ℤ) (c : ℂ) : 0 ≤ visibleSq m c := by
  unfold visibleSq; split_ifs <;> positivity

theorem bounds {s : Coefs ℂ} (h : RadialSet s) {k : ℤ × ℤ} (hk : k ∈ pairs s) : 0 ≤ k.2 ∧ k.2 ≤ k.1 :=
  h.bounds (by simpa [pairs_eq] using hk)

end PfssFlux
open PfssFlux

/-- **C103.** The flux through every sphere around the star is `4π r0²` times the real part of the coefficient of degree 0:
a set without it carries no net flux, at any radius. -/
theorem C103_flux (s : Coefs ℂ) (h : RadialSet s) (r0 rss r : ℝ) (h0 : 0 < r0) (h1 : r0 < rss) (hr : r0 ≤ r) :
    r ^ 2 * overSphere (radialOf s r0 rss r) = 4 * Real.pi * r0 ^ 2 * (storedCoef s 0 0).re := by
  have p3 : 0 < r := h0.trans_le hr
  have e := K_flux (fun k hk => bounds h hk)
    (fun k => (starRingEnd ℂ) (storedCoef s k.1 k.2) * (wt r0 rss (min r rss) k : ℝ))
  rw [overSphere_congr fun θ φ hs => (by
    rw [radialOf_eq h h0 h1 hr, fR_K (Finset.Subset.refl _) _ _ _ hs] :
      radialOf s r0 rss r θ φ = (K (pairs s) (fun k => (starRingEnd ℂ) (storedCoef s k.1 k.2)
        * (wt r0 rss (min r rss) k : ℝ)) thP θ φ).re * (min r rss / r) ^ 2), overSphere_mul, e]
  have t00 : thetaScale 0 0 = 1 := by simp [thetaScale, spFactorial]; norm_num
  split_ifs with hk
  · have := neg_rL 0 r0 rss r
    rw [fallOff_zero h0 h1 hr] at this
    rw [Complex.re_mul_ofReal, Complex.conj_re, wt]
    simp only [t00, mul_one]
    have e2 : r ^ 2 * (4 * Real.pi * ((storedCoef s 0 0).re * -(rL 0 (min r rss) r0 rss).2) * (min r rss / r) ^ 2)
        = 4 * Real.pi * (storedCoef s 0 0).re * r ^ 2 * (-(rL 0 (min r rss) r0 rss).2 * (min r rss / r) ^ 2) := by ring
    rw [e2, this]
    field_simp
  · rw [storedCoef_not (k := (0, 0)) hk]
    simp

/-- **C103.** The squared radial field integrated over the sphere is a sum over the coefficients: `4π/(2l+1)` times the square of
the fall-off of the degree times the squared coefficient. -/
theorem C103_mean_square (s : Coefs ℂ) (h : RadialSet s) (r0 rss r : ℝ) (h0 : 0 < r0) (h1 : r0 < rss) (hr : r0 ≤ r) :
    overSphere (fun θ φ => radialOf s r0 rss r θ φ ^ 2)
      = ∑ k ∈ pairs s, 4 * Real.pi / (2 * k.1 + 1) * fallOff k.1 r0 rss r ^ 2 * visibleSq k.2 (coef s k.1 k.2) := by
  have e := K_sq (fun k hk => bounds h hk)
    (fun k => (starRingEnd ℂ) (storedCoef s k.1 k.2) * (wt r0 rss (min r rss) k : ℝ))
  rw [overSphere_congr fun θ φ hs => (by
    rw [radialOf_eq h h0 h1 hr, fR_K (Finset.Subset.refl _) _ _ _ hs, mul_pow] :
      radialOf s r0 rss r θ φ ^ 2 = (K (pairs s) (fun k => (starRingEnd ℂ) (storedCoef s k.1 k.2)
        * (wt r0 rss (min r rss) k : ℝ)) thP θ φ).re ^ 2 * ((min r rss / r) ^ 2) ^ 2), overSphere_mul, overSphere, e,
    Finset.sum_mul]
  refine Finset.sum_congr rfl fun k hk => ?_
  have hb := bounds h hk
  have hN := thetaScale_sq hb.1 hb.2
  rw [A_conj, storedCoef_of hk, ← neg_rL, wt]
  have e2 : Real.pi * (-(rL k.1 (min r rss) r0 rss).2 * thetaScale k.1 k.2) ^ 2
        * ((if k.2 = 0 then 2 else 1) * visibleSq k.2 (coef s k.1 k.2)) * N k.1.toNat k.2.toNat * ((min r rss / r) ^ 2) ^ 2
      = Real.pi * (-(rL k.1 (min r rss) r0 rss).2 * (min r rss / r) ^ 2) ^ 2
        * ((if k.2 = 0 then 2 else 1) * visibleSq k.2 (coef s k.1 k.2))
        * (thetaScale k.1 k.2 ^ 2 * N k.1.toNat k.2.toNat) := by ring
  rw [e2, hN]
  split_ifs <;> ring

/-- **C103.** At the surface nothing has fallen off. -/
theorem C103_surface (s : Coefs ℂ) (h : RadialSet s) (r0 rss : ℝ) (h0 : 0 < r0) (h1 : r0 < rss) :
    overSphere (fun θ φ => radialOf s r0 rss r0 θ φ ^ 2)
      = ∑ k ∈ pairs s, 4 * Real.pi / (2 * k.1 + 1) * visibleSq k.2 (coef s k.1 k.2) := by
  rw [C103_mean_square s h r0 rss r0 h0 h1 le_rfl]
  refine Finset.sum_congr rfl fun k hk => ?_
  have hl : (0 : ℝ) ≤ k.1 := by exact_mod_cast (bounds h hk).1.trans (bounds h hk).2
  have hp : (0 : ℝ) < k.1 + 1 + k.1 * (r0 / rss) ^ (2 * k.1 + 1) := by
    have := zpow_pos (div_pos h0 (h0.trans h1)) (2 * k.1 + 1)
    positivity
  rw [fallOff, min_eq_left h1.le, div_self h0.ne', div_self hp.ne']
  simp

/-- **C103.** `r⁴` times that integral (the square of the field of a charge falls off as `r⁻⁴`) never grows with the radius. -/
theorem C103_falls (s : Coefs ℂ) (h : RadialSet s) (r0 rss r r' : ℝ) (h0 : 0 < r0) (h1 : r0 < rss) (hr : r0 ≤ r)
    (hrr : r ≤ r') :
    r' ^ 4 * overSphere (fun θ φ => radialOf s r0 rss r' θ φ ^ 2) ≤ r ^ 4 * overSphere (fun θ φ => radialOf s r0 rss r θ φ ^ 2) := by
  rw [C103_mean_square s h r0 rss r h0 h1 hr, C103_mean_square s h r0 rss r' h0 h1 (hr.trans hrr), Finset.mul_sum, Finset.mul_sum]
  refine Finset.sum_le_sum fun k hk => ?_
  have hb := bounds h hk
  have hl : (0 : ℝ) ≤ k.1 := by exact_mod_cast hb.1.trans hb.2
  have q := fallOff_anti (hb.1.trans hb.2) h0 h1 hr hrr
  have p := fallOff_pos (hb.1.trans hb.2) h0 h1 (hr.trans hrr)
  have q2 : (r' ^ 2 * fallOff k.1 r0 rss r') ^ 2 ≤ (r ^ 2 * fallOff k.1 r0 rss r) ^ 2 :=
    pow_le_pow_left₀ (by positivity) q 2
  have w : 0 ≤ 4 * Real.pi / (2 * k.1 + 1) * visibleSq k.2 (coef s k.1 k.2) :=
    mul_nonneg (by positivity) (visibleSq_nonneg _ _)
  have := mul_le_mul_of_nonneg_left q2 w
  linarith [this]

/-- **C103.** Below the source surface it falls, unless the field is that of a charge. -/
theorem C103_falls_strictly (s : Coefs ℂ) (h : RadialSet s) (r0 rss r r' : ℝ) (h0 : 0 < r0) (h1 : r0 < rss) (hr : r0 ≤ r)
    (hrr : r < r') (hss : r < rss) (l m : ℤ) (hl : l ≠ 0) (hst : stores s l m) (hv : visibleSq m (coef s l m) ≠ 0) :
    r' ^ 4 * overSphere (fun θ φ => radialOf s r0 rss r' θ φ ^ 2) < r ^ 4 * overSphere (fun θ φ => radialOf s r0 rss r θ φ ^ 2) := by
  rw [C103_mean_square s h r0 rss r h0 h1 hr, C103_mean_square s h r0 rss r' h0 h1 (hr.trans hrr.le), Finset.mul_sum,
    Finset.mul_sum]
  refine Finset.sum_lt_sum (fun k hk => ?_) ⟨(l, m), (mem_pairs s (l, m)).2 hst, ?_⟩
  · have hb := bounds h hk
    have hl : (0 : ℝ) ≤ k.1 := by exact_mod_cast hb.1.trans hb.2
    have q := fallOff_anti (hb.1.trans hb.2) h0 h1 hr hrr.le
    have p := fallOff_pos (hb.1.trans hb.2) h0 h1 (hr.trans hrr.le)
    have q2 : (r' ^ 2 * fallOff k.1 r0 rss r') ^ 2 ≤ (r ^ 2 * fallOff k.1 r0 rss r) ^ 2 :=
      pow_le_pow_left₀ (by positivity) q 2
    have w : 0 ≤ 4 * Real.pi / (2 * k.1 + 1) * visibleSq k.2 (coef s k.1 k.2) :=
      mul_nonneg (by positivity) (visibleSq_nonneg _ _)
    have := mul_le_mul_of_nonneg_left q2 w
    linarith [this]
  · have hb := bounds h ((mem_pairs s (l, m)).2 hst)
    dsimp only at hb
    have hl' : (0 : ℝ) ≤ l := by exact_mod_cast hb.1.trans hb.2
    have hl1 : 0 < l := by omega
    have q := fallOff_anti_strict hl1 h0 h1 hr hrr hss
    have p := fallOff_pos (hb.1.trans hb.2) h0 h1 (hr.trans hrr.le)
    have q2 : (r' ^ 2 * fallOff l r0 rss r') ^ 2 < (r ^ 2 * fallOff l r0 rss r) ^ 2 :=
      pow_lt_pow_left₀ q (by positivity) two_ne_zero
    have w : 0 < 4 * Real.pi / (2 * l + 1) * visibleSq m (coef s l m) :=
      mul_pos (by positivity) (lt_of_le_of_ne (visibleSq_nonneg _ _) hv.symm)
    have := mul_lt_mul_of_pos_left q2 w
    dsimp only
    linarith [this]

/-- **C103.** Small structures fade first: if no degree of `s` exceeds a degree of `t`, the ratio of the two integrals (the higher
degrees over the lower ones) never grows with the radius. -/
theorem C103_smoother (s t : Coefs ℂ) (hs : RadialSet s) (ht : RadialSet t) (r0 rss r r' : ℝ) (h0 : 0 < r0) (h1 : r0 < rss)
    (hr : r0 ≤ r) (hrr : r ≤ r') (hd : ∀ l m l' m' : ℤ, stores s l m → stores t l' m' → l ≤ l') :
    overSphere (fun θ φ => radialOf t r0 rss r' θ φ ^ 2) * overSphere (fun θ φ => radialOf s r0 rss r θ φ ^ 2)
      ≤ overSphere (fun θ φ => radialOf s r0 rss r' θ φ ^ 2) * overSphere (fun θ φ => radialOf t r0 rss r θ φ ^ 2) := by
  rw [C103_mean_square s hs r0 rss r h0 h1 hr, C103_mean_square s hs r0 rss r' h0 h1 (hr.trans hrr),
    C103_mean_square t ht r0 rss r h0 h1 hr, C103_mean_square t ht r0 rss r' h0 h1 (hr.trans hrr), Finset.sum_mul_sum,
    Finset.sum_mul_sum, Finset.sum_comm]
  refine Finset.sum_le_sum fun k hk => Finset.sum_le_sum fun j hj => ?_
  have hb := bounds hs hk
  have hc := bounds ht hj
  have q := fallOff_ratio (hb.1.trans hb.2) (hd _ _ _ _ ((mem_pairs s k).1 hk) ((mem_pairs t j).1 hj)) h0 h1 hr hrr
  have p1 := fallOff_pos (hb.1.trans hb.2) h0 h1 hr
  have p2 := fallOff_pos (hc.1.trans hc.2) h0 h1 (hr.trans hrr)
  have q2 := pow_le_pow_left₀ (by positivity) q 2
  have hl : (0 : ℝ) ≤ k.1 := by exact_mod_cast hb.1.trans hb.2
  have hl' : (0 : ℝ) ≤ j.1 := by exact_mod_cast hc.1.trans hc.2
  have w : 0 ≤ 4 * Real.pi / (2 * k.1 + 1) * visibleSq k.2 (coef s k.1 k.2)
      * (4 * Real.pi / (2 * j.1 + 1) * visibleSq j.2 (coef t j.1 j.2)) :=
    mul_nonneg (mul_nonneg (by positivity) (visibleSq_nonneg _ _)) (mul_nonneg (by positivity) (visibleSq_nonneg _ _))
  have := mul_le_mul_of_nonneg_left q2 w
  linarith [this]

/-- **C103.** Beyond the source surface nothing changes any more. -/
theorem C103_beyond (s : Coefs ℂ) (h : RadialSet s) (r0 rss r : ℝ) (h0 : 0 < r0) (h1 : r0 < rss) (hr : rss ≤ r) :
    r ^ 4 * overSphere (fun θ φ => radialOf s r0 rss r θ φ ^ 2)
      = rss ^ 4 * overSphere (fun θ φ => radialOf s r0 rss rss θ φ ^ 2) := by
  have p1 : 0 < rss := h0.trans h1
  have p3 : 0 < r := p1.trans_le hr
  rw [C103_mean_square s h r0 rss r h0 h1 (h1.le.trans hr), C103_mean_square s h r0 rss rss h0 h1 h1.le, Finset.mul_sum,
    Finset.mul_sum]
  refine Finset.sum_congr rfl fun k _ => ?_
  have e : r ^ 2 * fallOff k.1 r0 rss r = rss ^ 2 * fallOff k.1 r0 rss rss := by
    rw [fallOff, fallOff, min_eq_right hr, min_self, div_self p1.ne']
    field_simp
  have e2 : (r ^ 2 * fallOff k.1 r0 rss r) ^ 2 = (rss ^ 2 * fallOff k.1 r0 rss rss) ^ 2 := by rw [e]
  linear_combination (4 * Real.pi / (2 * k.1 + 1) * visibleSq k.2 (coef s k.1 k.2)) * e2

/-- A dipole and a quadrupole along the axis. -/
private noncomputable def exPole1 : Coefs ℂ := ⟨[0], .cplx, [((1, 0), [3])], 1, 0⟩
private noncomputable def exPole2 : Coefs ℂ := ⟨[0], .cplx, [((2, 0), [5])], 2, 0⟩

private theorem exPole1_radial : RadialSet exPole1 := by
  have hr : Reach exPole1 := by
    refine Reach.append (s := Coefs.new [0] .cplx) (.int 1) (.int 0) [3] ?_ rfl
    exact Reach.new _ _ (by simp)
  refine ⟨wellFormed_of_WF hr.WF, rfl, ⟨1, 0, rfl⟩, fun l m hm => ?_⟩
  have := (Coefs.has_int exPole1 l m).1 hm
  simp only [Coefs.keys, exPole1, List.map_cons, List.map_nil, List.mem_singleton, Prod.mk.injEq] at this
  omega

private theorem exPole2_radial : RadialSet exPole2 := by
  have hr : Reach exPole2 := by
    refine Reach.append (s := Coefs.new [0] .cplx) (.int 2) (.int 0) [5] ?_ rfl
    exact Reach.new _ _ (by simp)
  refine ⟨wellFormed_of_WF hr.WF, rfl, ⟨2, 0, rfl⟩, fun l m hm => ?_⟩
  have := (Coefs.has_int exPole2 l m).1 hm
  simp only [Coefs.keys, exPole2, List.map_cons, List.map_nil, List.mem_singleton, Prod.mk.injEq] at this
  omega

/-- A dipole of strength 3: no net flux, a mean square of `9/3` over the surface, less than `1/16` of that at radius 2. -/
example : (2 : ℝ) ^ 2 * overSphere (radialOf exPole1 1 2.5 2) = 0 ∧
    overSphere (fun θ φ => radialOf exPole1 1 2.5 1 θ φ ^ 2) / (4 * Real.pi) = 3 ∧
    2 ^ 4 * overSphere (fun θ φ => radialOf exPole1 1 2.5 2 θ φ ^ 2)
      < 1 ^ 4 * overSphere (fun θ φ => radialOf exPole1 1 2.5 1 θ φ ^ 2) := by
  have hp := Real.pi_pos
  have ek : pairs exPole1 = {(1, 0)} := by simp [pairs_eq, Coefs.keys, exPole1]
  have ec : coef exPole1 1 0 = 3 := rfl
  refine ⟨?_, ?_, ?_⟩
  · rw [C103_flux exPole1 exPole1_radial 1 2.5 2 one_pos (by norm_num) (by norm_num),
      storedCoef_not (k := (0, 0)) (by rw [ek]; simp)]
    simp
  · rw [C103_surface exPole1 exPole1_radial 1 2.5 one_pos (by norm_num), ek, Finset.sum_singleton, ec]
    simp [visibleSq]
    field_simp
    norm_num
  · exact C103_falls_strictly exPole1 exPole1_radial 1 2.5 1 2 one_pos (by norm_num) le_rfl (by norm_num) (by norm_num) 1 0
      one_ne_zero rfl (by rw [ec]; simp [visibleSq])

/-- The hypotheses of `C103_smoother` are met by a dipole and a quadrupole. -/
example : ∀ l m l' m' : ℤ, stores exPole1 l m → stores exPole2 l' m' → l ≤ l' := by
  intro l m l' m' h1 h2
  have h1 := (Coefs.has_int exPole1 l m).1 h1
  have h2 := (Coefs.has_int exPole2 l' m').1 h2
  simp only [Coefs.keys, exPole1, exPole2, List.map_cons, List.map_nil, List.mem_singleton, Prod.mk.injEq] at h1 h2
  omega

end Verif
