import Verif.Props.FloatVisible

/-!
# The area seen of a full sphere: a lower bound for every observer
-/

namespace Verif
namespace FloatVisible
open Spec

theorem sum_cos_odd (x : ℝ) (n : ℕ) : (∑ j ∈ Finset.range n, Real.cos ((2 * j + 1) * x)) * (2 * Real.sin x) = Real.sin (2 * n * x) := by
  induction n with
  | zero => simp
  | succ n ih =>
    rw [Finset.sum_range_succ, add_mul, ih]
    have e1 : Real.sin (2 * ((n + 1 : ℕ) : ℝ) * x) = Real.sin ((2 * n + 1) * x + x) := by congr 1; push_cast; ring
    have e2 : Real.sin (2 * (n : ℝ) * x) = Real.sin ((2 * n + 1) * x - x) := by congr 1; ring
    rw [e1, e2, Real.sin_add, Real.sin_sub]
    ring

theorem sum_sin_odd (x : ℝ) (n : ℕ) : (∑ j ∈ Finset.range n, Real.sin ((2 * j + 1) * x)) * (2 * Real.sin x) = 1 - Real.cos (2 * n * x) := by
  induction n with
  | zero => simp
  | succ n ih =>
    rw [Finset.sum_range_succ, add_mul, ih]
    have e1 : Real.cos (2 * ((n + 1 : ℕ) : ℝ) * x) = Real.cos ((2 * n + 1) * x + x) := by congr 1; push_cast; ring
    have e2 : Real.cos (2 * (n : ℝ) * x) = Real.cos ((2 * n + 1) * x - x) := by congr 1; ring
    rw [e1, e2, Real.cos_add, Real.cos_sub]
    ring

/-- The sum over equidistant azimuths of the first two harmonics. -/
theorem azimuth_sum {K : ℕ} (hK : 3 ≤ K) (α β γ δ ε : ℝ) : ∑ j ∈ Finset.range K, (α * Real.cos ((2 * j + 1) * (Real.pi / K)) + β * Real.sin ((2 * j + 1) * (Real.pi / K)) +
    γ * Real.cos ((2 * j + 1) * (2 * Real.pi / K)) + δ * Real.sin ((2 * j + 1) * (2 * Real.pi / K)) + ε) = K * ε := by
  have K3 : (3 : ℝ) ≤ K := by exact_mod_cast hK
  have K0 : (0 : ℝ) < K := by linarith
  have pp := Real.pi_pos
  have s1 : 0 < Real.sin (Real.pi / K) := Real.sin_pos_of_pos_of_lt_pi (by positivity) (by rw [div_lt_iff₀ K0]; nlinarith)
  have s2 : 0 < Real.sin (2 * Real.pi / K) := Real.sin_pos_of_pos_of_lt_pi (by positivity) (by rw [div_lt_iff₀ K0]; nlinarith)
  have e1 : 2 * (K : ℝ) * (Real.pi / K) = 2 * Real.pi := by field_simp
  have e2 : 2 * (K : ℝ) * (2 * Real.pi / K) = 2 * Real.pi + 2 * Real.pi := by field_simp; ring
  have c1 := sum_cos_odd (Real.pi / K) K
  have c2 := sum_sin_odd (Real.pi / K) K
  have c3 := sum_cos_odd (2 * Real.pi / K) K
  have c4 := sum_sin_odd (2 * Real.pi / K) K
  rw [e1, Real.sin_two_pi] at c1
  rw [e1, Real.cos_two_pi, sub_self] at c2
  rw [e2, Real.sin_add_two_pi, Real.sin_two_pi] at c3
  rw [e2, Real.cos_add_two_pi, Real.cos_two_pi, sub_self] at c4
  have d1 := (mul_eq_zero.1 c1).resolve_right (by positivity)
  have d2 := (mul_eq_zero.1 c2).resolve_right (by positivity)
  have d3 := (mul_eq_zero.1 c3).resolve_right (by positivity)
  have d4 := (mul_eq_zero.1 c4).resolve_right (by positivity)
  rw [Finset.sum_add_distrib, Finset.sum_add_distrib, Finset.sum_add_distrib, Finset.sum_add_distrib, ← Finset.mul_sum, ← Finset.mul_sum, ← Finset.mul_sum,
    ← Finset.mul_sum, d1, d2, d3, d4, Finset.sum_const, Finset.card_range, nsmul_eq_mul]
  ring

theorem inner_sq_le {D N : ℝ × ℝ × ℝ} (hD : inner3 D D = 1) (hN : inner3 N N = 1) : inner3 D N ^ 2 ≤ 1 := by
  have h : inner3 D N ^ 2 + ((D.1 * N.2.1 - D.2.1 * N.1) ^ 2 + (D.1 * N.2.2 - D.2.2 * N.1) ^ 2 + (D.2.1 * N.2.2 - D.2.2 * N.2.1) ^ 2) = inner3 D D * inner3 N N := by
    simp only [inner3]; ring
  rw [hD, hN, one_mul] at h
  nlinarith [sq_nonneg (D.1 * N.2.1 - D.2.1 * N.1), sq_nonneg (D.1 * N.2.2 - D.2.2 * N.1), sq_nonneg (D.2.1 * N.2.2 - D.2.2 * N.2.1)]

theorem max_ge {x : ℝ} (h : x ^ 2 ≤ 1) : (x + x ^ 2) / 2 ≤ max 0 x := by
  have h1 : -1 ≤ x := by nlinarith
  have h2 : x ≤ 1 := by nlinarith
  rcases le_total 0 x with h0 | h0
  · refine le_max_of_le_right ?_
    nlinarith
  · refine le_max_of_le_left ?_
    nlinarith

/-- The sums over the polar angles. -/
theorem polar_sums {N : ℕ} (hN : 2 ≤ N) :
    (∑ i ∈ Finset.range N, Real.sin ((2 * i + 1) * (Real.pi / (2 * N))) * Real.cos ((2 * i + 1) * (Real.pi / (2 * N)))) = 0 ∧
      1 = (∑ i ∈ Finset.range N, Real.sin ((2 * i + 1) * (Real.pi / (2 * N)))) * Real.sin (Real.pi / (2 * N)) ∧
      1 / 3 ≤ (∑ i ∈ Finset.range N, Real.sin ((2 * i + 1) * (Real.pi / (2 * N))) * Real.cos ((2 * i + 1) * (Real.pi / (2 * N))) ^ 2) * Real.sin (Real.pi / (2 * N)) ∧
      (∑ i ∈ Finset.range N, Real.sin ((2 * i + 1) * (Real.pi / (2 * N))) * Real.cos ((2 * i + 1) * (Real.pi / (2 * N))) ^ 2) * Real.sin (Real.pi / (2 * N)) ≤ 1 / 2 := by
  have N2 : (2 : ℝ) ≤ N := by exact_mod_cast hN
  have N0 : (0 : ℝ) < N := by linarith
  have pp := Real.pi_pos
  set y := Real.pi / (2 * N) with hy
  have y0 : 0 < y := by positivity
  have y1 : y ≤ Real.pi / 4 := by rw [hy]; exact div_le_div_of_nonneg_left pp.le (by norm_num) (by linarith)
  have q0 : 0 < Real.sin y := Real.sin_pos_of_pos_of_lt_pi y0 (by linarith)
  have q1 : Real.sin y ^ 2 ≤ 1 / 2 := by
    have h1 : Real.sin y ≤ Real.sin (Real.pi / 4) := Real.sin_le_sin_of_le_of_le_pi_div_two (by linarith) (by linarith) y1
    rw [Real.sin_pi_div_four] at h1
    have h2 : Real.sin y ^ 2 ≤ (Real.sqrt 2 / 2) ^ 2 := pow_le_pow_left₀ q0.le h1 2
    rw [div_pow, Real.sq_sqrt (by norm_num)] at h2
    linarith
  have s2 : 0 < Real.sin (2 * y) := Real.sin_pos_of_pos_of_lt_pi (by linarith) (by linarith)
  have t1 := sum_sin_odd y N
  have t2 := sum_sin_odd (2 * y) N
  have t3 := sum_sin_odd (3 * y) N
  have e1 : 2 * (N : ℝ) * y = Real.pi := by rw [hy]; field_simp
  have e2 : 2 * (N : ℝ) * (2 * y) = 2 * Real.pi := by rw [← e1]; ring
  have e3 : 2 * (N : ℝ) * (3 * y) = Real.pi + 2 * Real.pi := by rw [← e1]; ring
  rw [e1, Real.cos_pi] at t1
  rw [e2, Real.cos_two_pi, sub_self] at t2
  rw [e3, Real.cos_add_two_pi, Real.cos_pi, Real.sin_three_mul] at t3
  have d2 := (mul_eq_zero.1 t2).resolve_right (by positivity)
  have f1 : (∑ i ∈ Finset.range N, Real.sin ((2 * i + 1) * y) * Real.cos ((2 * i + 1) * y)) = 0 := by
    have : ∀ i ∈ Finset.range N, Real.sin ((2 * i + 1) * y) * Real.cos ((2 * i + 1) * y) = (1 / 2) * Real.sin ((2 * i + 1) * (2 * y)) := by
      intro i _
      rw [show (2 * (i : ℝ) + 1) * (2 * y) = 2 * ((2 * i + 1) * y) by ring, Real.sin_two_mul]; ring
    rw [Finset.sum_congr rfl this, ← Finset.mul_sum, d2, mul_zero]
  have f2 : (∑ i ∈ Finset.range N, Real.sin ((2 * i + 1) * y) * Real.cos ((2 * i + 1) * y) ^ 2) =
      1 / 4 * (∑ i ∈ Finset.range N, Real.sin ((2 * i + 1) * y)) + 1 / 4 * (∑ i ∈ Finset.range N, Real.sin ((2 * i + 1) * (3 * y))) := by
    rw [Finset.mul_sum, Finset.mul_sum, ← Finset.sum_add_distrib]
    refine Finset.sum_congr rfl fun i _ => ?_
    rw [show (2 * (i : ℝ) + 1) * (3 * y) = 3 * ((2 * i + 1) * y) by ring, Real.sin_three_mul]
    have := Real.sin_sq_add_cos_sq ((2 * (i : ℝ) + 1) * y)
    linear_combination Real.sin ((2 * (i : ℝ) + 1) * y) * this
  set S1 := ∑ i ∈ Finset.range N, Real.sin ((2 * i + 1) * y)
  set S3 := ∑ i ∈ Finset.range N, Real.sin ((2 * i + 1) * (3 * y))
  have g1 : 1 = S1 * Real.sin y := by linarith
  have g3 : S3 * Real.sin y * (3 - 4 * Real.sin y ^ 2) = 1 := by linarith
  have r0 : 0 < S3 * Real.sin y := by
    by_contra hneg
    nlinarith
  refine ⟨f1, g1, ?_, ?_⟩
  · rw [f2, add_mul, mul_assoc, ← g1]
    have : 1 / 3 ≤ S3 * Real.sin y := by nlinarith [sq_nonneg (Real.sin y)]
    nlinarith
  · rw [f2, add_mul, mul_assoc, ← g1]
    have : S3 * Real.sin y ≤ 1 := by nlinarith
    nlinarith

/-- The area seen of a sphere divided into equal steps of both angles is at least an eighth of it. -/
theorem seen_exact {N K : ℕ} (hN : 2 ≤ N) (hK : 3 ≤ K) {D : ℝ × ℝ × ℝ} (hD : inner3 D D = 1) :
    Real.pi / 2 ≤ ∑ j ∈ Finset.range K, ∑ i ∈ Finset.range N, ((Real.cos (i * Real.pi / N) - Real.cos ((i + 1) * Real.pi / N)) * (2 * Real.pi / K)) *
      max 0 (inner3 D (pointing ((2 * i + 1) * (Real.pi / (2 * N))) ((2 * j + 1) * (Real.pi / K)))) := by
  have N0 : (0 : ℝ) < N := by exact_mod_cast (by omega : 0 < N)
  have K0 : (0 : ℝ) < K := by exact_mod_cast (by omega : 0 < K)
  have pp := Real.pi_pos
  have N2 : (2 : ℝ) ≤ N := by exact_mod_cast hN
  have hw : ∀ i : ℕ, Real.cos (i * Real.pi / N) - Real.cos ((i + 1) * Real.pi / N) = 2 * (Real.sin ((2 * i + 1) * (Real.pi / (2 * N))) * Real.sin (Real.pi / (2 * N))) := by
    intro i
    rw [show (i : ℝ) * Real.pi / N = (2 * i + 1) * (Real.pi / (2 * N)) - Real.pi / (2 * N) by field_simp; ring,
      show ((i : ℝ) + 1) * Real.pi / N = (2 * i + 1) * (Real.pi / (2 * N)) + Real.pi / (2 * N) by field_simp; ring, Real.cos_sub, Real.cos_add]
    ring
  have q0 : 0 ≤ Real.sin (Real.pi / (2 * N)) := Real.sin_nonneg_of_nonneg_of_le_pi (by positivity) (by rw [div_le_iff₀ (by positivity)]; nlinarith)
  have hs : ∀ i ∈ Finset.range N, 0 ≤ Real.sin ((2 * (i : ℝ) + 1) * (Real.pi / (2 * N))) := by
    intro i hi
    have : (i : ℝ) + 1 ≤ N := by exact_mod_cast Finset.mem_range.1 hi
    refine Real.sin_nonneg_of_nonneg_of_le_pi (by positivity) ?_
    rw [← mul_div_assoc, div_le_iff₀ (by positivity)]
    nlinarith
  obtain ⟨p1, p2, p3, p4⟩ := polar_sums hN
  set q := Real.sin (Real.pi / (2 * N)) with hq
  have low : ∑ j ∈ Finset.range K, ∑ i ∈ Finset.range N, (2 * (Real.sin ((2 * i + 1) * (Real.pi / (2 * N))) * q) * (2 * Real.pi / K)) *
      ((inner3 D (pointing ((2 * i + 1) * (Real.pi / (2 * N))) ((2 * j + 1) * (Real.pi / K))) +
        inner3 D (pointing ((2 * i + 1) * (Real.pi / (2 * N))) ((2 * j + 1) * (Real.pi / K))) ^ 2) / 2) ≤
      ∑ j ∈ Finset.range K, ∑ i ∈ Finset.range N, ((Real.cos (i * Real.pi / N) - Real.cos ((i + 1) * Real.pi / N)) * (2 * Real.pi / K)) *
      max 0 (inner3 D (pointing ((2 * i + 1) * (Real.pi / (2 * N))) ((2 * j + 1) * (Real.pi / K)))) := by
    refine Finset.sum_le_sum fun j _ => Finset.sum_le_sum fun i hi => ?_
    rw [hw i]
    refine mul_le_mul_of_nonneg_left (max_ge (inner_sq_le hD (pointing_unit _ _))) ?_
    have := hs i hi
    positivity
  refine le_trans ?_ low
  rw [Finset.sum_comm]
  have inner : ∀ i ∈ Finset.range N, ∑ j ∈ Finset.range K, (2 * (Real.sin ((2 * i + 1) * (Real.pi / (2 * N))) * q) * (2 * Real.pi / K)) *
      ((inner3 D (pointing ((2 * i + 1) * (Real.pi / (2 * N))) ((2 * j + 1) * (Real.pi / K))) +
        inner3 D (pointing ((2 * i + 1) * (Real.pi / (2 * N))) ((2 * j + 1) * (Real.pi / K))) ^ 2) / 2) =
      2 * Real.pi * q * (D.2.2 * (Real.sin ((2 * i + 1) * (Real.pi / (2 * N))) * Real.cos ((2 * i + 1) * (Real.pi / (2 * N)))) +
        (D.1 ^ 2 + D.2.1 ^ 2) / 2 * (Real.sin ((2 * i + 1) * (Real.pi / (2 * N))) - Real.sin ((2 * i + 1) * (Real.pi / (2 * N))) * Real.cos ((2 * i + 1) * (Real.pi / (2 * N))) ^ 2) +
        D.2.2 ^ 2 * (Real.sin ((2 * i + 1) * (Real.pi / (2 * N))) * Real.cos ((2 * i + 1) * (Real.pi / (2 * N))) ^ 2)) := by
    intro i _
    set s := Real.sin ((2 * (i : ℝ) + 1) * (Real.pi / (2 * N)))
    set c := Real.cos ((2 * (i : ℝ) + 1) * (Real.pi / (2 * N)))
    have sc : s ^ 2 + c ^ 2 = 1 := Real.sin_sq_add_cos_sq _
    rw [← Finset.mul_sum]
    have step : ∀ j ∈ Finset.range K, (inner3 D (pointing ((2 * i + 1) * (Real.pi / (2 * N))) ((2 * j + 1) * (Real.pi / K))) +
        inner3 D (pointing ((2 * i + 1) * (Real.pi / (2 * N))) ((2 * j + 1) * (Real.pi / K))) ^ 2) / 2 =
        (s * D.1 / 2 + s * c * D.1 * D.2.2) * Real.cos ((2 * j + 1) * (Real.pi / K)) + (s * D.2.1 / 2 + s * c * D.2.1 * D.2.2) * Real.sin ((2 * j + 1) * (Real.pi / K)) +
        (s ^ 2 * (D.1 ^ 2 - D.2.1 ^ 2) / 4) * Real.cos ((2 * j + 1) * (2 * Real.pi / K)) + (s ^ 2 * D.1 * D.2.1 / 2) * Real.sin ((2 * j + 1) * (2 * Real.pi / K)) +
        (c * D.2.2 / 2 + s ^ 2 * (D.1 ^ 2 + D.2.1 ^ 2) / 4 + c ^ 2 * D.2.2 ^ 2 / 2) := by
      intro j _
      rw [show (2 * (j : ℝ) + 1) * (2 * Real.pi / K) = 2 * ((2 * j + 1) * (Real.pi / K)) by ring, Real.cos_two_mul', Real.sin_two_mul]
      simp only [inner3, pointing]
      have := Real.sin_sq_add_cos_sq ((2 * (j : ℝ) + 1) * (Real.pi / K))
      change (D.1 * (s * _) + D.2.1 * (s * _) + D.2.2 * c + (D.1 * (s * _) + D.2.1 * (s * _) + D.2.2 * c) ^ 2) / 2 = _
      linear_combination (s ^ 2 * (D.1 ^ 2 + D.2.1 ^ 2) / 4) * this
    rw [Finset.sum_congr rfl step, azimuth_sum hK]
    have hk : 2 * Real.pi / K * K = 2 * Real.pi := by field_simp
    linear_combination (2 * (s * q) * (c * D.2.2 / 2 + s ^ 2 * (D.1 ^ 2 + D.2.1 ^ 2) / 4 + c ^ 2 * D.2.2 ^ 2 / 2)) * hk +
      (Real.pi * s * q * (D.1 ^ 2 + D.2.1 ^ 2)) * sc
  rw [Finset.sum_congr rfl inner, ← Finset.mul_sum, Finset.sum_add_distrib, Finset.sum_add_distrib, ← Finset.mul_sum, ← Finset.mul_sum, ← Finset.mul_sum,
    Finset.sum_sub_distrib, p1]
  set S1 := ∑ i ∈ Finset.range N, Real.sin ((2 * i + 1) * (Real.pi / (2 * N)))
  set B := ∑ i ∈ Finset.range N, Real.sin ((2 * i + 1) * (Real.pi / (2 * N))) * Real.cos ((2 * i + 1) * (Real.pi / (2 * N))) ^ 2
  have hD' : D.1 ^ 2 + D.2.1 ^ 2 = 1 - D.2.2 ^ 2 := by
    simp only [inner3] at hD
    linarith
  rw [hD']
  have z0 : 0 ≤ D.2.2 ^ 2 := sq_nonneg _
  have z1 : D.2.2 ^ 2 ≤ 1 := by nlinarith [sq_nonneg D.1, sq_nonneg D.2.1]
  have e : 2 * Real.pi * q * (D.2.2 * 0 + (1 - D.2.2 ^ 2) / 2 * (S1 - B) + D.2.2 ^ 2 * B) =
      2 * Real.pi * ((1 - D.2.2 ^ 2) / 2 * (S1 * q - B * q) + D.2.2 ^ 2 * (B * q)) := by ring
  rw [e, ← p2]
  generalize B * q = b at *
  generalize D.2.2 ^ 2 = z at *
  have : 1 / 4 ≤ (1 - z) / 2 * (1 - b) + z * b := by nlinarith
  nlinarith

end FloatVisible
end Verif
