import Verif.Lemmas.Parseval
import Mathlib.Topology.UniformSpace.HeineCantor
import Mathlib.Algebra.Field.GeomSum

/-!
# Sums over equidistant points: midpoint sums and discrete orthogonality
-/

namespace Verif
namespace Riemann
open Zdi Parseval intervalIntegral Filter Topology

/-- Middle of cell `j` of `n` cells of `[0, b]`. -/
noncomputable def node (b : ℝ) (n j : ℕ) : ℝ := ((j : ℝ) + 1 / 2) * (b / n)

/-- The midpoint sum. -/
noncomputable def midSum (b : ℝ) (n : ℕ) (h : ℝ → ℝ) : ℝ := b / n * ∑ j ∈ Finset.range n, h (node b n j)

theorem node_mem {b : ℝ} (hb : 0 < b) {n j : ℕ} (hj : j < n) : 0 < node b n j ∧ node b n j < b := by
  have hn : (0 : ℝ) < n := by exact_mod_cast (by omega : 0 < n)
  have hj' : (j : ℝ) + 1 ≤ n := by exact_mod_cast hj
  unfold node
  constructor
  · positivity
  · rw [← mul_div_assoc, div_lt_iff₀ hn]
    nlinarith

/-- The error of a midpoint sum, by the oscillation of the function. -/
theorem midSum_close {b : ℝ} (hb : 0 < b) {h : ℝ → ℝ} (hc : Continuous h) {δ ε : ℝ}
    (hu : ∀ x y, 0 ≤ x → x ≤ b → 0 ≤ y → y ≤ b → |x - y| < δ → |h x - h y| ≤ ε) {n : ℕ} (hn : 0 < n) (hstep : b / n < δ) :
    |midSum b n h - ∫ x in (0 : ℝ)..b, h x| ≤ ε * b := by
  have hnpos : (0 : ℝ) < n := by exact_mod_cast hn
  have hs0 : 0 < b / n := by positivity
  set s := b / n with hs
  have hnode : ∀ j, node b n j = ((j : ℝ) + 1 / 2) * s := fun j => rfl
  have hsplit : ∫ x in (0 : ℝ)..b, h x = ∑ j ∈ Finset.range n, ∫ x in ((j : ℝ) * s)..((j + 1 : ℕ) : ℝ) * s, h x := by
    have := sum_integral_adjacent_intervals (a := fun j : ℕ => (j : ℝ) * s) (n := n) (f := h)
      (μ := MeasureTheory.volume) (fun k _ => hc.intervalIntegrable _ _)
    rw [this]
    simp only [Nat.cast_zero, zero_mul]
    congr 1
    rw [hs]; field_simp
  have hcell : ∀ j ∈ Finset.range n, |s * h (node b n j) - ∫ x in ((j : ℝ) * s)..((j + 1 : ℕ) : ℝ) * s, h x|
      ≤ ε * s := by
    intro j hj
    rw [Finset.mem_range] at hj
    have hle : (j : ℝ) * s ≤ ((j + 1 : ℕ) : ℝ) * s := by push_cast; nlinarith
    have hlen : ((j + 1 : ℕ) : ℝ) * s - (j : ℝ) * s = s := by push_cast; ring
    have hconst : s * h (node b n j) = ∫ _ in ((j : ℝ) * s)..((j + 1 : ℕ) : ℝ) * s, h (node b n j) := by
      rw [integral_const, hlen, smul_eq_mul]
    rw [hconst, ← integral_sub (by simp) (hc.intervalIntegrable _ _)]
    have hb' := norm_integral_le_of_norm_le_const (a := (j : ℝ) * s) (b := ((j + 1 : ℕ) : ℝ) * s)
      (f := fun x => h (node b n j) - h x) (C := ε) (fun x hx => by
        rw [Set.uIoc_of_le hle] at hx
        have hjn : ((j : ℝ) + 1) * s ≤ b := by
          have h1 : ((j : ℝ) + 1) ≤ n := by exact_mod_cast hj
          have h2 : (n : ℝ) * s = b := by rw [hs]; field_simp
          nlinarith
        have hx2 : x ≤ ((j : ℝ) + 1) * s := by have := hx.2; push_cast at this; exact this
        have hj0 : (0 : ℝ) ≤ (j : ℝ) * s := by positivity
        have hnm := node_mem hb hj
        exact hu (node b n j) x hnm.1.le hnm.2.le (by linarith [hx.1]) (by linarith) (by
          rw [hnode, abs_lt]
          constructor <;> nlinarith [hx.1]))
    rw [hlen, abs_of_pos hs0] at hb'
    exact hb'
  rw [midSum, Finset.mul_sum, hsplit, ← Finset.sum_sub_distrib]
  calc _ ≤ ∑ j ∈ Finset.range n, |s * h (node b n j) - ∫ x in ((j : ℝ) * s)..((j + 1 : ℕ) : ℝ) * s, h x| :=
        Finset.abs_sum_le_sum_abs _ _
    _ ≤ ∑ j ∈ Finset.range n, ε * s := Finset.sum_le_sum hcell
    _ = ε * b := by rw [Finset.sum_const, Finset.card_range, nsmul_eq_mul, hs]; field_simp

/-- Cells get small. -/
theorem step_lt {b δ : ℝ} (hb : 0 < b) (hδ : 0 < δ) : ∀ᶠ n : ℕ in atTop, 0 < n ∧ b / n < δ := by
  obtain ⟨n0, hn0⟩ := exists_nat_gt (b / δ)
  filter_upwards [eventually_ge_atTop (n0 + 1)] with n hn
  have hnpos : (0 : ℝ) < n := by exact_mod_cast (by omega : 0 < n)
  refine ⟨by omega, ?_⟩
  rw [div_lt_iff₀ hnpos]
  rw [div_lt_iff₀ hδ] at hn0
  have : (n0 : ℝ) ≤ n := by exact_mod_cast (by omega : n0 ≤ n)
  nlinarith

/-- Midpoint sums of a continuous function converge to its integral. -/
theorem midSum_tendsto {b : ℝ} (hb : 0 < b) {h : ℝ → ℝ} (hc : Continuous h) :
    Tendsto (fun n => midSum b n h) atTop (𝓝 (∫ x in (0 : ℝ)..b, h x)) := by
  rw [Metric.tendsto_nhds]
  intro ε hε
  have huc := isCompact_Icc (a := (0 : ℝ)) (b := b) |>.uniformContinuousOn_of_continuous hc.continuousOn
  rw [Metric.uniformContinuousOn_iff] at huc
  obtain ⟨δ, hδ, hu⟩ := huc (ε / (2 * b)) (by positivity)
  filter_upwards [step_lt hb hδ] with n hn
  rw [Real.dist_eq]
  have := midSum_close hb hc (ε := ε / (2 * b)) (fun x y x0 x1 y0 y1 hxy => by
    have := hu x ⟨x0, x1⟩ y ⟨y0, y1⟩ hxy
    rw [Real.dist_eq] at this; exact this.le) hn.1 hn.2
  have e : ε / (2 * b) * b = ε / 2 := by field_simp
  rw [e] at this
  linarith

/-- The same in two dimensions, for any way of refining both. -/
theorem midSum2_tendsto {a b : ℝ} (ha : 0 < a) (hb : 0 < b) {h : ℝ → ℝ → ℝ} (hc : Continuous fun p : ℝ × ℝ => h p.1 p.2)
    {N K : ℕ → ℕ} (hN : Tendsto N atTop atTop) (hK : Tendsto K atTop atTop) :
    Tendsto (fun n => midSum b (K n) fun y => midSum a (N n) fun x => h x y) atTop
      (𝓝 (∫ y in (0 : ℝ)..b, ∫ x in (0 : ℝ)..a, h x y)) := by
  have hH : Continuous fun y => ∫ x in (0 : ℝ)..a, h x y :=
    continuous_parametric_intervalIntegral_of_continuous' (f := fun y x => h x y) (hc.comp continuous_swap) 0 a
  have h1 : Tendsto (fun n => midSum b (K n) fun y => ∫ x in (0 : ℝ)..a, h x y) atTop
      (𝓝 (∫ y in (0 : ℝ)..b, ∫ x in (0 : ℝ)..a, h x y)) := (midSum_tendsto hb hH).comp hK
  have h2 : Tendsto (fun n => (midSum b (K n) fun y => midSum a (N n) fun x => h x y)
      - midSum b (K n) fun y => ∫ x in (0 : ℝ)..a, h x y) atTop (𝓝 0) := by
    rw [Metric.tendsto_nhds]
    intro ε hε
    have huc := (isCompact_Icc (a := (0 : ℝ)) (b := a)).prod (isCompact_Icc (a := (0 : ℝ)) (b := b))
      |>.uniformContinuousOn_of_continuous hc.continuousOn
    rw [Metric.uniformContinuousOn_iff] at huc
    obtain ⟨δ, hδ, hu⟩ := huc (ε / (2 * a * b)) (by positivity)
    filter_upwards [hN.eventually (step_lt ha hδ), hK.eventually (step_lt hb one_pos)] with n hn hk
    rw [Real.dist_eq, sub_zero]
    have hk0 : (0 : ℝ) < K n := by exact_mod_cast hk.1
    have key : ∀ j ∈ Finset.range (K n), |(midSum a (N n) fun x => h x (node b (K n) j))
        - ∫ x in (0 : ℝ)..a, h x (node b (K n) j)| ≤ ε / (2 * b) := by
      intro j hj
      have hnm := node_mem hb (Finset.mem_range.1 hj)
      have := midSum_close ha (h := fun x => h x (node b (K n) j))
        (hc.comp (continuous_id.prodMk continuous_const)) (ε := ε / (2 * a * b)) (fun x y x0 x1 y0 y1 hxy => by
          have := hu (x, node b (K n) j) ⟨⟨x0, x1⟩, hnm.1.le, hnm.2.le⟩ (y, node b (K n) j)
            ⟨⟨y0, y1⟩, hnm.1.le, hnm.2.le⟩ (by rw [Prod.dist_eq, dist_self, Real.dist_eq, max_eq_left (abs_nonneg _)]; exact hxy)
          rw [Real.dist_eq] at this; exact this.le) hn.1 hn.2
      have e : ε / (2 * a * b) * a = ε / (2 * b) := by field_simp
      rwa [e] at this
    rw [midSum, midSum, ← mul_sub, ← Finset.sum_sub_distrib, abs_mul, abs_of_pos (by positivity)]
    calc _ ≤ b / K n * ∑ j ∈ Finset.range (K n), ε / (2 * b) := by
          gcongr
          exact (Finset.abs_sum_le_sum_abs _ _).trans (Finset.sum_le_sum key)
      _ = ε / 2 := by rw [Finset.sum_const, Finset.card_range, nsmul_eq_mul]; field_simp
      _ < ε := by linarith
  have := h2.add h1
  simpa using this

/-- Discrete orthogonality in azimuth. -/
theorem sum_expi {k : ℕ} {j : ℤ} (hj : |j| < k) :
    (2 * Real.pi / k : ℂ) * ∑ i ∈ Finset.range k, expi j (node (2 * Real.pi) k i)
      = if j = 0 then (2 * Real.pi : ℂ) else 0 := by
  have hk : (0 : ℤ) < k := lt_of_le_of_lt (abs_nonneg j) hj
  have hkn : k ≠ 0 := by omega
  have hkc : (k : ℂ) ≠ 0 := by exact_mod_cast hkn
  split_ifs with h
  · subst h
    simp only [expi, Int.cast_zero, mul_zero, zero_mul, Complex.exp_zero, Finset.sum_const, Finset.card_range, nsmul_eq_mul,
      mul_one]
    field_simp
  · set w : ℂ := Complex.exp (Complex.I * j * (2 * Real.pi / k)) with hw
    have e : ∀ i, expi j (node (2 * Real.pi) k i) = Complex.exp (Complex.I * j * (Real.pi / k)) * w ^ i := by
      intro i
      rw [hw, ← Complex.exp_nat_mul, ← Complex.exp_add, expi, node]
      congr 1
      push_cast
      ring
    simp only [e]
    rw [← Finset.mul_sum]
    have hwk : w ^ k = 1 := by
      rw [hw, ← Complex.exp_nat_mul, ← Complex.exp_int_mul_two_pi_mul_I j]
      congr 1
      field_simp
    have hw1 : w ≠ 1 := by
      intro h1
      rw [hw, Complex.exp_eq_one_iff] at h1
      obtain ⟨n, hn⟩ := h1
      have hpi : (Real.pi : ℂ) ≠ 0 := by exact_mod_cast Real.pi_ne_zero
      have h2 : (j : ℂ) = n * k := by
        have h3 : (2 * Real.pi * Complex.I : ℂ) ≠ 0 := by simp [hpi]
        apply mul_left_cancel₀ h3
        field_simp at hn
        linear_combination 2 * Real.pi * Complex.I * hn
      have h4 : j = n * k := by exact_mod_cast h2
      have hn0 : n ≠ 0 := by rintro rfl; simp at h4; exact h h4
      have : (k : ℤ) ≤ |j| := by
        rw [h4, abs_mul, Nat.abs_cast]
        have := Int.one_le_abs hn0
        nlinarith
      omega
    rw [geom_sum_eq hw1, hwk, sub_self, zero_div, mul_zero, mul_zero]

/-- The azimuthal sum of a real harmonic against a complex one. -/
theorem sum_pair {k : ℕ} {m n : ℤ} (hm : 0 ≤ m) (hn : 0 ≤ n) (hk : m + n < k) (x : ℂ) :
    (2 * Real.pi / k : ℂ) * ∑ i ∈ Finset.range k,
        (((x * expi n (node (2 * Real.pi) k i)).re : ℝ) : ℂ) * expi (-m) (node (2 * Real.pi) k i)
      = if n = m then Real.pi * (x + if m = 0 then (starRingEnd ℂ) x else 0) else 0 := by
  have e : ∀ φ, (((x * expi n φ).re : ℝ) : ℂ) * expi (-m) φ
      = (x / 2) * expi (n - m) φ + ((starRingEnd ℂ) x / 2) * expi (-(n + m)) φ := by
    intro φ
    rw [Complex.re_eq_add_conj, map_mul, conj_expi, show n - m = n + -m by ring, show -(n + m) = -n + -m by ring, ← expi_add,
      ← expi_add]
    ring
  simp only [e]
  rw [Finset.sum_add_distrib, ← Finset.mul_sum, ← Finset.mul_sum]
  have h1 := sum_expi (k := k) (j := n - m) (by rw [abs_lt]; omega)
  have h2 := sum_expi (k := k) (j := -(n + m)) (by rw [abs_lt]; omega)
  calc _ = x / 2 * ((2 * Real.pi / k : ℂ) * ∑ i ∈ Finset.range k, expi (n - m) (node (2 * Real.pi) k i))
      + (starRingEnd ℂ) x / 2 * ((2 * Real.pi / k : ℂ) * ∑ i ∈ Finset.range k, expi (-(n + m)) (node (2 * Real.pi) k i)) := by
        ring
    _ = _ := by
      rw [h1, h2]
      by_cases hnm : n = m
      · subst hnm
        by_cases h0 : n = 0
        · subst h0; simp; ring
        · rw [if_pos (by omega), if_neg (by omega), if_pos rfl, if_neg h0]; ring
      · rw [if_neg (by omega), if_neg (by omega), if_neg hnm]; ring

end Riemann
end Verif
