import Verif.Model.Fibonacci
import Verif.Lemmas.Riemann
import Mathlib.Topology.ContinuousMap.StoneWeierstrass
import Mathlib.Topology.ContinuousMap.Weierstrass
import Mathlib.Algebra.BigOperators.Module
import Mathlib.NumberTheory.Real.Irrational
import Mathlib.Analysis.Calculus.MeanValue
import Mathlib.Analysis.Calculus.Deriv.Polynomial

/-!
# Spirals fill the sphere evenly: averages over the points of a spiral with an irrational turn
-/

namespace Verif
namespace Equidist
open Filter Topology

/-! ### Oscillating sums -/

/-- The height of point `i` of `n`. -/
noncomputable def height (n i : ℕ) : ℝ := (2 * i + 1) / n - 1

theorem height_mem {n i : ℕ} (hi : i < n) : height n i ∈ Set.Icc (-1 : ℝ) 1 := by
  have hn : (0 : ℝ) < n := by exact_mod_cast (by omega : 0 < n)
  have hi' : (i : ℝ) + 1 ≤ n := by exact_mod_cast hi
  unfold height
  constructor
  · have : 0 ≤ (2 * (i : ℝ) + 1) / n := by positivity
    linarith
  · have : (2 * (i : ℝ) + 1) / n ≤ 2 := by
      rw [div_le_iff₀ hn]; linarith
    linarith

theorem height_step (n i : ℕ) : height n (i + 1) - height n i = 2 / n := by
  unfold height; push_cast; ring

/-- Summation by parts: with bounded partial sums, a Lipschitz weight gives a bounded sum. -/
theorem sum_lipschitz {p : ℝ → ℝ} {B L C : ℝ} (hB : ∀ x ∈ Set.Icc (-1 : ℝ) 1, |p x| ≤ B)
    (hL : ∀ x ∈ Set.Icc (-1 : ℝ) 1, ∀ y ∈ Set.Icc (-1 : ℝ) 1, |p x - p y| ≤ L * |x - y|) {a : ℕ → ℂ}
    (ha : ∀ N, ‖∑ i ∈ Finset.range N, a i‖ ≤ C) {n : ℕ} (hn : 0 < n) :
    ‖∑ i ∈ Finset.range n, (p (height n i) : ℂ) * a i‖ ≤ (B + 2 * L) * C := by
  have hC : 0 ≤ C := (norm_nonneg _).trans (ha 0)
  have hL0 : 0 ≤ L := by
    have := hL 1 (by simp) (-1) (by simp)
    have h2 : |(1 : ℝ) - -1| = 2 := by norm_num
    rw [h2] at this
    have := abs_nonneg (p 1 - p (-1))
    linarith
  have hB0 : 0 ≤ B := (abs_nonneg _).trans (hB 1 (by simp))
  have e := Finset.sum_range_by_parts (fun i => (p (height n i) : ℂ)) a n
  simp only [smul_eq_mul] at e
  rw [e]
  refine (norm_sub_le _ _).trans ?_
  have h1 : ‖(p (height n (n - 1)) : ℂ) * ∑ i ∈ Finset.range n, a i‖ ≤ B * C := by
    rw [norm_mul, Complex.norm_real, Real.norm_eq_abs]
    exact mul_le_mul (hB _ (height_mem (by omega))) (ha n) (norm_nonneg _) hB0
  have h2 : ‖∑ i ∈ Finset.range (n - 1), ((p (height n (i + 1)) : ℂ) - p (height n i)) * ∑ j ∈ Finset.range (i + 1), a j‖
      ≤ 2 * L * C := by
    have hn' : (0 : ℝ) < n := by exact_mod_cast hn
    have hterm : ∀ i ∈ Finset.range (n - 1),
        ‖((p (height n (i + 1)) : ℂ) - p (height n i)) * ∑ j ∈ Finset.range (i + 1), a j‖ ≤ L * (2 / n) * C := by
      intro i hi
      rw [Finset.mem_range] at hi
      rw [norm_mul, ← Complex.ofReal_sub, Complex.norm_real, Real.norm_eq_abs]
      refine mul_le_mul ?_ (ha _) (norm_nonneg _) (by positivity)
      have := hL _ (height_mem (n := n) (i := i + 1) (by omega)) _ (height_mem (n := n) (i := i) (by omega))
      rwa [height_step, abs_of_nonneg (a := (2 : ℝ) / n) (by positivity)] at this
    refine (norm_sum_le _ _).trans ((Finset.sum_le_card_nsmul _ _ _ hterm).trans ?_)
    rw [Finset.card_range, nsmul_eq_mul]
    have h3 : ((n - 1 : ℕ) : ℝ) ≤ n := by exact_mod_cast Nat.sub_le n 1
    have h4 : ((n - 1 : ℕ) : ℝ) * (L * (2 / n) * C) ≤ n * (L * (2 / n) * C) :=
      mul_le_mul_of_nonneg_right h3 (by positivity)
    have h5 : (n : ℝ) * (L * (2 / n) * C) = 2 * L * C := by field_simp
    linarith
  nlinarith [h1, h2]

/-- Averages of a continuous weight against something with bounded partial sums vanish in the limit. -/
theorem osc_real {h : ℝ → ℝ} (hc : Continuous h) {a : ℕ → ℕ → ℂ} {C : ℝ} (h1 : ∀ n i, ‖a n i‖ ≤ 1)
    (ha : ∀ n N, ‖∑ i ∈ Finset.range N, a n i‖ ≤ C) :
    Tendsto (fun n : ℕ => (∑ i ∈ Finset.range n, (h (height n i) : ℂ) * a n i) / n) atTop (𝓝 0) := by
  rw [Metric.tendsto_nhds]
  intro ε hε
  obtain ⟨p, hp⟩ := exists_polynomial_near_of_continuousOn (-1) 1 h hc.continuousOn (ε / 2) (by positivity)
  obtain ⟨B, hB⟩ := isCompact_Icc (a := (-1 : ℝ)) (b := 1) |>.exists_bound_of_continuousOn
    (f := fun x => p.eval x) (by fun_prop)
  obtain ⟨L, hL⟩ := isCompact_Icc (a := (-1 : ℝ)) (b := 1) |>.exists_bound_of_continuousOn
    (f := fun x => p.derivative.eval x) (by fun_prop)
  have hlip : ∀ x ∈ Set.Icc (-1 : ℝ) 1, ∀ y ∈ Set.Icc (-1 : ℝ) 1, |p.eval x - p.eval y| ≤ L * |x - y| := by
    intro x hx y hy
    have := (convex_Icc (-1 : ℝ) 1).norm_image_sub_le_of_norm_hasDerivWithin_le (f := fun x => p.eval x)
      (f' := fun x => p.derivative.eval x) (C := L) (fun z hz => (p.hasDerivAt z).hasDerivWithinAt) hL hy hx
    simpa only [Real.norm_eq_abs] using this
  have hlim : Tendsto (fun n : ℕ => (B + 2 * L) * C / n) atTop (𝓝 0) := tendsto_const_div_atTop_nhds_zero_nat _
  filter_upwards [eventually_gt_atTop 0, hlim.eventually (gt_mem_nhds (half_pos hε))] with n hn hsmall
  have hn' : (0 : ℝ) < n := by exact_mod_cast hn
  rw [dist_zero_right, norm_div, Complex.norm_natCast, div_lt_iff₀ hn']
  have split : ∑ i ∈ Finset.range n, (h (height n i) : ℂ) * a n i =
      ∑ i ∈ Finset.range n, ((p.eval (height n i) : ℝ) : ℂ) * a n i -
        ∑ i ∈ Finset.range n, ((p.eval (height n i) - h (height n i) : ℝ) : ℂ) * a n i := by
    rw [← Finset.sum_sub_distrib]
    refine Finset.sum_congr rfl fun i _ => ?_
    push_cast; ring
  have b1 := sum_lipschitz (p := fun x => p.eval x) (B := B) (L := L) hB hlip (ha n) hn
  have b2 : ‖∑ i ∈ Finset.range n, ((p.eval (height n i) - h (height n i) : ℝ) : ℂ) * a n i‖ ≤ n * (ε / 2) := by
    have hterm : ∀ i ∈ Finset.range n, ‖((p.eval (height n i) - h (height n i) : ℝ) : ℂ) * a n i‖ ≤ ε / 2 := by
      intro i hi
      rw [Finset.mem_range] at hi
      rw [norm_mul, Complex.norm_real, Real.norm_eq_abs]
      have := hp _ (height_mem hi)
      have h2 := mul_le_mul this.le (h1 n i) (norm_nonneg _) (by positivity)
      simpa using h2
    refine (norm_sum_le _ _).trans ((Finset.sum_le_card_nsmul _ _ _ hterm).trans ?_)
    rw [Finset.card_range, nsmul_eq_mul]
  rw [div_lt_iff₀ hn'] at hsmall
  rw [split]
  refine (norm_sub_le _ _).trans_lt ?_
  have : ε * n = ε / 2 * n + n * (ε / 2) := by ring
  linarith

theorem osc {h : ℝ → ℂ} (hc : Continuous h) {a : ℕ → ℕ → ℂ} {C : ℝ} (h1 : ∀ n i, ‖a n i‖ ≤ 1)
    (ha : ∀ n N, ‖∑ i ∈ Finset.range N, a n i‖ ≤ C) :
    Tendsto (fun n : ℕ => (∑ i ∈ Finset.range n, h (height n i) * a n i) / n) atTop (𝓝 0) := by
  have hre := osc_real (Complex.continuous_re.comp hc) h1 ha
  have him := (osc_real (Complex.continuous_im.comp hc) h1 ha).mul_const Complex.I
  have := hre.add him
  rw [zero_mul, add_zero] at this
  refine this.congr fun n => ?_
  simp only [Function.comp_apply]
  rw [div_mul_eq_mul_div, ← add_div, Finset.sum_mul, ← Finset.sum_add_distrib]
  congr 1
  refine Finset.sum_congr rfl fun i _ => ?_
  conv_rhs => rw [← Complex.re_add_im (h (height n i))]
  ring

/-! ### Geometric sums -/

theorem geom_bound {w : ℂ} (hw : ‖w‖ = 1) (hw1 : w ≠ 1) (N : ℕ) : ‖∑ i ∈ Finset.range N, w ^ i‖ ≤ 2 / ‖w - 1‖ := by
  rw [geom_sum_eq hw1, norm_div]
  refine div_le_div_of_nonneg_right ?_ (norm_nonneg _)
  refine (norm_sub_le _ _).trans ?_
  rw [norm_pow, hw]; norm_num

/-- Turns by a fixed angle, with one jump. -/
theorem jump_bound {w c d : ℂ} (hw : ‖w‖ = 1) (hw1 : w ≠ 1) (hc : ‖c‖ = 1) (hd : ‖d‖ = 1) (k : ℕ) {a : ℕ → ℂ}
    (ha : ∀ i, a i = if i < k then c * w ^ i else d * w ^ i) (N : ℕ) :
    ‖∑ i ∈ Finset.range N, a i‖ ≤ 6 / ‖w - 1‖ := by
  have e : ∑ i ∈ Finset.range N, a i = c * ∑ i ∈ Finset.range (min N k), w ^ i +
      d * (∑ i ∈ Finset.range N, w ^ i - ∑ i ∈ Finset.range (min N k), w ^ i) := by
    induction N with
    | zero => simp
    | succ N ih =>
      rw [Finset.sum_range_succ, ih, ha]
      by_cases h : N < k
      · rw [if_pos h, min_eq_left (Nat.succ_le_of_lt h), min_eq_left h.le, Finset.sum_range_succ]; ring
      · rw [if_neg h, min_eq_right (by omega : k ≤ N + 1), min_eq_right (by omega : k ≤ N), Finset.sum_range_succ]; ring
  rw [e]
  have b := geom_bound hw hw1
  have h6 : 6 / ‖w - 1‖ = 2 / ‖w - 1‖ + (2 / ‖w - 1‖ + 2 / ‖w - 1‖) := by ring
  rw [h6]
  refine (norm_add_le _ _).trans (add_le_add ?_ ?_)
  · rw [norm_mul, hc, one_mul]; exact b _
  · rw [norm_mul, hd, one_mul]; exact (norm_sub_le _ _).trans (add_le_add (b _) (b _))

/-! ### The golden angle -/

/-- The turn from one point to the next. -/
noncomputable def golden : ℝ := Real.pi * (3 - Real.sqrt 5)

/-- `exp(i m x)` -/
noncomputable def ex (m : ℤ) (x : ℝ) : ℂ := Complex.exp (Complex.I * m * x)

theorem ex_norm (m : ℤ) (x : ℝ) : ‖ex m x‖ = 1 := by
  unfold ex
  rw [show Complex.I * m * (x : ℂ) = ((m * x : ℝ) : ℂ) * Complex.I by push_cast; ring, Complex.norm_exp_ofReal_mul_I]

theorem ex_add (m : ℤ) (x y : ℝ) : ex m (x + y) = ex m x * ex m y := by
  unfold ex; rw [← Complex.exp_add]; push_cast; ring_nf

theorem ex_nat (m : ℤ) (x : ℝ) (i : ℕ) : ex m (i * x) = ex m x ^ i := by
  unfold ex; rw [← Complex.exp_nat_mul]; push_cast; ring_nf

theorem ex_mul (m k : ℤ) (x : ℝ) : ex m x * ex k x = ex (m + k) x := by
  unfold ex; rw [← Complex.exp_add]; push_cast; ring_nf

theorem ex_zero (x : ℝ) : ex 0 x = 1 := by simp [ex]

/-- No multiple of the golden angle is a number of full turns. -/
theorem golden_ne {m : ℤ} (hm : m ≠ 0) : ex m golden ≠ 1 := by
  intro h
  unfold ex at h
  rw [Complex.exp_eq_one_iff] at h
  obtain ⟨k, hk⟩ := h
  have h1 : (m : ℝ) * golden = k * (2 * Real.pi) := by
    have h2 : Complex.I * ((m : ℝ) * golden : ℝ) = Complex.I * ((k * (2 * Real.pi) : ℝ) : ℂ) := by
      push_cast; push_cast at hk; rw [← mul_assoc, hk]; ring
    exact_mod_cast mul_left_cancel₀ Complex.I_ne_zero h2
  have hm' : (m : ℝ) ≠ 0 := by exact_mod_cast hm
  have h3 : (m : ℝ) * (3 - Real.sqrt 5) = 2 * k := by
    unfold golden at h1
    have := Real.pi_pos.ne'
    have h4 : Real.pi * ((m : ℝ) * (3 - Real.sqrt 5)) = Real.pi * (2 * k) := by linarith
    exact mul_left_cancel₀ this h4
  have h5 : Real.sqrt 5 = ((3 - 2 * k / m : ℚ) : ℝ) := by
    push_cast
    field_simp
    linarith
  have hirr : Irrational (Real.sqrt 5) := by
    have := Nat.Prime.irrational_sqrt (p := 5) (by decide)
    exact_mod_cast this
  exact hirr ⟨_, h5.symm⟩

/-- The azimuth of point `i` of `n`. -/
noncomputable def azim (n : ℕ) (rnd : ℝ) (i : ℕ) : ℝ := pyFMod (i + rnd) n * golden

theorem fibPoint_eq (n : ℕ) (rnd : ℝ) (i : ℕ) : fibPoint n rnd i =
    (Real.cos (azim n rnd i) * Real.sqrt (1 - height n i ^ 2), height n i,
      Real.sin (azim n rnd i) * Real.sqrt (1 - height n i ^ 2)) := by
  have e : ((i : ℝ) * (2 / n) - 1) + 2 / n / 2 = height n i := by unfold height; ring
  simp only [fibPoint, azim, golden, e]

theorem azim_jump {n : ℕ} (hn : 0 < n) {rnd : ℝ} (h0 : 0 ≤ rnd) (h1 : rnd ≤ n) (m : ℤ) :
    ∃ (k : ℕ) (c d : ℂ), ‖c‖ = 1 ∧ ‖d‖ = 1 ∧ ∀ i < n, ex m (azim n rnd i) = if i < k then c * ex m golden ^ i else d * ex m golden ^ i := by
  have hn' : (0 : ℝ) < n := by exact_mod_cast hn
  refine ⟨⌈(n : ℝ) - rnd⌉₊, ex m (rnd * golden), ex m ((rnd - n) * golden), ex_norm _ _, ex_norm _ _, fun i hi => ?_⟩
  have hi' : (i : ℝ) + 1 ≤ n := by exact_mod_cast hi
  rw [← ex_nat]
  unfold azim pyFMod
  split_ifs with h <;> rw [Nat.lt_ceil] at h
  · have hf : ⌊((i : ℝ) + rnd) / n⌋ = 0 := by
      rw [Int.floor_eq_zero_iff]
      exact ⟨by positivity, by rw [div_lt_one hn']; linarith⟩
    rw [hf, ← ex_add]; congr 1; push_cast; ring
  · have hf : ⌊((i : ℝ) + rnd) / n⌋ = 1 := by
      rw [Int.floor_eq_iff]
      push_cast
      exact ⟨by rw [le_div_iff₀ hn']; linarith, by rw [div_lt_iff₀ hn']; linarith⟩
    rw [hf, ← ex_add]; congr 1; push_cast; ring

/-- Averages of one harmonic over the points vanish in the limit. -/
theorem osc_azim {h : ℝ → ℂ} (hc : Continuous h) {rnd : ℕ → ℝ} (h0 : ∀ n, 0 ≤ rnd n) (h1 : ∀ n, 0 < n → rnd n ≤ n) {m : ℤ} (hm : m ≠ 0) :
    Tendsto (fun n : ℕ => (∑ i ∈ Finset.range n, h (height n i) * ex m (azim n (rnd n) i)) / n) atTop (𝓝 0) := by
  have hex : ∀ n : ℕ, ∃ a : ℕ → ℂ, (∀ i < n, a i = ex m (azim n (rnd n) i)) ∧ (∀ i, ‖a i‖ ≤ 1) ∧
      ∀ N, ‖∑ i ∈ Finset.range N, a i‖ ≤ 6 / ‖ex m golden - 1‖ := by
    intro n
    rcases Nat.eq_zero_or_pos n with rfl | hn
    · exact ⟨fun _ => 0, by simp, by simp, fun N => by simp; positivity⟩
    · obtain ⟨k, c, d, hc, hd, h⟩ := azim_jump hn (h0 n) (h1 n hn) m
      refine ⟨fun i => if i < k then c * ex m golden ^ i else d * ex m golden ^ i, fun i hi => (h i hi).symm, fun i => ?_,
        jump_bound (ex_norm _ _) (golden_ne hm) hc hd k fun i => rfl⟩
      dsimp only
      split_ifs <;> simp [hc, hd, ex_norm]
  choose a ha1 ha2 ha3 using hex
  refine (osc hc ha2 ha3).congr fun n => ?_
  congr 1
  exact Finset.sum_congr rfl fun i hi => by rw [ha1 n i (Finset.mem_range.1 hi)]

end Equidist
end Verif
