import Verif.Props.Parker
import Mathlib.Analysis.Calculus.InverseFunctionTheorem.Deriv
import Mathlib.Analysis.SpecialFunctions.Log.Deriv
import Mathlib.Topology.Order.MonotoneContinuity

/-!
# Property C121: the Parker wind obeys the equation of motion
-/

namespace Verif
open Parker Spec Filter Topology

namespace Parker

theorem rhs_continuousOn : ContinuousOn rhs (Set.Ioi 0) := by
  unfold rhs
  have h0 : ∀ x ∈ Set.Ioi (0 : ℝ), x ≠ 0 := fun x hx => (show (0 : ℝ) < x from hx).ne'
  refine ContinuousOn.add (continuousOn_const.mul (Real.continuousOn_log.mono h0)) (continuousOn_const.mul
    ((continuousOn_const.div continuousOn_id h0).sub continuousOn_const))

theorem rhs_large_in (C : ℝ) (hC : 0 ≤ C) : ∃ r : ℝ, 0 < r ∧ r ≤ 1 ∧ C ≤ rhs r := by
  have hy : (1 : ℝ) ≤ 2 + C := by linarith
  have hy0 : (0 : ℝ) < 2 + C := by linarith
  refine ⟨1 / (2 + C) ^ 2, by positivity, ?_, ?_⟩
  · rw [div_le_one (by positivity)]; nlinarith
  · have h1 : Real.log (1 / (2 + C) ^ 2) = -(2 * Real.log (2 + C)) := by
      rw [one_div, Real.log_inv, Real.log_pow]; push_cast; rfl
    have h2 := Real.log_le_sub_one_of_pos hy0
    rw [rhs, h1, one_div_one_div]
    nlinarith

theorem rhs_large_out (C : ℝ) (hC : 0 ≤ C) : ∃ r : ℝ, 1 ≤ r ∧ C ≤ rhs r := by
  refine ⟨Real.exp (C / 4 + 1), Real.one_le_exp (by linarith), ?_⟩
  have h : 0 < 1 / Real.exp (C / 4 + 1) := by positivity
  rw [rhs, Real.log_exp]
  linarith

theorem lhs_inj_in {a b : ℝ} (ha : 0 < a) (hb : 0 < b) (ha1 : a ≤ 1) (hb1 : b ≤ 1) (h : lhs a = lhs b) : a = b := by
  rcases lt_trichotomy a b with h1 | h1 | h1
  · have := lhs_anti ha h1 hb1; linarith
  · exact h1
  · have := lhs_anti hb h1 ha1; linarith

theorem lhs_inj_out {a b : ℝ} (ha : 1 ≤ a) (hb : 1 ≤ b) (h : lhs a = lhs b) : a = b := by
  rcases lt_trichotomy a b with h1 | h1 | h1
  · have := lhs_mono ha h1; linarith
  · exact h1
  · have := lhs_mono hb h1; linarith

theorem lhs_nonneg {u : ℝ} (hu : 0 < u) : 0 ≤ lhs u := by
  rcases lt_trichotomy u 1 with h | rfl | h
  · have := lhs_anti hu h le_rfl; rw [lhs_one] at this; exact this.le
  · exact lhs_one.ge
  · have := lhs_mono le_rfl h; rw [lhs_one] at this; exact this.le

theorem find_lhs {r : ℝ} (hr : 0 < r) : lhs (find r) = rhs r := (C51_transonic r hr).2.1

theorem find_pos {r : ℝ} (hr : 0 < r) : 0 < find r := (C51_transonic r hr).1

theorem find_one : find 1 = 1 := (C51_transonic 1 one_pos).2.2.2.1 rfl

/-- Every speed is reached. -/
theorem find_surj {u : ℝ} (hu : 0 < u) : ∃ r, 0 < r ∧ find r = u := by
  have h0 := lhs_nonneg hu
  rcases le_or_gt u 1 with h | h
  · obtain ⟨a, a0, a1, ha⟩ := rhs_large_in _ h0
    have hc : ContinuousOn rhs (Set.Icc a 1) := rhs_continuousOn.mono fun x hx => lt_of_lt_of_le a0 hx.1
    obtain ⟨r, ⟨r1, r2⟩, hr⟩ := intermediate_value_Icc' a1 hc (show lhs u ∈ Set.Icc (rhs 1) (rhs a) from ⟨by rw [rhs_one]; exact h0, ha⟩)
    have r0 : 0 < r := lt_of_lt_of_le a0 r1
    refine ⟨r, r0, ?_⟩
    have hf : find r ≤ 1 := by
      rcases r2.lt_or_eq with h | rfl
      · exact ((C51_transonic r r0).2.2.1 h).le
      · exact find_one.le
    exact lhs_inj_in (find_pos r0) hu hf h ((find_lhs r0).trans hr)
  · obtain ⟨b, b1, hb⟩ := rhs_large_out _ h0
    have hc : ContinuousOn rhs (Set.Icc 1 b) := rhs_continuousOn.mono fun x hx => lt_of_lt_of_le one_pos hx.1
    obtain ⟨r, ⟨r1, r2⟩, hr⟩ := intermediate_value_Icc b1 hc (show lhs u ∈ Set.Icc (rhs 1) (rhs b) from ⟨by rw [rhs_one]; exact h0, hb⟩)
    have r0 : 0 < r := lt_of_lt_of_le one_pos r1
    refine ⟨r, r0, ?_⟩
    have hf : 1 ≤ find r := by
      rcases r1.lt_or_eq with h | rfl
      · exact ((C51_transonic r r0).2.2.2.2 h).le
      · exact find_one.ge
    exact lhs_inj_out hf h.le ((find_lhs r0).trans hr)

theorem find_continuousAt {r : ℝ} (hr : 0 < r) : ContinuousAt find r := by
  have hm : StrictMonoOn find (Set.Ioi 0) := fun a ha b _ hab => C51_increasing a b ha hab
  refine hm.continuousAt_of_image_mem_nhds (Ioi_mem_nhds hr) ?_
  have : find '' Set.Ioi 0 = Set.Ioi 0 := by
    ext u
    constructor
    · rintro ⟨x, hx, rfl⟩; exact find_pos hx
    · intro hu
      obtain ⟨x, hx, e⟩ := find_surj hu
      exact ⟨x, hx, e⟩
  rw [this]
  exact Ioi_mem_nhds (find_pos hr)

theorem lhs_deriv {u : ℝ} (hu : 0 < u) : HasStrictDerivAt lhs (2 * u - 2 / u) u := by
  have h1 := (hasStrictDerivAt_pow 2 u).sub_const 1
  have h2 := (Real.hasStrictDerivAt_log hu.ne').const_mul 2
  have h3 : HasStrictDerivAt lhs _ u := h1.sub h2
  convert h3 using 1
  norm_num
  rfl

theorem rhs_deriv {r : ℝ} (hr : 0 < r) : HasDerivAt rhs (4 / r - 4 / r ^ 2) r := by
  have h1 := (Real.hasDerivAt_log hr.ne').const_mul 4
  have h2 := ((hasDerivAt_inv hr.ne').sub_const 1).const_mul 4
  have h3 := h1.add h2
  have e : rhs = fun x => 4 * Real.log x + 4 * (x⁻¹ - 1) := by
    funext x; rw [rhs, one_div]
  rw [e]
  have e2 : 4 / r - 4 / r ^ 2 = 4 * r⁻¹ + 4 * -(r ^ 2)⁻¹ := by ring
  rw [e2]
  exact h3

theorem find_deriv_off {r : ℝ} (hr : 0 < r) (h1 : r ≠ 1) :
    HasDerivAt find ((2 * find r - 2 / find r)⁻¹ * (4 / r - 4 / r ^ 2)) r := by
  have hu := find_pos hr
  have hne : find r ≠ 1 := by
    rcases lt_or_gt_of_ne h1 with h | h
    · exact ((C51_transonic r hr).2.2.1 h).ne
    · exact ((C51_transonic r hr).2.2.2.2 h).ne'
  have hd0 : 2 * find r - 2 / find r ≠ 0 := by
    intro h
    have h2 : find r ^ 2 = 1 := by field_simp at h; linarith
    exact hne (by nlinarith)
  have hl := lhs_deriv hu
  have hinv := (hl.to_localInverse hd0).hasDerivAt
  rw [find_lhs hr] at hinv
  have hcomp := hinv.comp r (rhs_deriv hr)
  refine hcomp.congr_of_eventuallyEq ?_
  have e1 := (find_continuousAt hr).eventually (hl.eventually_left_inverse hd0)
  filter_upwards [e1, Ioi_mem_nhds hr] with x hx h0
  rw [Function.comp, ← find_lhs h0, hx]

theorem log_near {t : ℝ} (h : |t| ≤ 1 / 2) : |Real.log (1 + t) - (t - t ^ 2 / 2)| ≤ 2 * |t| ^ 3 := by
  have h1 : |(-t)| < 1 := by rw [abs_neg]; linarith
  have := Real.abs_log_sub_add_sum_range_le h1 2
  rw [abs_neg] at this
  simp only [Finset.sum_range_succ, Finset.sum_range_zero, sub_neg_eq_add] at this
  have h2 : |t| ^ (2 + 1) / (1 - |t|) ≤ 2 * |t| ^ 3 := by
    rw [div_le_iff₀ (by linarith)]
    have : 0 ≤ |t| ^ 3 := by positivity
    norm_num
    nlinarith
  refine le_trans (le_of_eq ?_) (this.trans h2)
  congr 1
  push_cast
  ring

theorem lhs_near {t : ℝ} (h : |t| ≤ 1 / 2) : |lhs (1 + t) - 2 * t ^ 2| ≤ 4 * |t| ^ 3 := by
  have h1 := log_near h
  rw [lhs]
  have e : (1 + t) ^ 2 - 1 - 2 * Real.log (1 + t) - 2 * t ^ 2 = -2 * (Real.log (1 + t) - (t - t ^ 2 / 2)) := by ring
  rw [e, abs_mul]
  norm_num
  linarith

theorem rhs_near {y : ℝ} (h : |y| ≤ 1 / 2) : |rhs (1 + y) - 2 * y ^ 2| ≤ 16 * |y| ^ 3 := by
  have h1 := log_near h
  have hy := abs_le.1 h
  have hp : (0 : ℝ) < 1 + y := by linarith
  rw [rhs]
  have e : 4 * Real.log (1 + y) + 4 * (1 / (1 + y) - 1) - 2 * y ^ 2 =
      4 * (Real.log (1 + y) - (y - y ^ 2 / 2)) + (-4) * (y ^ 3 / (1 + y)) := by
    field_simp
    ring
  rw [e]
  refine (abs_add_le _ _).trans ?_
  rw [abs_mul, abs_mul, abs_div, abs_pow, abs_of_pos hp]
  have h3 : 0 ≤ |y| ^ 3 := by positivity
  have h2 : |y| ^ 3 / (1 + y) ≤ 2 * |y| ^ 3 := by
    rw [div_le_iff₀ hp]; nlinarith
  norm_num
  linarith

/-- Through the sonic point. -/
theorem find_deriv_one : HasDerivAt find 1 1 := by
  rw [hasDerivAt_iff_isLittleO]
  have hB : (fun x' => find x' - find 1 - (x' - 1) • (1 : ℝ)) =O[𝓝 1] fun x' => (x' - 1) ^ 2 := by
    refine Asymptotics.IsBigO.of_bound 16 ?_
    have hc := find_continuousAt one_pos
    rw [ContinuousAt, find_one] at hc
    have e1 := hc.eventually (Metric.closedBall_mem_nhds (1 : ℝ) (show (0 : ℝ) < 1 / 4 by norm_num))
    filter_upwards [e1, Metric.closedBall_mem_nhds (1 : ℝ) (show (0 : ℝ) < 1 / 8 by norm_num)] with x hu hx
    rw [Metric.mem_closedBall, Real.dist_eq] at hx
    rw [Real.dist_eq] at hu
    have x0 : 0 < x := by have := abs_le.1 hx; linarith
    obtain ⟨f1, -, f3, f4, f5⟩ := C51_transonic x x0
    have hl := lhs_near (t := find x - 1) (by linarith)
    have hr := rhs_near (y := x - 1) (by linarith)
    rw [add_sub_cancel] at hl hr
    rw [find_lhs x0] at hl
    rw [find_one, smul_eq_mul, mul_one, Real.norm_eq_abs, Real.norm_eq_abs]
    have hs : |find x - 1| + |x - 1| = |(find x - 1) + (x - 1)| := by
      rcases lt_trichotomy x 1 with h | h | h
      · rw [abs_of_neg (by linarith [f3 h]), abs_of_neg (by linarith), abs_of_neg (by linarith [f3 h])]; ring
      · rw [h, find_one]; simp
      · rw [abs_of_pos (by linarith [f5 h]), abs_of_pos (by linarith), abs_of_pos (by linarith [f5 h])]
    generalize find x - 1 = t at *
    generalize x - 1 = y at *
    rw [abs_of_nonneg (sq_nonneg y)]
    have ht0 := abs_nonneg t
    have hy0 := abs_nonneg y
    have q1 : t ^ 2 = |t| ^ 2 := (sq_abs t).symm
    have q2 : y ^ 2 = |y| ^ 2 := (sq_abs y).symm
    have k1 : |2 * t ^ 2 - 2 * y ^ 2| ≤ 4 * |t| ^ 3 + 16 * |y| ^ 3 := by
      have a := abs_le.1 hl
      have b := abs_le.1 hr
      rw [abs_le]; constructor <;> linarith
    have k2 : |t - y| * (|t| + |y|) ≤ 2 * |t| ^ 3 + 8 * |y| ^ 3 := by
      rw [hs, ← abs_mul]
      have e : 2 * t ^ 2 - 2 * y ^ 2 = 2 * ((t - y) * (t + y)) := by ring
      rw [e, abs_mul, abs_of_pos (by norm_num : (0 : ℝ) < 2)] at k1
      linarith
    have k3 : |t| ≤ 2 * |y| := by
      have a := (abs_le.1 k1).2
      rw [q1, q2] at a
      have c1 : |t| ^ 3 ≤ 1 / 4 * |t| ^ 2 := by nlinarith [sq_nonneg |t|]
      have c2 : |y| ^ 3 ≤ 1 / 8 * |y| ^ 2 := by nlinarith [sq_nonneg |y|]
      nlinarith
    rcases hy0.eq_or_lt with h0 | h0
    · rw [← h0] at k3
      have t0 : t = 0 := abs_eq_zero.1 (by linarith)
      have y0 : y = 0 := abs_eq_zero.1 h0.symm
      rw [t0, y0]; simp
    · rw [q2]
      have k4 : 2 * |t| ^ 3 + 8 * |y| ^ 3 ≤ 16 * |y| ^ 2 * (|t| + |y|) := by
        have c1 : |t| ^ 2 ≤ 4 * |y| ^ 2 := by nlinarith
        have c2 : |t| ^ 3 ≤ 4 * |y| ^ 2 * |t| := by nlinarith
        nlinarith [mul_nonneg (sq_nonneg |y|) ht0, pow_nonneg hy0 3]
      exact le_of_mul_le_mul_right (k2.trans k4) (by linarith)
  exact hB.trans_isLittleO ((Asymptotics.isLittleO_pow_sub_sub (1 : ℝ) (m := 2) (by norm_num)).congr_left fun x => by
    rw [Real.norm_eq_abs, sq_abs])

theorem find_deriv {r : ℝ} (hr : 0 < r) : ∃ u', HasDerivAt find u' r ∧ 0 < u' ∧ u' * (2 * find r - 2 / find r) = 4 / r - 4 / r ^ 2 := by
  by_cases h : r = 1
  · subst h
    exact ⟨1, find_deriv_one, one_pos, by rw [find_one]; norm_num⟩
  · have hu := find_pos hr
    have e1 : 2 * find r - 2 / find r = 2 * (find r + 1) / find r * (find r - 1) := by field_simp; ring
    have e2 : 4 / r - 4 / r ^ 2 = 4 / r ^ 2 * (r - 1) := by field_simp
    have p1 : 0 < 2 * (find r + 1) / find r := by positivity
    have p2 : 0 < 4 / r ^ 2 := by positivity
    have hs : (find r < 1 ∧ r < 1) ∨ (1 < find r ∧ 1 < r) := by
      rcases lt_or_gt_of_ne h with h | h
      · exact Or.inl ⟨(C51_transonic r hr).2.2.1 h, h⟩
      · exact Or.inr ⟨(C51_transonic r hr).2.2.2.2 h, h⟩
    have hd0 : 2 * find r - 2 / find r ≠ 0 := by
      rw [e1]
      refine mul_ne_zero p1.ne' ?_
      rcases hs with h | h
      · exact (sub_neg.2 h.1).ne
      · exact (sub_pos.2 h.1).ne'
    refine ⟨_, find_deriv_off hr h, ?_, ?_⟩
    · rw [inv_mul_eq_div]
      rcases hs with h | h
      · refine div_pos_of_neg_of_neg ?_ ?_
        · rw [e2]; exact mul_neg_of_pos_of_neg p2 (sub_neg.2 h.2)
        · rw [e1]; exact mul_neg_of_pos_of_neg p1 (sub_neg.2 h.1)
      · refine div_pos ?_ ?_
        · rw [e2]; exact mul_pos p2 (sub_pos.2 h.2)
        · rw [e1]; exact mul_pos p1 (sub_pos.2 h.1)
    · rw [mul_right_comm, inv_mul_cancel₀ hd0, one_mul]

variable {c : Consts} {s : Star}

/-- Two square sound speeds times the sonic radius is the gravity. -/
theorem sonic_relation (hp : Physical c s) : 2 * speedSonic c s ^ 2 * radiusSonic c s = c.G * s.mass := by
  have := hp.protonMass; have := hp.kB; have := hp.temperature
  rw [speedSonic, Real.sq_sqrt (by positivity), radiusSonic]
  field_simp
  ring

theorem sonic_sq (hp : Physical c s) : speedSonic c s ^ 2 = 2 * c.kB * s.temperature / c.protonMass := by
  have := hp.protonMass; have := hp.kB; have := hp.temperature
  rw [speedSonic, Real.sq_sqrt (by positivity)]

theorem bernoulli (hp : Physical c s) : ∃ K, ∀ r, 0 < r →
    speedAt c s r ^ 2 / 2 + speedSonic c s ^ 2 * Real.log (densityAt c s r) - c.G * s.mass / r = K := by
  refine ⟨speedSonic c s ^ 2 * (-3 / 2 - 2 * Real.log (radiusSonic c s) - Real.log (speedSonic c s) +
    Real.log (s.baseDensity * s.radius ^ 2 * speedSurface c s)), fun r hr => ?_⟩
  have hrs := radiusSonic_pos hp
  have hcs := speedSonic_pos hp
  have hv := speedAt_pos hp hr
  have hu := find_pos (div_pos hr hrs)
  have heq := (C51_transonic _ (div_pos hr hrs)).2.1
  have hsurf : 0 < speedSurface c s := speedAt_pos hp hp.radius
  have hb : 0 < s.baseDensity * s.radius ^ 2 * speedSurface c s := by
    have := hp.baseDensity; have := hp.radius; positivity
  rw [densityAt_eq hp hr, Real.log_div hb.ne' (by positivity), Real.log_mul (by positivity) hv.ne', Real.log_pow, ← sonic_relation hp]
  unfold speedAt
  rw [Real.log_mul hu.ne' hcs.ne']
  rw [Real.log_div hr.ne' hrs.ne', one_div_div] at heq
  have e : 2 * speedSonic c s ^ 2 * radiusSonic c s / r = 2 * speedSonic c s ^ 2 * (radiusSonic c s / r) := by ring
  rw [e]
  push_cast
  linear_combination speedSonic c s ^ 2 / 2 * heq

theorem speedAt_deriv (hp : Physical c s) {r : ℝ} (hr : 0 < r) : ∃ v', HasDerivAt (speedAt c s) v' r ∧ 0 < v' ∧
    v' * (speedAt c s r - speedSonic c s ^ 2 / speedAt c s r) = 2 * speedSonic c s ^ 2 / r - c.G * s.mass / r ^ 2 := by
  have hrs := radiusSonic_pos hp
  have hcs := speedSonic_pos hp
  have hu := find_pos (div_pos hr hrs)
  obtain ⟨u', h1, hp', h2⟩ := find_deriv (div_pos hr hrs)
  have h3 : HasDerivAt (fun x => x / radiusSonic c s) (1 / radiusSonic c s) r := (hasDerivAt_id r).div_const _
  have h4 : HasDerivAt (speedAt c s) (u' * (1 / radiusSonic c s) * speedSonic c s) r :=
    (HasDerivAt.comp (h₂ := find) (h := fun x => x / radiusSonic c s) r h1 h3).mul_const (speedSonic c s)
  refine ⟨_, h4, by positivity, ?_⟩
  rw [← sonic_relation hp]
  unfold speedAt
  have e1 : u' * (1 / radiusSonic c s) * speedSonic c s * (find (r / radiusSonic c s) * speedSonic c s -
      speedSonic c s ^ 2 / (find (r / radiusSonic c s) * speedSonic c s)) =
      speedSonic c s ^ 2 / (2 * radiusSonic c s) * (u' * (2 * find (r / radiusSonic c s) - 2 / find (r / radiusSonic c s))) := by
    field_simp
  rw [e1, h2]
  field_simp
  ring

theorem densityAt_deriv (hp : Physical c s) {r v' : ℝ} (hr : 0 < r) (hv : HasDerivAt (speedAt c s) v' r) :
    HasDerivAt (densityAt c s) (densityAt c s r * (-(2 / r) - v' / speedAt c s r)) r := by
  have h0 := speedAt_pos hp hr
  have h1 : HasDerivAt (fun x => x ^ 2 * speedAt c s x) (2 * r * speedAt c s r + r ^ 2 * v') r := by
    have h := (hasDerivAt_pow 2 r).mul hv
    norm_num at h
    exact h
  have h2 := (hasDerivAt_const r (s.baseDensity * s.radius ^ 2 * speedSurface c s)).div h1 (by positivity)
  have h3 : HasDerivAt (densityAt c s) _ r := h2.congr_of_eventuallyEq (by
    filter_upwards [Ioi_mem_nhds hr] with x hx
    exact densityAt_eq hp hx)
  convert h3 using 1
  rw [densityAt_eq hp hr]
  field_simp
  ring

theorem speed_one (c : Consts) (s : Star) (h : Heap) {r : ℝ} (hr : s.radius ≤ r) :
    (speed c s h (.fresh ⟨false, [r]⟩)).1 = .ok [speedAt c s r] := by
  rw [speed_eq, if_neg (by simp [RadArg.contents])]
  simp only [RadArg.contents, List.map_cons, List.map_nil]
  rw [eff_float _ rfl, max_eq_left hr]

theorem density_one (hp : Physical c s) (h : Heap) {r : ℝ} (hr : s.radius ≤ r) :
    (density c s h (.fresh ⟨false, [r]⟩)).1 = .ok [densityAt c s r] := by
  rw [density_eq hp.radius, if_neg (by simp [RadArg.contents])]
  simp only [RadArg.contents, List.map_cons, List.map_nil]
  rw [eff_float _ rfl, max_eq_left hr]

end Parker

/-- **C121.** Bernoulli: outside the star v^2/2 + a^2 log rho - G M/r, with a^2 = 2 k T/m, is the same at all radii of a call. -/
theorem C121_bernoulli (c : Consts) (s : Star) (hp : Physical c s) (h : Heap) (arg : RadArg)
    (hf : (arg.contents h).isInt = false) (hne : (arg.contents h).data ≠ []) :
    ∃ vs ds, (speed c s h arg).1 = .ok vs ∧ (density c s h arg).1 = .ok ds ∧
      ∃ K, ∀ (i : ℕ) (r v d : ℝ), (arg.contents h).data[i]? = some r → vs[i]? = some v → ds[i]? = some d →
        v ^ 2 / 2 + 2 * c.kB * s.temperature / c.protonMass * Real.log d - c.G * s.mass / max r s.radius = K := by
  obtain ⟨K, hK⟩ := bernoulli hp
  refine ⟨_, _, by rw [speed_eq, if_neg hne], by rw [density_eq hp.radius, if_neg hne], K, ?_⟩
  intro i r v d hr hv hd
  rw [List.getElem?_map, hr, Option.map_some, Option.some.injEq, eff_float _ hf] at hv hd
  rw [← hv, ← hd, ← sonic_sq hp]
  exact hK _ (lt_max_of_lt_right hp.radius)

/-- **C121.** The equation of motion of an isothermal wind with sound speed `sqrt(2 k T/m)` at every radius outside the star, also where
the wind becomes supersonic: speed and density are differentiable and v v' = -a^2 rho'/rho - G M/r^2. -/
theorem C121_momentum (c : Consts) (s : Star) (hp : Physical c s) : ∃ v d : ℝ → ℝ,
    (∀ h r, s.radius ≤ r → (speed c s h (.fresh ⟨false, [r]⟩)).1 = .ok [v r] ∧ (density c s h (.fresh ⟨false, [r]⟩)).1 = .ok [d r]) ∧
    ∀ r, s.radius < r → ∃ v' d', HasDerivAt v v' r ∧ HasDerivAt d d' r ∧ 0 < v' ∧ d' < 0 ∧
      v r * v' = -(2 * c.kB * s.temperature / c.protonMass) * d' / d r - c.G * s.mass / r ^ 2 := by
  refine ⟨speedAt c s, densityAt c s, fun h r hr => ⟨speed_one c s h hr, density_one hp h hr⟩, fun r hr => ?_⟩
  have h0 : 0 < r := hp.radius.trans hr
  obtain ⟨v', h1, hv', h2⟩ := speedAt_deriv hp h0
  have hv := speedAt_pos hp h0
  have hd : 0 < densityAt c s r := by
    rw [densityAt_eq hp h0]
    have := hp.baseDensity; have := hp.radius; have : 0 < speedSurface c s := speedAt_pos hp hp.radius
    positivity
  refine ⟨v', _, h1, densityAt_deriv hp h0 h1, hv', ?_, ?_⟩
  · have : 0 < 2 / r + v' / speedAt c s r := by positivity
    nlinarith
  · rw [← sonic_sq hp]
    have e : -speedSonic c s ^ 2 * (densityAt c s r * (-(2 / r) - v' / speedAt c s r)) / densityAt c s r =
        speedSonic c s ^ 2 * (2 / r) + v' * (speedSonic c s ^ 2 / speedAt c s r) := by
      field_simp
      ring
    rw [e]
    have e2 : 2 * speedSonic c s ^ 2 / r = speedSonic c s ^ 2 * (2 / r) := by ring
    rw [e2] at h2
    linarith

/-- **C121.** The critical radius G M m/(4 k T): if it is outside the star the speed there is the sound speed. -/
theorem C121_sonic (c : Consts) (s : Star) (hp : Physical c s) (h : Heap)
    (hs : s.radius ≤ c.G * s.mass * c.protonMass / (4 * s.temperature * c.kB)) :
    ∃ v, (speed c s h (.fresh ⟨false, [c.G * s.mass * c.protonMass / (4 * s.temperature * c.kB)]⟩)).1 = .ok [v] ∧
      0 < v ∧ v ^ 2 = 2 * c.kB * s.temperature / c.protonMass :=
  ⟨speedSonic c s, (C52_sonic_point c s hp h hs).1, speedSonic_pos hp, sonic_sq hp⟩

/-- **C121.** Every speed from that at the surface on is reached, at one radius: there is no terminal speed. -/
theorem C121_reached (c : Consts) (s : Star) (hp : Physical c s) (h : Heap) (w : ℝ) (hw : speedSurface c s ≤ w) :
    ∃! r, s.radius ≤ r ∧ (speed c s h (.fresh ⟨false, [r]⟩)).1 = .ok [w] := by
  have hrs := radiusSonic_pos hp
  have hcs := speedSonic_pos hp
  have hsurf : 0 < speedSurface c s := speedAt_pos hp hp.radius
  obtain ⟨x, x0, hx⟩ := find_surj (div_pos (hsurf.trans_le hw) hcs)
  have hat : speedAt c s (x * radiusSonic c s) = w := by
    rw [speedAt, mul_div_cancel_right₀ _ hrs.ne', hx, div_mul_cancel₀ _ hcs.ne']
  have hr0 : 0 < x * radiusSonic c s := by positivity
  have hR : s.radius ≤ x * radiusSonic c s := by
    by_contra hlt
    have h1 := speedAt_mono hp hr0 (not_le.1 hlt)
    have h2 : speedAt c s s.radius = speedSurface c s := rfl
    rw [hat, h2] at h1
    linarith
  refine ⟨x * radiusSonic c s, ⟨hR, by rw [speed_one c s h hR, hat]⟩, ?_⟩
  rintro r ⟨h1, h2⟩
  rw [speed_one c s h h1] at h2
  have h3 : speedAt c s r = w := by simpa using h2
  have r0 : 0 < r := hp.radius.trans_le h1
  rcases lt_trichotomy r (x * radiusSonic c s) with h4 | h4 | h4
  · have := speedAt_mono hp r0 h4; rw [hat, h3] at this; exact absurd this (lt_irrefl _)
  · exact h4
  · have := speedAt_mono hp hr0 h4; rw [hat, h3] at this; exact absurd this (lt_irrefl _)

/-! ### Non-vacuity -/

private theorem exWind : Physical ⟨1, 1, 1⟩ ⟨1, 1, 3 / 2, 8⟩ := by constructor <;> norm_num

example := C121_bernoulli ⟨1, 1, 1⟩ ⟨1, 1, 3 / 2, 8⟩ exWind (fun _ => ⟨false, []⟩) (.fresh ⟨false, [1, 2, 30]⟩) rfl (by simp [RadArg.contents])
example := C121_momentum ⟨1, 1, 1⟩ ⟨1, 1, 3 / 2, 8⟩ exWind
/-- The sonic point of this star is at 2, the speed there is the square root of 2. -/
example : (speed ⟨1, 1, 1⟩ ⟨1, 1, 3 / 2, 8⟩ (fun _ => ⟨false, []⟩) (.fresh ⟨false, [2]⟩)).1 = .ok [Real.sqrt 2] := by
  obtain ⟨v, h1, h2, h3⟩ := C121_sonic ⟨1, 1, 1⟩ ⟨1, 1, 3 / 2, 8⟩ exWind (fun _ => ⟨false, []⟩) (by norm_num)
  norm_num at h1 h3
  rw [h1, ← h3, Real.sqrt_sq h2.le]
example := C121_reached ⟨1, 1, 1⟩ ⟨1, 1, 3 / 2, 8⟩ exWind (fun _ => ⟨false, []⟩) _ le_rfl

end Verif
