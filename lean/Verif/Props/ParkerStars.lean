import Verif.Props.ParkerFlow
import Mathlib.Analysis.Calculus.Deriv.MeanValue
import Mathlib.Analysis.SpecialFunctions.Arsinh
import Mathlib.Analysis.SpecialFunctions.Pow.Asymptotics

/-!
# Property C122: how the Parker wind depends on the star
-/

namespace Verif
open Parker Spec Filter Topology

namespace Parker

/-! ### The logarithm of the speed is a concave function of the logarithm of the radius -/

/-- The curve `sinh η = 2 sinh τ`, with which the speed is compared. -/
noncomputable def eta (τ : ℝ) : ℝ := Real.arsinh (2 * Real.sinh τ)

theorem sinh_eta (τ : ℝ) : Real.sinh (eta τ) = 2 * Real.sinh τ := Real.sinh_arsinh _

theorem eta_zero : eta 0 = 0 := by simp [eta]

theorem eta_nonneg {τ : ℝ} (h : 0 ≤ τ) : 0 ≤ eta τ := by
  rw [eta, Real.arsinh_nonneg_iff]
  have := Real.sinh_nonneg_iff.2 h
  linarith

theorem eta_nonpos {τ : ℝ} (h : τ ≤ 0) : eta τ ≤ 0 := by
  rw [eta, Real.arsinh_nonpos_iff]
  have := Real.sinh_nonpos_iff.2 h
  linarith

theorem eta_deriv (τ : ℝ) : HasDerivAt eta (2 * Real.cosh τ / Real.cosh (eta τ)) τ := by
  have h1 : HasDerivAt (fun t => 2 * Real.sinh t) (2 * Real.cosh τ) τ := (Real.hasDerivAt_sinh τ).const_mul 2
  have h2 := h1.arsinh
  have e : Real.cosh (eta τ) = Real.sqrt (1 + (2 * Real.sinh τ) ^ 2) := by rw [eta, Real.cosh_arsinh]
  rw [e]
  have h3 : HasDerivAt eta _ τ := h2
  convert h3 using 1
  rw [smul_eq_mul]
  ring

/-- Both sides of the Parker equation on the curve. -/
noncomputable def gap (τ : ℝ) : ℝ := Real.exp (2 * eta τ) - 1 - 2 * eta τ - (8 * τ + 4 * Real.exp (-2 * τ) - 4)

theorem gap_zero : gap 0 = 0 := by simp [gap, eta_zero]

theorem gap_deriv (τ : ℝ) : HasDerivAt gap (16 * Real.sinh τ * Real.sinh (eta τ + τ) / Real.cosh (eta τ)) τ := by
  have h1 := eta_deriv τ
  have h2 := (h1.const_mul 2).exp
  have h3 : HasDerivAt (fun t : ℝ => -2 * t) (-2) τ := by simpa using (hasDerivAt_id τ).const_mul (-2)
  have h4 := h3.exp.const_mul 4
  have h5 : HasDerivAt (fun t : ℝ => 8 * t) 8 τ := by simpa using (hasDerivAt_id τ).const_mul 8
  have h6 : HasDerivAt gap _ τ := ((h2.sub_const 1).sub (h1.const_mul 2)).sub ((h5.add h4).sub_const 4)
  convert h6 using 1
  have hc : Real.cosh (eta τ) ≠ 0 := (Real.cosh_pos _).ne'
  have e1 : Real.exp (2 * eta τ) - 1 = 4 * Real.exp (eta τ) * Real.sinh τ := by
    have h := sinh_eta τ
    have : Real.exp (2 * eta τ) = Real.exp (eta τ) * Real.exp (eta τ) := by rw [← Real.exp_add]; ring_nf
    have h' : 2 * Real.sinh (eta τ) = Real.exp (eta τ) - Real.exp (-eta τ) := by rw [Real.sinh_eq]; ring
    have h'' : Real.exp (eta τ) * Real.exp (-eta τ) = 1 := by rw [← Real.exp_add]; simp
    rw [this]
    linear_combination Real.exp (eta τ) * (2 * h - h') + h''
  have e2 : 1 - Real.exp (-2 * τ) = 2 * Real.exp (-τ) * Real.sinh τ := by
    have : Real.exp (-2 * τ) = Real.exp (-τ) * Real.exp (-τ) := by rw [← Real.exp_add]; ring_nf
    have h' : 2 * Real.sinh τ = Real.exp τ - Real.exp (-τ) := by rw [Real.sinh_eq]; ring
    have h'' : Real.exp τ * Real.exp (-τ) = 1 := by rw [← Real.exp_add]; simp
    rw [this]
    linear_combination -Real.exp (-τ) * h' - h''
  have e3 : Real.sinh (eta τ + τ) = Real.exp (eta τ) * Real.cosh τ - Real.exp (-τ) * Real.cosh (eta τ) := by
    rw [Real.sinh_eq, Real.cosh_eq, Real.cosh_eq, neg_add, Real.exp_add, Real.exp_add]
    ring
  rw [e3, show Real.exp (2 * eta τ) = 1 + 4 * Real.exp (eta τ) * Real.sinh τ by linarith,
    show Real.exp (-2 * τ) = 1 - 2 * Real.exp (-τ) * Real.sinh τ by linarith]
  field_simp
  ring

theorem gap_mono : Monotone gap := by
  refine monotone_of_deriv_nonneg (fun τ => (gap_deriv τ).differentiableAt) fun τ => ?_
  rw [(gap_deriv τ).deriv]
  refine div_nonneg ?_ (Real.cosh_pos _).le
  rcases le_total 0 τ with h | h
  · have := Real.sinh_nonneg_iff.2 h
    have := Real.sinh_nonneg_iff.2 (add_nonneg (eta_nonneg h) h)
    positivity
  · have h1 := Real.sinh_nonpos_iff.2 h
    have h2 := Real.sinh_nonpos_iff.2 (add_nonpos (eta_nonpos h) h)
    nlinarith [mul_nonneg_of_nonpos_of_nonpos h1 h2]

theorem gap_eq {x τ : ℝ} (hτ : x = Real.exp (2 * τ)) : gap τ = lhs (Real.exp (eta τ)) - rhs x := by
  have e1 : 1 / x = Real.exp (-2 * τ) := by rw [hτ, one_div, ← Real.exp_neg]; ring_nf
  rw [gap, lhs, rhs, e1, hτ, Real.log_exp, Real.log_exp, ← Real.exp_nat_mul]
  push_cast
  ring

/-- The comparison: with the square root `w` of the radius, `u - 1/u ≤ 2 (w - 1/w)` outside the sonic point and the other way round
inside. -/
theorem compare {x : ℝ} (hx : 0 < x) : (1 ≤ x → x * (find x ^ 2 - 1) ^ 2 ≤ 4 * find x ^ 2 * (x - 1) ^ 2) ∧
    (x ≤ 1 → 4 * find x ^ 2 * (x - 1) ^ 2 ≤ x * (find x ^ 2 - 1) ^ 2) := by
  obtain ⟨u0, heq, h1, h2, h3⟩ := C51_transonic x hx
  have heq : lhs (find x) = rhs x := heq
  set τ := Real.log x / 2 with hτ
  have hx' : x = Real.exp (2 * τ) := by rw [hτ, mul_div_cancel₀ _ two_ne_zero, Real.exp_log hx]
  have hg := gap_eq hx'
  set w := Real.exp τ with hw
  have w0 : 0 < w := Real.exp_pos _
  have hxw : x = w ^ 2 := by rw [hx', hw, ← Real.exp_nat_mul]; push_cast; rfl
  set U := Real.exp (eta τ) with hU
  have U0 : 0 < U := Real.exp_pos _
  have hUw : U - 1 / U = 2 * (w - 1 / w) := by
    have := sinh_eta τ
    rw [Real.sinh_eq, Real.sinh_eq, Real.exp_neg, Real.exp_neg, ← hU, ← hw] at this
    rw [one_div, one_div]
    linarith
  set u := find x with hu
  have key : ∀ a : ℝ, 0 < a → a ≤ U → a - 1 / a ≤ 2 * (w - 1 / w) := fun a a0 ha => by
    have : 1 / U ≤ 1 / a := one_div_le_one_div_of_le a0 ha
    linarith
  have e1 : x * (u ^ 2 - 1) ^ 2 = (w * u * (u - 1 / u)) ^ 2 := by rw [hxw]; field_simp
  have e2 : 4 * u ^ 2 * (x - 1) ^ 2 = (w * u * (2 * (w - 1 / w))) ^ 2 := by rw [hxw]; field_simp; ring
  rw [e1, e2]
  refine ⟨fun hx1 => ?_, fun hx1 => ?_⟩
  · have τ0 : 0 ≤ τ := by have := Real.log_nonneg hx1; rw [hτ]; linarith
    have hu1 : 1 ≤ u := by
      rcases hx1.lt_or_eq with h | h
      · exact (h3 h).le
      · exact (h2 h.symm).ge
    have hU1 : 1 ≤ U := Real.one_le_exp (eta_nonneg τ0)
    have hle : u ≤ U := by
      by_contra hlt
      have := lhs_mono hU1 (not_le.1 hlt)
      have := gap_mono τ0
      rw [gap_zero, hg] at this
      linarith
    have h4 := key u u0 hle
    have h5 : 0 ≤ u - 1 / u := by
      have : 1 / u ≤ 1 := (div_le_one u0).2 hu1
      linarith
    gcongr
  · have τ0 : τ ≤ 0 := by have := Real.log_nonpos hx.le hx1; rw [hτ]; linarith
    have hU1 : U ≤ 1 := Real.exp_le_one_iff.2 (eta_nonpos τ0)
    have hu1 : u ≤ 1 := by
      rcases hx1.lt_or_eq with h | h
      · exact (h1 h).le
      · exact (h2 h).le
    have hle : u ≤ U := by
      by_contra hlt
      have := lhs_anti U0 (not_le.1 hlt) hu1
      have := gap_mono τ0
      rw [gap_zero, hg] at this
      linarith
    have h4 := key u u0 hle
    have hw1 : w ≤ 1 := Real.exp_le_one_iff.2 τ0
    have h5 : 2 * (w - 1 / w) ≤ 0 := by
      have : 1 ≤ 1 / w := (one_le_div w0).2 hw1
      linarith
    have h6 : 0 ≤ w * u * -(2 * (w - 1 / w)) := mul_nonneg (by positivity) (by linarith)
    have h7 : w * u * -(2 * (w - 1 / w)) ≤ w * u * -(u - 1 / u) := mul_le_mul_of_nonneg_left (by linarith) (by positivity)
    have h8 := pow_le_pow_left₀ h6 h7 2
    rw [mul_neg, mul_neg, neg_sq, neg_sq] at h8
    exact h8

/-- The slope of the logarithm of the speed against the logarithm of the radius. -/
noncomputable def slope (x : ℝ) : ℝ := open Classical in if x = 1 then 1 else 2 * (1 - 1 / x) / (find x ^ 2 - 1)

theorem find_sq_ne {x : ℝ} (hx : 0 < x) (h1 : x ≠ 1) : find x ^ 2 - 1 ≠ 0 := by
  obtain ⟨u0, _, a, _, b⟩ := C51_transonic x hx
  intro h
  rcases h1.lt_or_gt with h2 | h2
  · have := a h2; nlinarith
  · have := b h2; nlinarith

theorem find_deriv_slope {x : ℝ} (hx : 0 < x) : HasDerivAt find (slope x * find x / x) x := by
  by_cases h1 : x = 1
  · subst h1
    have := find_deriv_one
    simpa [slope, find_one] using this
  · obtain ⟨u', h2, _, h3⟩ := find_deriv hx
    have hu := find_pos hx
    have hn := find_sq_ne hx h1
    convert h2 using 1
    rw [slope, if_neg h1]
    field_simp at h3 ⊢
    linear_combination -h3 / 2

theorem slope_deriv {x : ℝ} (hx : 0 < x) (h1 : x ≠ 1) : HasDerivAt slope
    (2 / x ^ 2 * (1 - x * find x ^ 2 * slope x ^ 2) / (find x ^ 2 - 1)) x := by
  have hn := find_sq_ne hx h1
  have h2 := find_deriv_slope hx
  have h3 : HasDerivAt (fun y : ℝ => 2 * (1 - 1 / y)) (2 / x ^ 2) x := by
    simp only [one_div]
    have h : HasDerivAt (fun y : ℝ => 2 * (1 - y⁻¹)) _ x := ((hasDerivAt_inv hx.ne').const_sub 1).const_mul 2
    exact h.congr_deriv (by ring)
  have h4 : HasDerivAt (fun y => find y ^ 2 - 1) (2 * find x * (slope x * find x / x)) x := by
    have h : HasDerivAt (fun y => find y ^ 2 - 1) _ x := (h2.pow 2).sub_const 1
    exact h.congr_deriv (by norm_num)
  have h5 := h3.div h4 hn
  have h6 : HasDerivAt slope _ x := h5.congr_of_eventuallyEq (by
    filter_upwards [isOpen_ne.mem_nhds h1] with y hy
    rw [slope, if_neg hy]
    rfl)
  convert h6 using 1
  have h7 : 2 * (1 - 1 / x) = slope x * (find x ^ 2 - 1) := by rw [slope, if_neg h1, div_mul_cancel₀ _ hn]
  rw [h7]
  field_simp

theorem slope_deriv_nonpos {x : ℝ} (hx : 0 < x) (h1 : x ≠ 1) :
    2 / x ^ 2 * (1 - x * find x ^ 2 * slope x ^ 2) / (find x ^ 2 - 1) ≤ 0 := by
  have hn := find_sq_ne hx h1
  have hu := find_pos hx
  obtain ⟨k1, k2⟩ := compare hx
  have e : 2 / x ^ 2 * (1 - x * find x ^ 2 * slope x ^ 2) / (find x ^ 2 - 1) =
      2 / x ^ 3 * (x * (find x ^ 2 - 1) ^ 2 - 4 * find x ^ 2 * (x - 1) ^ 2) / (find x ^ 2 - 1) ^ 3 := by
    rw [slope, if_neg h1]
    field_simp
    ring
  rw [e]
  obtain ⟨u0, _, a, _, b⟩ := C51_transonic x hx
  rcases h1.lt_or_gt with h2 | h2
  · have h3 := k2 h2.le
    have h4 : find x ^ 2 - 1 < 0 := by have := a h2; nlinarith
    refine div_nonpos_of_nonneg_of_nonpos (mul_nonneg (by positivity) (by linarith)) ?_
    exact (Odd.pow_neg (by decide) h4).le
  · have h3 := k1 h2.le
    have h4 : 0 < find x ^ 2 - 1 := by have := b h2; nlinarith
    refine div_nonpos_of_nonpos_of_nonneg (mul_nonpos_of_nonneg_of_nonpos (by positivity) (by linarith)) (by positivity)

/-- Where the slope is 1. -/
noncomputable def corner (x : ℝ) : ℝ := 4 * Real.log x + 6 / x - 6 + Real.log (3 - 2 / x)

theorem corner_deriv {x : ℝ} (hx : 2 / 3 < x) : HasDerivAt corner (12 * (x - 1) ^ 2 / (x ^ 2 * (3 * x - 2))) x := by
  have x0 : 0 < x := by linarith
  have hy : 0 < 3 * x - 2 := by linarith
  have he : 3 - 2 / x = (3 * x - 2) / x := by field_simp
  have hz : 3 - 2 / x ≠ 0 := by rw [he]; positivity
  have hi := hasDerivAt_inv x0.ne'
  have h1 : HasDerivAt (fun y : ℝ => 3 - 2 / y) (2 / x ^ 2) x := by
    simp only [div_eq_mul_inv]
    have h : HasDerivAt (fun y : ℝ => 3 - 2 * y⁻¹) _ x := (hi.const_mul 2).const_sub 3
    exact h.congr_deriv (by ring)
  have h2 : HasDerivAt (fun y : ℝ => 6 / y) (-6 / x ^ 2) x := by
    simp only [div_eq_mul_inv]
    have h : HasDerivAt (fun y : ℝ => 6 * y⁻¹) _ x := hi.const_mul 6
    exact h.congr_deriv (by ring)
  have h3 : HasDerivAt corner _ x :=
    ((((Real.hasDerivAt_log x0.ne').const_mul 4).add h2).sub_const 6).add (h1.log hz)
  refine h3.congr_deriv ?_
  have hy' := hy.ne'
  rw [he]
  obtain ⟨d, hd⟩ : ∃ d, d = 3 * x - 2 := ⟨_, rfl⟩
  rw [← hd] at hy' ⊢
  field_simp
  linear_combination (4 * x - 6) * hd

theorem corner_mono : MonotoneOn corner (Set.Ioi (2 / 3)) := by
  refine monotoneOn_of_deriv_nonneg (convex_Ioi _) (fun x hx => (corner_deriv hx).continuousAt.continuousWithinAt) ?_ ?_
  · rw [interior_Ioi]
    exact fun x hx => (corner_deriv hx).differentiableAt.differentiableWithinAt
  · rw [interior_Ioi]
    intro x hx
    rw [(corner_deriv hx).deriv]
    have : (2 : ℝ) / 3 < x := hx
    have : 0 < 3 * x - 2 := by linarith
    positivity

theorem corner_one : corner 1 = 0 := by norm_num [corner]

theorem corner_eq {x : ℝ} (hx : 2 / 3 < x) : corner x = rhs x - lhs (Real.sqrt (3 - 2 / x)) := by
  have x0 : 0 < x := by linarith
  have hy : 0 < 3 * x - 2 := by linarith
  have hz : 0 < 3 - 2 / x := by
    have : 3 - 2 / x = (3 * x - 2) / x := by field_simp
    rw [this]; positivity
  rw [corner, rhs, lhs, Real.sq_sqrt hz.le, Real.log_sqrt hz.le]
  ring

theorem find_sq_ge {x : ℝ} (hx : 0 < x) : 3 - 2 / x ≤ find x ^ 2 := by
  obtain ⟨u0, heq, a, _, b⟩ := C51_transonic x hx
  have heq : lhs (find x) = rhs x := heq
  by_cases h23 : 2 / 3 < x
  swap
  · have : 3 ≤ 2 / x := by rw [le_div_iff₀ hx]; linarith
    nlinarith
  have hy : 0 < 3 * x - 2 := by linarith
  have hz : 0 < 3 - 2 / x := by
    have : 3 - 2 / x = (3 * x - 2) / x := by field_simp
    rw [this]; positivity
  have hc := corner_eq h23
  have hle : Real.sqrt (3 - 2 / x) ≤ find x := by
    by_contra hlt
    rcases lt_trichotomy x 1 with h | h | h
    · have h1 : Real.sqrt (3 - 2 / x) ≤ 1 := by
        have : 2 ≤ 2 / x := by rw [le_div_iff₀ hx]; linarith
        exact Real.sqrt_le_iff.2 ⟨by norm_num, by linarith⟩
      have h2 := lhs_anti u0 (not_le.1 hlt) h1
      have h3 := corner_mono h23 (show (1 : ℝ) ∈ Set.Ioi (2 / 3) by norm_num) h.le
      rw [corner_one, hc] at h3
      linarith
    · subst h
      rw [find_one] at hlt
      norm_num at hlt
    · have h2 := lhs_mono (b h).le (not_le.1 hlt)
      have h3 := corner_mono (show (1 : ℝ) ∈ Set.Ioi (2 / 3) by norm_num) h23 h.le
      rw [corner_one, hc] at h3
      linarith
  have := pow_le_pow_left₀ (Real.sqrt_nonneg _) hle 2
  rwa [Real.sq_sqrt hz.le] at this

theorem slope_out {x : ℝ} (hx : 1 ≤ x) : slope x ≤ 1 := by
  rcases hx.lt_or_eq with h | h
  · have x0 : 0 < x := by linarith
    have hs := find_sq_ge x0
    have h1 := (C51_transonic x x0).2.2.2.2 h
    rw [slope, if_neg h.ne', div_le_one (by nlinarith)]
    have : 2 * (1 - 1 / x) = 3 - 2 / x - 1 := by ring
    linarith
  · rw [slope, if_pos h.symm]

theorem slope_in {x : ℝ} (hx : 0 < x) (h1 : x ≤ 1) : 1 ≤ slope x := by
  rcases h1.lt_or_eq with h | h
  · have hs := find_sq_ge hx
    have h2 := (C51_transonic x hx).2.2.1 h
    have u0 := find_pos hx
    rw [slope, if_neg h.ne, ← neg_div_neg_eq, one_le_div (by nlinarith)]
    have : 2 * (1 - 1 / x) = 3 - 2 / x - 1 := by ring
    linarith
  · rw [slope, if_pos h]

theorem slope_anti {x y : ℝ} (hx : 0 < x) (hxy : x ≤ y) : slope y ≤ slope x := by
  have part : ∀ S : Set ℝ, Convex ℝ S → IsOpen S → (∀ z ∈ S, 0 < z ∧ z ≠ 1) → AntitoneOn slope S := by
    intro S hS ho hz
    refine antitoneOn_of_deriv_nonpos hS (fun z h => ((slope_deriv (hz z h).1 (hz z h).2).continuousAt.continuousWithinAt)) ?_ ?_
    · rw [ho.interior_eq]
      exact fun z h => (slope_deriv (hz z h).1 (hz z h).2).differentiableAt.differentiableWithinAt
    · rw [ho.interior_eq]
      intro z h
      rw [(slope_deriv (hz z h).1 (hz z h).2).deriv]
      exact slope_deriv_nonpos (hz z h).1 (hz z h).2
  rcases lt_or_ge y 1 with h | h
  · exact part (Set.Ioo 0 1) (convex_Ioo _ _) isOpen_Ioo (fun z hz => ⟨hz.1, hz.2.ne⟩) ⟨hx, hxy.trans_lt h⟩ ⟨hx.trans_le hxy, h⟩ hxy
  · rcases le_or_gt x 1 with h' | h'
    · exact (slope_out h).trans (slope_in hx h')
    · exact part (Set.Ioi 1) (convex_Ioi _) isOpen_Ioi (fun z hz => ⟨one_pos.trans hz, (ne_of_gt hz)⟩) h' (h'.trans_le hxy) hxy

theorem ratio_anti {k x y : ℝ} (hk : 1 ≤ k) (hx : 0 < x) (hxy : x ≤ y) : find (k * y) / find y ≤ find (k * x) / find x := by
  have k0 : 0 < k := by linarith
  have hd : ∀ z, 0 < z → HasDerivAt (fun z => Real.log (find (k * z)) - Real.log (find z)) ((slope (k * z) - slope z) / z) z := by
    intro z hz
    have hkz : 0 < k * z := by positivity
    have h1 := (find_deriv_slope hz).log (find_pos hz).ne'
    have h0 : HasDerivAt (fun z => k * z) k z := by simpa using (hasDerivAt_id z).const_mul k
    have h2 := HasDerivAt.comp (h₂ := find) (h := fun z => k * z) z (find_deriv_slope hkz) h0
    have h3 : HasDerivAt (fun z => Real.log (find (k * z))) _ z := h2.log (find_pos hkz).ne'
    refine (h3.sub h1).congr_deriv ?_
    have := (find_pos hkz).ne'
    have := (find_pos hz).ne'
    simp only [Function.comp_apply]
    field_simp
  have ha : AntitoneOn (fun z => Real.log (find (k * z)) - Real.log (find z)) (Set.Ioi 0) := by
    refine antitoneOn_of_deriv_nonpos (convex_Ioi _) (fun z h => (hd z h).continuousAt.continuousWithinAt) ?_ ?_
    · rw [interior_Ioi]
      exact fun z h => (hd z h).differentiableAt.differentiableWithinAt
    · rw [interior_Ioi]
      intro z h
      have hz : 0 < z := h
      rw [(hd z h).deriv]
      refine div_nonpos_of_nonpos_of_nonneg ?_ hz.le
      have : slope (k * z) ≤ slope z := slope_anti hz (by nlinarith)
      linarith
  have hy : 0 < y := hx.trans_le hxy
  have h := ha hx hy hxy
  have fx := find_pos hx
  have fy := find_pos hy
  have fkx := find_pos (show 0 < k * x by positivity)
  have fky := find_pos (show 0 < k * y by positivity)
  simp only at h
  rw [← Real.log_div fky.ne' fy.ne', ← Real.log_div fkx.ne' fx.ne'] at h
  exact (Real.log_le_log_iff (by positivity) (by positivity)).1 h

variable {c : Consts} {s : Star}

theorem flux_eq (hp : Physical c s) : totalMassFlux c s = 4 * Real.pi * s.radius ^ 2 * speedSurface c s * s.baseDensity := by
  have hs : 0 < speedSurface c s := speedAt_pos hp hp.radius
  have hR := hp.radius
  have hrs := radiusSonic_pos hp
  have hss := speedSonic_pos hp
  rw [totalMassFlux, densitySonic, zpow_neg, zpow_neg, zpow_one]
  have : (radiusSonic c s / s.radius) ^ (2 : ℤ) = (radiusSonic c s / s.radius) ^ 2 := by norm_cast
  rw [this]
  field_simp

/-- The density from the ratio of two speeds. -/
theorem densityAt_ratio (hp : Physical c s) {r : ℝ} (hr : 0 < r) :
    densityAt c s r = s.baseDensity * s.radius ^ 2 / r ^ 2 /
      (find (r / s.radius * (s.radius / radiusSonic c s)) / find (s.radius / radiusSonic c s)) := by
  have hR := hp.radius
  have hrs := radiusSonic_pos hp
  have hss := speedSonic_pos hp
  have h1 := find_pos (div_pos hr hrs)
  have h2 := find_pos (div_pos hR hrs)
  have e : r / s.radius * (s.radius / radiusSonic c s) = r / radiusSonic c s := by field_simp
  rw [densityAt_eq hp hr, speedSurface, speedAt, e]
  field_simp

/-- The speeds and densities of two stars whose winds differ in where the sonic point is. -/
theorem density_order {s s' : Star} (hp : Physical c s) (hp' : Physical c s') (hR : s'.radius = s.radius)
    (hb : s'.baseDensity = s.baseDensity) (hle : radiusSonic c s' ≤ radiusSonic c s) {r : ℝ} (hr : s.radius ≤ r) :
    densityAt c s r ≤ densityAt c s' r := by
  have h0 := hp.radius
  have r0 : 0 < r := h0.trans_le hr
  have hrs := radiusSonic_pos hp
  have hrs' := radiusSonic_pos hp'
  rw [densityAt_ratio hp r0, densityAt_ratio hp' r0, hR, hb]
  have hb0 := hp.baseDensity
  have h1 := find_pos (show 0 < r / s.radius * (s.radius / radiusSonic c s') by positivity)
  have h2 := find_pos (show 0 < s.radius / radiusSonic c s' by positivity)
  refine div_le_div_of_nonneg_left (by positivity) (by positivity) ?_
  exact ratio_anti ((one_le_div h0).2 hr) (by positivity) (div_le_div_of_nonneg_left h0.le hrs' hle)

end Parker

/-- **C122.** Base density `k` times as large: the same speeds, `k` times the densities and the mass flux. -/
theorem C122_density (c : Consts) (s : Star) (hp : Physical c s) (k : ℝ) (h : Heap) (arg : RadArg)
    (hne : (arg.contents h).data ≠ []) :
    (speed c { s with baseDensity := k * s.baseDensity } h arg) = speed c s h arg ∧
    (∃ ds, (density c s h arg).1 = .ok ds ∧ (density c { s with baseDensity := k * s.baseDensity } h arg).1 = .ok (ds.map (k * ·))) ∧
    totalMassFlux c { s with baseDensity := k * s.baseDensity } = k * totalMassFlux c s := by
  have e1 : radiusSonic c { s with baseDensity := k * s.baseDensity } = radiusSonic c s := rfl
  have e2 : speedSonic c { s with baseDensity := k * s.baseDensity } = speedSonic c s := rfl
  have e3 : speedSurface c { s with baseDensity := k * s.baseDensity } = speedSurface c s := rfl
  refine ⟨rfl, ⟨_, by rw [density_eq hp.radius, if_neg hne], ?_⟩, ?_⟩
  · rw [density_eq (s := { s with baseDensity := k * s.baseDensity }) hp.radius, if_neg hne, List.map_map]
    congr 1
    apply List.map_congr_left
    intro x _
    simp only [Function.comp, densityAt]
    rw [e3]
    have : ∀ y, speedAt c { s with baseDensity := k * s.baseDensity } y = speedAt c s y := fun y => rfl
    rw [this]
    ring
  · rw [totalMassFlux, totalMassFlux, densitySonic, densitySonic, e1, e2, e3]
    ring

/-- **C122.** Stars of the same shape: with mass, radius and all distances `k` times as large, the speeds and densities are the same and
the mass flux is `k^2` times as large. -/
theorem C122_similar (c : Consts) (s : Star) (hp : Physical c s) (k : ℝ) (hk : 0 < k) (h : Heap) (rs : List ℝ) :
    (speed c { s with radius := k * s.radius, mass := k * s.mass } h (.fresh ⟨false, rs.map (k * ·)⟩)).1 =
      (speed c s h (.fresh ⟨false, rs⟩)).1 ∧
    (density c { s with radius := k * s.radius, mass := k * s.mass } h (.fresh ⟨false, rs.map (k * ·)⟩)).1 =
      (density c s h (.fresh ⟨false, rs⟩)).1 ∧
    totalMassFlux c { s with radius := k * s.radius, mass := k * s.mass } = k ^ 2 * totalMassFlux c s := by
  have hp' : Physical c { s with radius := k * s.radius, mass := k * s.mass } :=
    ⟨hp.G, hp.protonMass, hp.kB, hp.temperature, hp.baseDensity, mul_pos hk hp.radius, mul_pos hk hp.mass⟩
  have e1 : radiusSonic c { s with radius := k * s.radius, mass := k * s.mass } = k * radiusSonic c s := by
    simp only [radiusSonic]; ring
  have e2 : speedSonic c { s with radius := k * s.radius, mass := k * s.mass } = speedSonic c s := rfl
  have e4 : ∀ y, speedAt c { s with radius := k * s.radius, mass := k * s.mass } (k * y) = speedAt c s y := fun y => by
    rw [speedAt, speedAt, e1, e2, mul_div_mul_left _ _ hk.ne']
  have e3 : speedSurface c { s with radius := k * s.radius, mass := k * s.mass } = speedSurface c s := e4 s.radius
  have em : ∀ x, max (k * x) (k * s.radius) = k * max x s.radius := fun x => (mul_max_of_nonneg _ _ hk.le).symm
  refine ⟨?_, ?_, ?_⟩
  · rw [speed_eq, speed_eq]
    simp only [RadArg.contents, List.map_eq_nil_iff, List.map_map]
    congr 2
    apply List.map_congr_left
    intro x _
    simp only [Function.comp]
    rw [eff_float _ rfl, eff_float _ rfl, em, e4]
  · rw [density_eq hp'.radius, density_eq hp.radius]
    simp only [RadArg.contents, List.map_eq_nil_iff, List.map_map]
    congr 2
    apply List.map_congr_left
    intro x _
    simp only [Function.comp]
    rw [eff_float _ rfl, eff_float _ rfl, em, densityAt, densityAt, e4, e3, mul_div_mul_left _ _ hk.ne']
  · rw [flux_eq hp', flux_eq hp, e3]
    ring

/-- **C122.** A hotter star has a faster wind at every radius, nowhere a thinner one, and loses more mass. -/
theorem C122_hotter (c : Consts) (s : Star) (hp : Physical c s) (T : ℝ) (hT : s.temperature < T) (h : Heap) (arg : RadArg)
    (hf : (arg.contents h).isInt = false) (hne : (arg.contents h).data ≠ []) :
    (∃ vs vs' ds ds', (speed c s h arg).1 = .ok vs ∧ (speed c { s with temperature := T } h arg).1 = .ok vs' ∧
      (density c s h arg).1 = .ok ds ∧ (density c { s with temperature := T } h arg).1 = .ok ds' ∧
      List.Forall₂ (· < ·) vs vs' ∧ List.Forall₂ (· ≤ ·) ds ds') ∧
    totalMassFlux c s < totalMassFlux c { s with temperature := T } := by
  have hp' : Physical c { s with temperature := T } :=
    ⟨hp.G, hp.protonMass, hp.kB, hp.temperature.trans hT, hp.baseDensity, hp.radius, hp.mass⟩
  have := hp.G; have := hp.protonMass; have := hp.kB; have := hp.temperature; have := hp.mass; have := hp.baseDensity; have := hp.radius
  have hrs := radiusSonic_pos hp
  have hrs' := radiusSonic_pos hp'
  have h1 : radiusSonic c { s with temperature := T } < radiusSonic c s := by
    simp only [radiusSonic]
    gcongr
  have h2 : speedSonic c s < speedSonic c { s with temperature := T } := by
    simp only [speedSonic]
    refine Real.sqrt_lt_sqrt (by positivity) ?_
    gcongr
  have hv : ∀ r, 0 < r → speedAt c s r < speedAt c { s with temperature := T } r := fun r hr =>
    mul_lt_mul'' (C51_increasing _ _ (by positivity) (div_lt_div_of_pos_left hr hrs' h1)) h2 (find_pos (by positivity)).le
      (speedSonic_pos hp).le
  refine ⟨⟨_, _, _, _, by rw [speed_eq, if_neg hne], by rw [speed_eq, if_neg hne], by rw [density_eq hp.radius, if_neg hne],
    by rw [density_eq hp'.radius, if_neg hne], ?_, ?_⟩, ?_⟩
  · rw [List.forall₂_map_left_iff, List.forall₂_map_right_iff, List.forall₂_same]
    intro x _
    rw [eff_float _ hf]
    exact hv _ (lt_max_of_lt_right hp.radius)
  · rw [List.forall₂_map_left_iff, List.forall₂_map_right_iff, List.forall₂_same]
    intro x _
    rw [eff_float _ hf]
    exact density_order hp hp' rfl rfl h1.le (le_max_right _ _)
  · rw [flux_eq hp, flux_eq hp']
    have : speedSurface c s < speedSurface c { s with temperature := T } := hv _ hp.radius
    simp only
    gcongr

/-- **C122.** A heavier star has a slower wind at every radius, nowhere a denser one, and loses less mass. -/
theorem C122_heavier (c : Consts) (s : Star) (hp : Physical c s) (M : ℝ) (hM : s.mass < M) (h : Heap) (arg : RadArg)
    (hf : (arg.contents h).isInt = false) (hne : (arg.contents h).data ≠ []) :
    (∃ vs vs' ds ds', (speed c s h arg).1 = .ok vs ∧ (speed c { s with mass := M } h arg).1 = .ok vs' ∧
      (density c s h arg).1 = .ok ds ∧ (density c { s with mass := M } h arg).1 = .ok ds' ∧
      List.Forall₂ (· > ·) vs vs' ∧ List.Forall₂ (· ≥ ·) ds ds') ∧
    totalMassFlux c { s with mass := M } < totalMassFlux c s := by
  have hp' : Physical c { s with mass := M } :=
    ⟨hp.G, hp.protonMass, hp.kB, hp.temperature, hp.baseDensity, hp.radius, hp.mass.trans hM⟩
  have := hp.G; have := hp.protonMass; have := hp.kB; have := hp.temperature; have := hp.mass; have := hp.baseDensity; have := hp.radius
  have hrs := radiusSonic_pos hp
  have hrs' := radiusSonic_pos hp'
  have h1 : radiusSonic c s < radiusSonic c { s with mass := M } := by
    simp only [radiusSonic]
    gcongr
  have hv : ∀ r, 0 < r → speedAt c { s with mass := M } r < speedAt c s r := fun r hr =>
    mul_lt_mul_of_pos_right (C51_increasing _ _ (by positivity) (div_lt_div_of_pos_left hr hrs h1)) (speedSonic_pos hp')
  refine ⟨⟨_, _, _, _, by rw [speed_eq, if_neg hne], by rw [speed_eq, if_neg hne], by rw [density_eq hp.radius, if_neg hne],
    by rw [density_eq hp'.radius, if_neg hne], ?_, ?_⟩, ?_⟩
  · rw [List.forall₂_map_left_iff, List.forall₂_map_right_iff, List.forall₂_same]
    intro x _
    rw [eff_float _ hf]
    exact hv _ (lt_max_of_lt_right hp.radius)
  · rw [List.forall₂_map_left_iff, List.forall₂_map_right_iff, List.forall₂_same]
    intro x _
    rw [eff_float _ hf]
    exact density_order hp' hp rfl rfl h1.le (le_max_right _ _)
  · rw [flux_eq hp, flux_eq hp']
    have : speedSurface c { s with mass := M } < speedSurface c s := hv _ hp.radius
    simp only
    gcongr

/-- **C122.** A larger star with otherwise the same parameters: outside of it the wind has the same speed and is denser; it loses more
mass. -/
theorem C122_larger (c : Consts) (s : Star) (hp : Physical c s) (R : ℝ) (hR : s.radius < R) (h : Heap) (r : ℝ) (hr : R ≤ r) :
    (∃ v d d', (speed c s h (.fresh ⟨false, [r]⟩)).1 = .ok [v] ∧ (speed c { s with radius := R } h (.fresh ⟨false, [r]⟩)).1 = .ok [v] ∧
      (density c s h (.fresh ⟨false, [r]⟩)).1 = .ok [d] ∧ (density c { s with radius := R } h (.fresh ⟨false, [r]⟩)).1 = .ok [d'] ∧
      d < d') ∧
    totalMassFlux c s < totalMassFlux c { s with radius := R } := by
  have hp' : Physical c { s with radius := R } :=
    ⟨hp.G, hp.protonMass, hp.kB, hp.temperature, hp.baseDensity, hp.radius.trans hR, hp.mass⟩
  have hv : speedSurface c s < speedSurface c { s with radius := R } := speedAt_mono hp hp.radius hR
  have hb := hp.baseDensity; have h0 := hp.radius
  have hs : 0 < speedSurface c s := speedAt_pos hp h0
  have r0 : 0 < r := (h0.trans hR).trans_le hr
  have hvr := speedAt_pos hp r0
  have e : speedAt c { s with radius := R } r = speedAt c s r := rfl
  refine ⟨⟨speedAt c s r, densityAt c s r, densityAt c { s with radius := R } r, speed_one c s h (hR.le.trans hr), speed_one c _ h hr,
    density_one hp h (hR.le.trans hr), density_one hp' h hr, ?_⟩, ?_⟩
  · rw [densityAt_eq hp r0, densityAt_eq hp' r0, e]
    simp only
    gcongr
  · rw [flux_eq hp, flux_eq hp']
    simp only
    gcongr

/-- **C122.** The wind is never denser than the atmosphere at rest with the same base, and inside the sonic point not thinner than that
by more than the factor `exp(-1/2)`. -/
theorem C122_static (c : Consts) (s : Star) (hp : Physical c s) (h : Heap) (r : ℝ) (hr : s.radius ≤ r) :
    ∃ d, (density c s h (.fresh ⟨false, [r]⟩)).1 = .ok [d] ∧
      d ≤ s.baseDensity * Real.exp (c.G * s.mass * c.protonMass / (2 * c.kB * s.temperature) * (1 / r - 1 / s.radius)) ∧
      (r ≤ c.G * s.mass * c.protonMass / (4 * s.temperature * c.kB) →
        s.baseDensity * Real.exp (c.G * s.mass * c.protonMass / (2 * c.kB * s.temperature) * (1 / r - 1 / s.radius)) * Real.exp (-1 / 2) ≤ d) := by
  have h0 := hp.radius
  have r0 : 0 < r := h0.trans_le hr
  have hcs := speedSonic_pos hp
  have hrs := radiusSonic_pos hp
  have hb := hp.baseDensity
  have hs : 0 < speedSurface c s := speedAt_pos hp h0
  have hvr := speedAt_pos hp r0
  have hd : 0 < densityAt c s r := by rw [densityAt_eq hp r0]; positivity
  obtain ⟨K, hK⟩ := bernoulli hp
  have k1 := hK r r0
  have k2 := hK s.radius h0
  have e0 : densityAt c s s.radius = s.baseDensity := by
    rw [densityAt_eq hp h0, show speedAt c s s.radius = speedSurface c s from rfl]
    field_simp
  rw [e0] at k2
  have hmono : speedAt c s s.radius ≤ speedAt c s r := by
    rcases hr.lt_or_eq with h | h
    · exact (speedAt_mono hp h0 h).le
    · rw [h]
  have hv0 := speedAt_pos hp h0
  have a2 : c.G * s.mass * c.protonMass / (2 * c.kB * s.temperature) = c.G * s.mass / speedSonic c s ^ 2 := by
    have := hp.protonMass; have := hp.kB; have := hp.temperature
    rw [sonic_sq hp]
    field_simp
  have hlog : Real.log (densityAt c s r) = Real.log s.baseDensity + c.G * s.mass / speedSonic c s ^ 2 * (1 / r - 1 / s.radius) -
      (speedAt c s r ^ 2 - speedAt c s s.radius ^ 2) / (2 * speedSonic c s ^ 2) := by
    field_simp at k1 k2 ⊢
    have hK0 : 0 < speedSonic c s ^ 2 := by positivity
    linear_combination s.radius * k1 - r * k2
  have hexp : densityAt c s r = s.baseDensity * Real.exp (c.G * s.mass / speedSonic c s ^ 2 * (1 / r - 1 / s.radius)) *
      Real.exp (-((speedAt c s r ^ 2 - speedAt c s s.radius ^ 2) / (2 * speedSonic c s ^ 2))) := by
    rw [← Real.exp_log hd, hlog, sub_eq_add_neg, Real.exp_add, Real.exp_add, Real.exp_log hb]
  refine ⟨densityAt c s r, density_one hp h hr, ?_, fun hs' => ?_⟩
  · rw [hexp, a2]
    refine mul_le_of_le_one_right (by positivity) (Real.exp_le_one_iff.2 ?_)
    rw [neg_nonpos]
    refine div_nonneg ?_ (by positivity)
    nlinarith
  · rw [hexp, a2]
    gcongr
    have hle : r ≤ radiusSonic c s := hs'
    have h1 : speedAt c s r ≤ speedSonic c s := by
      rcases hle.lt_or_eq with h | h
      · have := speedAt_mono hp r0 h
        rw [speedAt, speedAt, div_self hrs.ne', find_one, one_mul] at this
        exact this.le
      · rw [h, speedAt, div_self hrs.ne', find_one, one_mul]
    rw [neg_div, neg_le_neg_iff, div_le_div_iff₀ (by positivity) (by norm_num)]
    nlinarith

/-- **C122.** Far out, in units of the sound speed `a` and with `x` the radius in units of the sonic radius: `4 log x - 3 ≤ v^2/a^2` and
`v/a ≤ 1 + 2 sqrt(log x)`, so that the speed divided by `2 a sqrt(log x)` tends to 1. -/
theorem C122_far (c : Consts) (s : Star) (hp : Physical c s) (h : Heap) :
    (∀ r, s.radius ≤ r → radiusSonic c s ≤ r → ∃ v, (speed c s h (.fresh ⟨false, [r]⟩)).1 = .ok [v] ∧
      4 * Real.log (r / radiusSonic c s) - 3 ≤ (v / speedSonic c s) ^ 2 ∧
      v / speedSonic c s ≤ 1 + 2 * Real.sqrt (Real.log (r / radiusSonic c s))) ∧
    ∃ v : ℝ → ℝ, (∀ r, s.radius ≤ r → (speed c s h (.fresh ⟨false, [r]⟩)).1 = .ok [v r]) ∧
      Tendsto (fun r => v r / (2 * speedSonic c s * Real.sqrt (Real.log (r / radiusSonic c s)))) atTop (𝓝 1) := by
  have hcs := speedSonic_pos hp
  have hrs := radiusSonic_pos hp
  have bound : ∀ x : ℝ, 1 ≤ x → 4 * Real.log x - 3 ≤ find x ^ 2 ∧ find x ≤ 1 + 2 * Real.sqrt (Real.log x) := by
    intro x hx
    have x0 : 0 < x := by linarith
    have heq : lhs (find x) = rhs x := find_lhs x0
    have hu1 : 1 ≤ find x := by
      rcases hx.lt_or_eq with h | h
      · exact ((C51_transonic x x0).2.2.2.2 h).le
      · rw [← h, find_one]
    have hlog := Real.log_nonneg hu1
    have hlx := Real.log_nonneg hx
    have hi : 0 < 1 / x := by positivity
    have hi1 : 1 / x ≤ 1 := (div_le_one x0).2 hx
    rw [lhs, rhs] at heq
    refine ⟨by linarith, ?_⟩
    have h1 := Real.log_le_sub_one_of_pos (show 0 < find x by linarith)
    have h2 : (find x - 1) ^ 2 ≤ (2 * Real.sqrt (Real.log x)) ^ 2 := by
      rw [mul_pow, Real.sq_sqrt hlx]
      nlinarith
    have := abs_le_of_sq_le_sq' h2 (by positivity)
    linarith [this.2]
  have hdiv : ∀ r, speedAt c s r / speedSonic c s = find (r / radiusSonic c s) := fun r => by
    rw [speedAt, mul_div_cancel_right₀ _ hcs.ne']
  refine ⟨fun r hr hr' => ⟨speedAt c s r, speed_one c s h hr, ?_⟩, speedAt c s, fun r hr => speed_one c s h hr, ?_⟩
  · rw [hdiv]
    exact bound _ ((one_le_div hrs).2 hr')
  · have hL : Tendsto (fun r => Real.sqrt (Real.log (r / radiusSonic c s))) atTop atTop :=
      Real.tendsto_sqrt_atTop.comp (Real.tendsto_log_atTop.comp (tendsto_id.atTop_div_const hrs))
    have lower : Tendsto (fun r => Real.sqrt (1 - 3 / 4 * ((Real.sqrt (Real.log (r / radiusSonic c s)))⁻¹) ^ 2)) atTop (𝓝 1) := by
      have h1 := ((hL.inv_tendsto_atTop.pow 2).const_mul (3 / 4)).const_sub 1
      have h2 := (Real.continuous_sqrt.tendsto _).comp h1
      simpa [Function.comp_def] using h2
    have upper : Tendsto (fun r => 1 / 2 * (Real.sqrt (Real.log (r / radiusSonic c s)))⁻¹ + 1) atTop (𝓝 1) := by
      have h1 := (hL.inv_tendsto_atTop.const_mul (1 / 2)).add_const 1
      simpa using h1
    have ev : ∀ᶠ r in atTop, 1 ≤ Real.sqrt (Real.log (r / radiusSonic c s)) := hL.eventually_ge_atTop 1
    have ev2 : ∀ᶠ r in atTop, radiusSonic c s ≤ r := eventually_ge_atTop _
    refine tendsto_of_tendsto_of_tendsto_of_le_of_le' lower upper ?_ ?_
    · filter_upwards [ev, ev2] with r h1 h2
      obtain ⟨k1, k2⟩ := bound _ ((one_le_div hrs).2 h2)
      set q := Real.sqrt (Real.log (r / radiusSonic c s)) with hq
      have hq2 : q ^ 2 = Real.log (r / radiusSonic c s) :=
        Real.sq_sqrt (Real.log_nonneg ((one_le_div hrs).2 h2))
      have e : speedAt c s r / (2 * speedSonic c s * q) = find (r / radiusSonic c s) / (2 * q) := by
        rw [← hdiv]; field_simp
      rw [e]
      have hf := find_pos (show 0 < r / radiusSonic c s from div_pos (hrs.trans_le h2) hrs)
      refine Real.sqrt_le_iff.2 ⟨by positivity, ?_⟩
      rw [div_pow, le_div_iff₀ (by positivity)]
      have : (1 - 3 / 4 * q⁻¹ ^ 2) * (2 * q) ^ 2 = 4 * q ^ 2 - 3 := by field_simp; ring
      rw [this, hq2]
      exact k1
    · filter_upwards [ev, ev2] with r h1 h2
      obtain ⟨k1, k2⟩ := bound _ ((one_le_div hrs).2 h2)
      set q := Real.sqrt (Real.log (r / radiusSonic c s)) with hq
      have e : speedAt c s r / (2 * speedSonic c s * q) = find (r / radiusSonic c s) / (2 * q) := by
        rw [← hdiv]; field_simp
      rw [e, div_le_iff₀ (by positivity)]
      have : (1 / 2 * q⁻¹ + 1) * (2 * q) = 1 + 2 * q := by field_simp
      rw [this]
      exact k2

/-! ### Non-vacuity -/

private theorem exSmall : Physical ⟨1, 1, 1⟩ ⟨1, 1, 3 / 2, 8⟩ := by constructor <;> norm_num

private abbrev exNone : Heap := fun _ => ⟨false, []⟩

example := C122_density ⟨1, 1, 1⟩ ⟨1, 1, 3 / 2, 8⟩ exSmall 2 exNone (.fresh ⟨false, [1, 2, 30]⟩) (by simp [RadArg.contents])
example := C122_similar ⟨1, 1, 1⟩ ⟨1, 1, 3 / 2, 8⟩ exSmall 2 (by norm_num) exNone [1, 2, 30]
example := C122_hotter ⟨1, 1, 1⟩ ⟨1, 1, 3 / 2, 8⟩ exSmall 2 (by norm_num) exNone (.fresh ⟨false, [1, 2, 30]⟩) rfl (by simp [RadArg.contents])
example := C122_heavier ⟨1, 1, 1⟩ ⟨1, 1, 3 / 2, 8⟩ exSmall 9 (by norm_num) exNone (.fresh ⟨false, [1, 2, 30]⟩) rfl (by simp [RadArg.contents])
example := C122_larger ⟨1, 1, 1⟩ ⟨1, 1, 3 / 2, 8⟩ exSmall 2 (by norm_num) exNone 3 (by norm_num)
example := C122_static ⟨1, 1, 1⟩ ⟨1, 1, 3 / 2, 8⟩ exSmall exNone 2 (by norm_num)
/-- The sonic point is at 2. -/
example : ∃ v, (speed ⟨1, 1, 1⟩ ⟨1, 1, 3 / 2, 8⟩ exNone (.fresh ⟨false, [2 * Real.exp 3]⟩)).1 = .ok [v] ∧ 9 * 2 ≤ v ^ 2 := by
  have e : radiusSonic ⟨1, 1, 1⟩ ⟨1, 1, 3 / 2, 8⟩ = 2 := by norm_num [radiusSonic]
  have h3 : (1 : ℝ) ≤ Real.exp 3 := Real.one_le_exp (by norm_num)
  obtain ⟨v, h1, h2, _⟩ := (C122_far ⟨1, 1, 1⟩ ⟨1, 1, 3 / 2, 8⟩ exSmall exNone).1 (2 * Real.exp 3) (by simp only; linarith) (by rw [e]; linarith)
  refine ⟨v, h1, ?_⟩
  rw [e, mul_div_cancel_left₀ _ two_ne_zero, Real.log_exp, div_pow, sonic_sq exSmall] at h2
  norm_num at h2
  linarith

end Verif
