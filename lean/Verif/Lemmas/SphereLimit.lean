import Verif.Lemmas.Rotation
import Verif.Lemmas.LegendreInt
import Verif.Props.AnalysisLimit
import Mathlib.Analysis.SpecialFunctions.Trigonometric.Sinc

/-!
# Sums over finer and finer full-sphere grids
-/

namespace Verif
open Geometry Spec

namespace SphereLimit
open Zdi Riemann Rotation Legendre Analysis Filter Topology

/-- Facet areas turn an area-weighted sum into a midpoint sum, up to a factor that tends to 1. -/
theorem area_sum {q : ℕ} (hq : 0 < q) (N : ℕ) (f : ℝ → ℝ → ℝ) :
    sum2 (grid (lin Real.pi (q + 1)) (lin (2 * Real.pi) (N + 1)) fun p a =>
        f (mid p) (mid a) * ((Real.cos p.1 - Real.cos p.2) * (a.2 - a.1)))
      = Real.sinc (Real.pi / (2 * q)) * midSum (2 * Real.pi) N fun φ => midSum Real.pi q fun θ => f θ φ * Real.sin θ := by
  have hq' : (q : ℝ) ≠ 0 := by exact_mod_cast hq.ne'
  have hx : Real.pi / (2 * q) ≠ 0 := by have := Real.pi_ne_zero; positivity
  rw [sum2_full, Real.sinc_of_ne_zero hx, midSum, Finset.mul_sum, Finset.mul_sum]
  refine Finset.sum_congr rfl fun j _ => ?_
  rw [midSum, Finset.mul_sum, Finset.mul_sum, Finset.mul_sum]
  refine Finset.sum_congr rfl fun i _ => ?_
  rw [mid_step, mid_step, Real.cos_sub_cos]
  have e1 : ((i : ℝ) * (Real.pi / q) + ((i : ℝ) + 1) * (Real.pi / q)) / 2 = node Real.pi q i := by rw [node]; ring
  have e2 : ((i : ℝ) * (Real.pi / q) - ((i : ℝ) + 1) * (Real.pi / q)) / 2 = -(Real.pi / (2 * q)) := by field_simp; ring
  simp only [e1, e2, Real.sin_neg]
  have := Real.pi_ne_zero
  field_simp
  ring

/-- The integral over the sphere. -/
noncomputable def sphereInt (f : ℝ → ℝ → ℝ) : ℝ := ∫ φ in (0 : ℝ)..2 * Real.pi, ∫ θ in (0 : ℝ)..Real.pi, f θ φ * Real.sin θ

/-- Area-weighted sums of a continuous function converge to its integral over the sphere. -/
theorem area_tendsto {f : ℝ → ℝ → ℝ} (hf : Continuous fun p : ℝ × ℝ => f p.1 p.2) {N K : ℕ → ℕ}
    (hN : Tendsto N atTop atTop) (hK : Tendsto K atTop atTop) (hN1 : ∀ n, 0 < N n) :
    Tendsto (fun n => sum2 (grid (lin Real.pi (N n + 1)) (lin (2 * Real.pi) (K n + 1)) fun p a =>
        f (mid p) (mid a) * ((Real.cos p.1 - Real.cos p.2) * (a.2 - a.1)))) atTop (𝓝 (sphereInt f)) := by
  have h1 : Tendsto (fun n => Real.sinc (Real.pi / (2 * N n))) atTop (𝓝 1) := by
    have : Tendsto (fun n => Real.pi / (2 * (N n : ℝ))) atTop (𝓝 0) :=
      tendsto_const_nhds.div_atTop ((tendsto_natCast_atTop_atTop.comp hN).const_mul_atTop two_pos)
    have h0 := (Real.continuous_sinc.tendsto 0).comp this
    rw [Real.sinc_zero] at h0
    exact h0
  have h2 := midSum2_tendsto Real.pi_pos Real.two_pi_pos (h := fun θ φ => f θ φ * Real.sin θ)
    (hf.mul (Real.continuous_sin.comp continuous_fst)) hN hK
  have := h1.mul h2
  rw [one_mul] at this
  refine this.congr fun n => ?_
  rw [area_sum (hN1 n)]

/-- The order of integration does not matter. -/
theorem int_swap {a b : ℝ} (ha : 0 < a) (hb : 0 < b) {h : ℝ → ℝ → ℝ} (hc : Continuous fun p : ℝ × ℝ => h p.1 p.2) :
    ∫ y in (0 : ℝ)..b, ∫ x in (0 : ℝ)..a, h x y = ∫ x in (0 : ℝ)..a, ∫ y in (0 : ℝ)..b, h x y := by
  refine tendsto_nhds_unique (midSum2_tendsto ha hb hc tendsto_id tendsto_id)
    ((midSum2_tendsto hb ha (h := fun y x => h x y) (hc.comp continuous_swap) tendsto_id tendsto_id).congr fun n => ?_)
  simp only [midSum, Finset.mul_sum, id]
  rw [Finset.sum_comm]
  refine Finset.sum_congr rfl fun i _ => Finset.sum_congr rfl fun j _ => ?_
  ring

/-- Only the values off the axis matter. -/
theorem sphereInt_congr {f g : ℝ → ℝ → ℝ} (h : ∀ θ φ, OffAxis θ → f θ φ = g θ φ) : sphereInt f = sphereInt g := by
  rw [sphereInt, sphereInt]
  congr 1
  ext φ
  refine intervalIntegral.integral_congr_Ioo_of_le Real.pi_pos.le fun θ hθ => ?_
  simp only [h θ φ ⟨hθ.1, hθ.2⟩]

/-- Some node is near any given point. -/
theorem node_near {b : ℝ} (hb : 0 < b) {n : ℕ} (hn : 0 < n) {x : ℝ} (h0 : 0 ≤ x) (h1 : x ≤ b) :
    ∃ j < n, |node b n j - x| ≤ b / n := by
  have hn' : (0 : ℝ) < n := by exact_mod_cast hn
  have hd : 0 < b / n := by positivity
  by_cases hx : x < b
  · refine ⟨⌊x / (b / n)⌋₊, ?_, ?_⟩
    · rw [Nat.floor_lt (by positivity), div_lt_iff₀ hd]
      have : (n : ℝ) * (b / n) = b := by field_simp
      linarith
    · have h2 := Nat.floor_le (show 0 ≤ x / (b / n) by positivity)
      have h3 := Nat.lt_floor_add_one (x / (b / n))
      rw [le_div_iff₀ hd] at h2
      rw [div_lt_iff₀ hd] at h3
      rw [node, abs_le]
      constructor <;> nlinarith
  · have : x = b := le_antisymm h1 (not_lt.1 hx)
    refine ⟨n - 1, by omega, ?_⟩
    rw [node, this, Nat.cast_sub hn, Nat.cast_one]
    have e : ((n : ℝ) - 1 + 1 / 2) * (b / n) - b = -(b / n / 2) := by field_simp; ring
    rw [e, abs_neg, abs_of_pos (by positivity)]
    linarith

/-- `P / sin` without the singularity at the poles. -/
noncomputable def qP (l m : ℕ) (θ : ℝ) : ℝ := rodNorm l m * Real.sin θ ^ (m - 1) * (rod l (l + m)).eval (Real.cos θ)

theorem continuous_qP (l m : ℕ) : Continuous (qP l m) := by unfold qP; fun_prop

theorem qP_eq (l : ℕ) {m : ℕ} (hm : m ≠ 0) {θ : ℝ} (hs : Real.sin θ ≠ 0) : thP l m θ / Real.sin θ = qP l m θ := by
  obtain ⟨m, rfl⟩ := Nat.exists_eq_succ_of_ne_zero hm
  rw [thP, qP, Nat.succ_sub_one, pow_succ]
  field_simp

theorem continuous_harm (w : ZRow → ℂ) {p : ℕ → ℕ → ℝ → ℝ} (hp : ∀ l m, Continuous (p l m)) (z : Zdi) :
    Continuous fun x : ℝ × ℝ => (harm w p z x.1 x.2).re := by
  refine Complex.continuous_re.comp ?_
  unfold harm
  induction z with
  | nil => simpa using continuous_const
  | cons r z ih =>
    simp only [List.map_cons, List.sum_cons]
    refine Continuous.add ?_ ih
    exact (continuous_const.mul (Complex.continuous_ofReal.comp ((hp _ _).comp continuous_fst))).mul
      ((Parseval.continuous_expi _).comp continuous_snd)

/-- Division by the sine of a sum over orders with a factor `m`. -/
theorem harm_div (u : ZRow → ℂ) {z : Zdi} (h : ∀ r ∈ z, 0 ≤ r.m) {θ : ℝ} (hs : Real.sin θ ≠ 0) (φ : ℝ) :
    (harm (fun r => Complex.I * r.m * u r) thP z θ φ).re / Real.sin θ
      = (harm (fun r => Complex.I * r.m * u r) qP z θ φ).re := by
  rw [← Complex.div_ofReal_re, harm, harm, div_eq_inv_mul]
  congr 1
  rw [← List.sum_map_mul_left]
  refine congrArg List.sum (List.map_congr_left fun r hr => ?_)
  by_cases hm : r.m = 0
  · simp [hm]
  · have : r.m.toNat ≠ 0 := by have := h r hr; omega
    rw [← qP_eq _ this hs]
    push_cast
    ring

/-- The components as continuous functions on the whole sphere. -/
noncomputable def cR (z : Zdi) (θ φ : ℝ) : ℝ := (harm wa thP z θ φ).re
noncomputable def cPP (z : Zdi) (θ φ : ℝ) : ℝ := -(harm wu thD z θ φ).re
noncomputable def cPT (z : Zdi) (θ φ : ℝ) : ℝ := (harm (fun r => Complex.I * r.m * wv r) qP z θ φ).re
noncomputable def cAP (z : Zdi) (θ φ : ℝ) : ℝ := -(harm (fun r => Complex.I * r.m * wu r) qP z θ φ).re
noncomputable def cAT (z : Zdi) (θ φ : ℝ) : ℝ := -(harm wv thD z θ φ).re

theorem cR_cont (z : Zdi) : Continuous fun p : ℝ × ℝ => cR z p.1 p.2 := continuous_harm _ continuous_thP z
theorem cPP_cont (z : Zdi) : Continuous fun p : ℝ × ℝ => cPP z p.1 p.2 := (continuous_harm _ continuous_thD z).neg
theorem cPT_cont (z : Zdi) : Continuous fun p : ℝ × ℝ => cPT z p.1 p.2 := continuous_harm _ continuous_qP z
theorem cAP_cont (z : Zdi) : Continuous fun p : ℝ × ℝ => cAP z p.1 p.2 := (continuous_harm _ continuous_qP z).neg
theorem cAT_cont (z : Zdi) : Continuous fun p : ℝ × ℝ => cAT z p.1 p.2 := (continuous_harm _ continuous_thD z).neg

variable {z : Zdi} (h : NonnegOrders z) {θ : ℝ} (hθ : OffAxis θ) (φ : ℝ)
include h hθ

theorem rp_ok : radialPoloidal z θ φ = cR z θ φ := by
  have := radial_eq h.2 (Real.sin_pos_of_pos_of_lt_pi hθ.1 hθ.2).le φ
  rw [radial, radialToroidal, Complex.zero_re, add_zero] at this
  exact this

theorem pp_ok : polarPoloidal z θ φ = .ok (cPP z θ φ) := polarPoloidal_eq h (Real.sin_pos_of_pos_of_lt_pi hθ.1 hθ.2) φ

theorem pt_ok : polarToroidal z θ φ = cPT z θ φ := by
  have hs := Real.sin_pos_of_pos_of_lt_pi hθ.1 hθ.2
  rw [polarToroidal_eq h.2 hs.le]
  exact harm_div wv (fun r hr => (h.2 r hr).1) hs.ne' φ

theorem ap_ok : azimuthalPoloidal z θ φ = cAP z θ φ := by
  have hs := Real.sin_pos_of_pos_of_lt_pi hθ.1 hθ.2
  rw [azimuthalPoloidal_eq h.2 hs.le]
  exact congrArg Neg.neg (harm_div wu (fun r hr => (h.2 r hr).1) hs.ne' φ)

theorem at_ok : azimuthalToroidal z θ φ = .ok (cAT z θ φ) :=
  azimuthalToroidal_eq h (Real.sin_pos_of_pos_of_lt_pi hθ.1 hθ.2) φ

end SphereLimit
end Verif
