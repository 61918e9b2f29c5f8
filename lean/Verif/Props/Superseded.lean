import Verif.Model.Superseded
import Verif.Lemmas.Zdi
import Verif.Props.Geometry
import Verif.Props.Longitudinal
import Mathlib.Analysis.Calculus.MeanValue
import Mathlib.Topology.UniformSpace.HeineCantor
import Mathlib.Data.List.GetD

/-!
# C82: the superseded polar field
-/

namespace Verif
open Spec Geometry Legendre
namespace Superseded

/-! ### Arrays by index -/

/-- Rows `b`, columns `j < k`. -/
def tab {β γ : Type} (B : List β) (k : ℕ) (F : ℕ → β → γ) : Arr2 γ := B.map fun b => (List.range k).map fun j => F j b

theorem map1_tab {β γ δ : Type} (B : List β) (k : ℕ) (F : ℕ → β → γ) (f : γ → δ) :
    map1 f (tab B k F) = tab B k fun j b => f (F j b) := by
  simp [map1, tab, Function.comp_def]

theorem map2_tab {β γ δ ε : Type} (B : List β) (k : ℕ) (F : ℕ → β → γ) (G : ℕ → β → δ) (f : γ → δ → ε) :
    map2 f (tab B k F) (tab B k G) = tab B k fun j b => f (F j b) (G j b) := by
  simp [map2, tab, List.zipWith_map_left, List.zipWith_map_right, List.zipWith_self]

theorem at2_tab {β γ : Type} {B : List β} {k : ℕ} {F : ℕ → β → γ} {i j : ℕ} {v : γ} (h : at2 (tab B k F) i j = some v) :
    j < k ∧ ∃ b, B[i]? = some b ∧ v = F j b := by
  rw [at2, tab, List.getElem?_map] at h
  rcases hb : B[i]? with _ | b
  · rw [hb] at h; simp at h
  · rw [hb] at h
    simp only [Option.map_some, Option.bind_some, List.getElem?_map, Option.map_eq_some_iff] at h
    obtain ⟨a, ha, rfl⟩ := h
    rw [List.getElem?_eq_some_iff] at ha
    obtain ⟨hj, ha⟩ := ha
    rw [List.getElem_range] at ha
    subst ha
    exact ⟨by simpa using hj, b, rfl, rfl⟩

theorem tab_at2 {β γ : Type} (B : List β) (k : ℕ) (F : ℕ → β → γ) {i j : ℕ} (hj : j < k) {b : β} (hb : B[i]? = some b) :
    at2 (tab B k F) i j = some (F j b) := by
  rw [at2, tab, List.getElem?_map, hb]
  simp [hj]

theorem grid_tab {γ : Type} (P A : List ℝ) (f : ℝ × ℝ → ℝ × ℝ → γ) :
    grid P A f = tab (steps A) (steps P).length fun j a => f ((steps P).getD j (0, 0)) a := by
  rw [grid, tab]
  apply List.map_congr_left
  intro a _
  apply List.ext_getElem
  · simp
  · intro i h1 h2
    simp only [List.length_map] at h1
    simp [h1]

theorem roll_tab {β : Type} (B : List β) (k : ℕ) (F : ℕ → ℝ) :
    roll (tab B k fun j _ => F j) = tab B k fun j _ => F (if j = 0 then k - 1 else j - 1) := by
  have h1 : ((tab B k fun j _ => F j).map fun row => row.getLastD 0) = List.replicate B.length
      (((List.range k).map F).getLastD 0) := by
    rw [tab, List.map_map]
    exact List.map_const' ..
  have h2 : (List.replicate B.length (((List.range k).map F).getLastD 0)).rotateRight 1
      = List.replicate B.length (((List.range k).map F).getLastD 0) := by
    rw [List.rotateRight]
    split
    · rfl
    · rw [List.eq_replicate_iff]
      refine ⟨by simp, fun b hb => ?_⟩
      rw [List.mem_append] at hb
      rcases hb with hb | hb
      · exact List.eq_of_mem_replicate (List.mem_of_mem_drop hb)
      · exact List.eq_of_mem_replicate (List.mem_of_mem_take hb)
  rw [roll, h1, h2, tab, tab]
  have h3 : (((((List.range k).map F).getLastD 0) :: ((List.range k).map F).dropLast).take ((List.range k).map F).length)
      = (List.range k).map fun j => F (if j = 0 then k - 1 else j - 1) := by
    rcases k with _ | k
    · rfl
    · apply List.ext_getElem
      · simp
      · intro i _ h
        rcases i with _ | i
        · have e : ((List.range (k + 1)).map F).getLastD 0 = F k := by simp [List.range_succ]
          simp only [List.getElem_take, List.getElem_cons_zero, e]
          simp
        · simp
  rw [← h3]
  clear h1 h2 h3
  induction B with
  | nil => rfl
  | cons b B ih => simpa [List.replicate_succ] using ih

/-! ### The differences -/

/-- Entry `j` of the gradient of `F` with respect to `X`. -/
noncomputable def gr (k : ℕ) (X F : ℕ → ℝ) (j : ℕ) : ℝ :=
  if j = 0 then (F 1 - F 0) / (X 1 - X 0)
  else if j + 1 = k then (F j - F (j - 1)) / (X j - X (j - 1))
  else -(X (j + 1) - X j) / ((X j - X (j - 1)) * ((X j - X (j - 1)) + (X (j + 1) - X j))) * F (j - 1)
    + ((X (j + 1) - X j) - (X j - X (j - 1))) / ((X j - X (j - 1)) * (X (j + 1) - X j)) * F j
    + (X j - X (j - 1)) / ((X (j + 1) - X j) * ((X j - X (j - 1)) + (X (j + 1) - X j))) * F (j + 1)

theorem getD_range (k : ℕ) (F : ℕ → ℝ) {j : ℕ} (h : j < k) : ((List.range k).map F).getD j 0 = F j := by
  rw [List.getD_eq_getElem _ _ (by simpa using h)]; simp

theorem gradAt_range {k : ℕ} (hk : 2 ≤ k) (X F : ℕ → ℝ) {j : ℕ} (hj : j < k) :
    gradAt ((List.range k).map X) ((List.range k).map F) j = gr k X F j := by
  rw [gradAt, gr]
  simp only [List.length_map, List.length_range]
  split_ifs with h1 h2
  · rw [getD_range k F (by omega), getD_range k F (by omega), getD_range k X (by omega), getD_range k X (by omega)]
  · rw [getD_range k F (by omega), getD_range k F (by omega), getD_range k X (by omega), getD_range k X (by omega),
      Nat.sub_add_cancel (by omega)]
  · rw [getD_range k F (by omega), getD_range k F (by omega), getD_range k F (by omega), getD_range k X (by omega),
      getD_range k X (by omega), getD_range k X (by omega), getD_range k X (by omega), Nat.sub_add_cancel (by omega)]

/-- The derivative the code uses at column `j`: angles `c`, values `F`. -/
noncomputable def dAt (k : ℕ) (c F : ℕ → ℝ) (j : ℕ) : Method → ℝ
  | .gradient => gr k (fun i => Real.cos (c i)) F j * Real.sin (c j)
  | .roll => (F j - F (if j = 0 then k - 1 else j - 1))
      / (Real.cos (c j) - Real.cos (c (if j = 0 then k - 1 else j - 1))) * Real.sin (c j)

theorem dplm_tab {β : Type} (B : List β) (k : ℕ) (c F : ℕ → ℝ) (m : Method)
    (h : m = .gradient → B ≠ [] ∧ 2 ≤ k) :
    dplm (tab B k fun j _ => F j) (tab B k fun j _ => c j) m = .ok (tab B k fun j _ => dAt k c F j m) := by
  rcases m with _ | _
  · obtain ⟨hB, hk⟩ := h rfl
    rw [dplm]
    obtain ⟨b, B, rfl⟩ := List.exists_cons_of_ne_nil hB
    have e : (tab (b :: B) k fun j _ => c j).head? = some ((List.range k).map c) := rfl
    rw [e]
    simp only [Option.elim_some, bind, Except.bind, pure, Except.pure]
    rw [gradient, if_neg (by simp only [List.length_map, List.length_range]; omega)]
    simp only
    rw [map1_tab]
    have e2 : ((tab (b :: B) k fun j _ => F j).map fun row => (List.range row.length).map
        (gradAt (((List.range k).map c).map Real.cos) row)) = tab (b :: B) k fun j _ => gr k (fun i => Real.cos (c i)) F j := by
      rw [tab, List.map_map, tab]
      apply List.map_congr_left
      intro _ _
      simp only [Function.comp, List.length_map, List.length_range, List.map_map]
      apply List.map_congr_left
      intro j hj
      exact gradAt_range hk _ _ (List.mem_range.1 hj)
    rw [e2, map2_tab]
    rfl
  · rw [dplm, map1_tab, map1_tab, roll_tab, roll_tab _ _ fun j => Real.cos (c j), map2_tab, map2_tab, map2_tab, map2_tab]
    rfl

theorem dplm_error {p θ : Arr2 ℝ} (h : ∀ r, θ.head? = some r → r.length < 2) : ∃ e, dplm p θ .gradient = .error e := by
  rw [dplm]
  rcases hh : θ.head? with _ | r
  · exact ⟨_, rfl⟩
  · simp only [Option.elim_some, bind, Except.bind]
    rw [gradient, if_pos (by simpa using h r hh)]
    exact ⟨_, rfl⟩

/-- The sum at column `j` and azimuth `f`. -/
noncomputable def tot (k : ℕ) (c : ℕ → ℝ) (m : Method) (z : Zdi) (j : ℕ) (f : ℝ) : ℂ :=
  (z.map fun r => r.b * cLm r.l r.m / (r.l + 1) * (dAt k c (fun i => lpmv r.m r.l (Real.cos (c i))) j m : ℝ)
    * Zdi.expi r.m f).sum

theorem fold_tab {β : Type} (B : List β) (k : ℕ) (c : ℕ → ℝ) (f : β → ℝ) (m : Method)
    (h : m = .gradient → B ≠ [] ∧ 2 ≤ k) (z : Zdi) (S : ℕ → β → ℂ) :
    z.foldlM (addRow m (tab B k fun j _ => c j) (tab B k fun _ b => f b)) (tab B k S)
      = .ok (tab B k fun j b => S j b + tot k c m z j (f b)) := by
  induction z generalizing S with
  | nil => simp [tot]; rfl
  | cons r z ih =>
    rw [List.foldlM_cons, addRow, map1_tab, dplm_tab B k c (fun i => lpmv r.m r.l (Real.cos (c i))) m h]
    simp only [bind, Except.bind, pure, Except.pure]
    rw [map2_tab, map2_tab]
    refine (ih _).trans ?_
    congr 2
    funext j b
    rw [tot, tot, List.map_cons, List.sum_cons]
    ring

theorem old_tab {β : Type} (B : List β) (k : ℕ) (c : ℕ → ℝ) (f : β → ℝ) (m : Method)
    (h : m = .gradient → B ≠ [] ∧ 2 ≤ k) (z : Zdi) :
    polarPoloidal m z (tab B k fun j _ => c j) (tab B k fun _ b => f b)
      = .ok (tab B k fun j b => (tot k c m z j (f b)).re) := by
  rw [polarPoloidal, map1_tab, fold_tab B k c f m h z]
  simp only [bind, Except.bind, pure, Except.pure]
  rw [map1_tab]
  simp

/-- The polar angle of column `j`. -/
noncomputable def cen (P : List ℝ) (j : ℕ) : ℝ := mid ((steps P).getD j (0, 0))

theorem centers_tab (P A : List ℝ) : (meshgrid P A).centers
    = (tab (steps A) (steps P).length fun j _ => cen P j, tab (steps A) (steps P).length fun _ a => mid a) := by
  rw [centers_eq, grid_tab, grid_tab]
  rfl

theorem steps_ne {A : List ℝ} (h : 2 ≤ A.length) : steps A ≠ [] := by
  rw [← List.length_pos_iff]; simp [steps]; omega

theorem steps_len (P : List ℝ) : (steps P).length = P.length - 1 := by simp [steps]

theorem old_eq (P A : List ℝ) (m : Method) (h : m = .gradient → 2 ≤ A.length ∧ 3 ≤ P.length) (z : Zdi) :
    polarPoloidal m z (meshgrid P A).centers.1 (meshgrid P A).centers.2
      = .ok (tab (steps A) (steps P).length fun j a => (tot (steps P).length (cen P) m z j (mid a)).re) := by
  rw [centers_tab]
  exact old_tab _ _ _ _ _ (fun e => ⟨steps_ne (h e).1, by rw [steps_len]; have := (h e).2; omega⟩) _

/-! ### Slopes -/

theorem thD_continuous (l m : ℕ) : Continuous (thD l m) := by
  have h : ∀ n, Continuous fun θ : ℝ => (rod l n).eval (Real.cos θ) := fun n => (rod l n).continuous.comp Real.continuous_cos
  have h1 := h (l + m)
  have h2 := h (l + m + 1)
  unfold thD
  fun_prop

theorem sin_pos' {θ η : ℝ} (hη : 0 < η) (h1 : η ≤ θ) (h2 : θ ≤ Real.pi - η) : 0 < Real.sin θ :=
  Real.sin_pos_of_pos_of_lt_pi (by linarith) (by linarith)

/-- A secant slope in the cosine is a tangent slope in between. -/
theorem secant (l m : ℕ) {a b : ℝ} (h0 : 0 < a) (hab : a < b) (hb : b < Real.pi) :
    ∃ c, a < c ∧ c < b ∧ (thP l m b - thP l m a) / (Real.cos b - Real.cos a) = -(thD l m c / Real.sin c) := by
  have hc1 : Continuous (thP l m) := continuous_iff_continuousAt.2 fun x => (hasDerivAt_thP l m x).continuousAt
  obtain ⟨c, hc, e⟩ := exists_ratio_hasDerivAt_eq_ratio_slope Real.cos (fun x => -Real.sin x) hab
    Real.continuous_cos.continuousOn (fun x _ => Real.hasDerivAt_cos x) (thP l m) (thD l m) hc1.continuousOn
    (fun x _ => hasDerivAt_thP l m x)
  refine ⟨c, hc.1, hc.2, ?_⟩
  have hs : 0 < Real.sin c := Real.sin_pos_of_pos_of_lt_pi (h0.trans hc.1) (hc.2.trans hb)
  have hd : Real.cos b - Real.cos a ≠ 0 := by
    have := Real.cos_lt_cos_of_nonneg_of_le_pi h0.le hb.le hab
    linarith
  field_simp
  linarith

theorem slope_near (l m : ℕ) {η ε : ℝ} (hη : 0 < η) (hε : 0 < ε) : ∃ δ > 0, ∀ θ θ', η ≤ θ → θ ≤ Real.pi - η →
    |θ' - θ| < δ → θ' ≠ θ →
    |(thP l m θ' - thP l m θ) / (Real.cos θ' - Real.cos θ) * Real.sin θ + thD l m θ| < ε := by
  have hc : ContinuousOn (fun t => thD l m t / Real.sin t) (Set.Icc (η / 2) (Real.pi - η / 2)) := by
    apply ContinuousOn.div (thD_continuous l m).continuousOn Real.continuous_sin.continuousOn
    intro x hx
    exact (sin_pos' (half_pos hη) hx.1 hx.2).ne'
  have hu := isCompact_Icc.uniformContinuousOn_of_continuous hc
  rw [Metric.uniformContinuousOn_iff] at hu
  obtain ⟨δ, hδ, hu⟩ := hu ε hε
  refine ⟨min δ (η / 2), lt_min hδ (half_pos hη), ?_⟩
  intro θ θ' h1 h2 hd hne
  have hd1 := hd.trans_le (min_le_left _ _)
  have hd2 := abs_lt.1 (hd.trans_le (min_le_right _ _))
  have key : ∃ c, |c - θ| < δ ∧ η / 2 ≤ c ∧ c ≤ Real.pi - η / 2 ∧
      (thP l m θ' - thP l m θ) / (Real.cos θ' - Real.cos θ) = -(thD l m c / Real.sin c) := by
    rcases lt_or_gt_of_ne hne with h | h
    · obtain ⟨c, c1, c2, e⟩ := secant l m (a := θ') (b := θ) (by linarith [hd2.1]) h (by linarith)
      refine ⟨c, ?_, by linarith [hd2.1], by linarith, ?_⟩
      · rw [abs_lt] at hd1 ⊢; constructor <;> linarith
      · rw [← e, ← neg_sub (thP l m θ), ← neg_sub (Real.cos θ), neg_div_neg_eq]
    · obtain ⟨c, c1, c2, e⟩ := secant l m (a := θ) (b := θ') (by linarith) h (by linarith [hd2.2])
      refine ⟨c, ?_, by linarith, by linarith [hd2.2], e⟩
      rw [abs_lt] at hd1 ⊢; constructor <;> linarith
  obtain ⟨c, k1, k2, k3, e⟩ := key
  have hs := sin_pos' hη h1 h2
  have hh := hu θ ⟨by linarith, by linarith⟩ c ⟨k2, k3⟩ (by rw [Real.dist_eq, abs_sub_comm]; exact k1)
  rw [Real.dist_eq] at hh
  have e2 : (thP l m θ' - thP l m θ) / (Real.cos θ' - Real.cos θ) * Real.sin θ + thD l m θ
      = Real.sin θ * (thD l m θ / Real.sin θ - thD l m c / Real.sin c) := by
    rw [e]; field_simp; ring
  rw [e2, abs_mul, abs_of_pos hs]
  calc Real.sin θ * _ ≤ 1 * |thD l m θ / Real.sin θ - thD l m c / Real.sin c| :=
        mul_le_mul_of_nonneg_right (Real.sin_le_one θ) (abs_nonneg _)
    _ < ε := by rwa [one_mul]

/-- Each difference is a weighted mean of the slopes to neighbours. -/
theorem gr_mean {k : ℕ} {X F : ℕ → ℝ} {j : ℕ} (hk : 2 ≤ k) (hj : j < k) (hX : ∀ i, i + 1 < k → X (i + 1) < X i) :
    ∃ w, 0 ≤ w ∧ w ≤ 1 ∧ ∃ a b, a < k ∧ b < k ∧ (a + 1 = j ∨ a = j + 1) ∧ (b + 1 = j ∨ b = j + 1) ∧
      gr k X F j = w * ((F a - F j) / (X a - X j)) + (1 - w) * ((F b - F j) / (X b - X j)) := by
  rcases j with _ | j
  · refine ⟨1, zero_le_one, le_rfl, 1, 1, by omega, by omega, Or.inr rfl, Or.inr rfl, ?_⟩
    rw [gr, if_pos rfl]; ring
  · by_cases hl : j + 1 + 1 = k
    · refine ⟨1, zero_le_one, le_rfl, j, j, by omega, by omega, Or.inl rfl, Or.inl rfl, ?_⟩
      rw [gr, if_neg (by omega), if_pos hl, Nat.add_sub_cancel, ← neg_sub (F j), ← neg_sub (X j), neg_div_neg_eq]; ring
    · have h1 := hX j hj
      have h2 := hX (j + 1) (by omega)
      refine ⟨(X (j + 1 + 1) - X (j + 1)) / ((X (j + 1) - X j) + (X (j + 1 + 1) - X (j + 1))), ?_, ?_, j, j + 1 + 1,
        by omega, by omega, Or.inl rfl, Or.inr rfl, ?_⟩
      · exact div_nonneg_of_nonpos (by linarith) (by linarith)
      · rw [div_le_one_of_neg (by linarith)]; linarith
      · rw [gr, if_neg (by omega), if_neg hl, Nat.add_sub_cancel]
        have n1 : X (j + 1) - X j ≠ 0 := by linarith
        have n2 : X (j + 1 + 1) - X (j + 1) ≠ 0 := by linarith
        have n3 : (X (j + 1) - X j) + (X (j + 1 + 1) - X (j + 1)) ≠ 0 := by linarith
        have n4 : X j - X (j + 1) ≠ 0 := by linarith
        have e4 : (F j - F (j + 1)) / (X j - X (j + 1)) = (F (j + 1) - F j) / (X (j + 1) - X j) := by
          rw [← neg_sub (F j), ← neg_sub (X j), neg_div_neg_eq]
        rw [e4]
        generalize X (j + 1) - X j = x at *
        generalize X (j + 1 + 1) - X (j + 1) = y at *
        field_simp
        ring

/-! ### The centres -/

theorem cen_eq (P : List ℝ) {j : ℕ} (h : j + 1 < P.length) : cen P j = (P[j] + P[j + 1]) / 2 := by
  rw [cen, List.getD, steps_get P j h, Option.getD_some, mid]

theorem P_lt {P : List ℝ} (iP : Increasing P) {i j : ℕ} (hij : i < j) (h : j < P.length) : P[i] < P[j] :=
  List.pairwise_iff_getElem.1 iP i j (by omega) h hij

theorem cen_lt {P : List ℝ} (iP : Increasing P) {j : ℕ} (h : j + 2 < P.length) : cen P j < cen P (j + 1) := by
  rw [cen_eq P (by omega), cen_eq P (by omega)]
  have h1 := P_lt iP (i := j) (j := j + 1) (by omega) (by omega)
  have h2 := P_lt iP (i := j + 1) (j := j + 1 + 1) (by omega) (by omega)
  linarith

theorem cen_offAxis {P : List ℝ} (iP : Increasing P) (h0 : ∀ p ∈ P, 0 ≤ p ∧ p ≤ Real.pi) {j : ℕ} (h : j + 1 < P.length) :
    OffAxis (cen P j) := by
  rw [cen_eq P h]
  have h1 := P_lt iP (i := j) (j := j + 1) (by omega) h
  have h2 := h0 P[j] (List.getElem_mem _)
  have h3 := h0 P[j + 1] (List.getElem_mem _)
  exact ⟨by linarith, by linarith⟩

theorem cos_cen_lt {P : List ℝ} (iP : Increasing P) (h0 : ∀ p ∈ P, 0 ≤ p ∧ p ≤ Real.pi) (i : ℕ)
    (h : i + 1 < (steps P).length) : Real.cos (cen P (i + 1)) < Real.cos (cen P i) := by
  rw [steps_len] at h
  exact Real.cos_lt_cos_of_nonneg_of_le_pi (cen_offAxis iP h0 (by omega)).1.le (cen_offAxis iP h0 (by omega)).2.le
    (cen_lt iP (by omega))

theorem mean_lt {w a b ε : ℝ} (w0 : 0 ≤ w) (w1 : w ≤ 1) (ha : |a| < ε) (hb : |b| < ε) : |w * a + (1 - w) * b| < ε := by
  refine lt_of_le_of_lt ?_ (max_lt ha hb)
  refine (abs_add_le _ _).trans ?_
  rw [abs_mul, abs_mul, abs_of_nonneg w0, abs_of_nonneg (sub_nonneg.2 w1)]
  nlinarith [le_max_left |a| |b|, le_max_right |a| |b|]

/-- Close to the derivative, away from the poles. -/
theorem dAt_near (l m : ℕ) (μ : Method) {η ε δ : ℝ} (hη : 0 < η)
    (hδ : ∀ θ θ', η ≤ θ → θ ≤ Real.pi - η → |θ' - θ| < δ → θ' ≠ θ →
      |(thP l m θ' - thP l m θ) / (Real.cos θ' - Real.cos θ) * Real.sin θ + thD l m θ| < ε)
    {P : List ℝ} (iP : Increasing P) (h0 : ∀ p ∈ P, 0 ≤ p ∧ p ≤ Real.pi) (h3 : 3 ≤ P.length)
    (hd : ∀ i (_ : i + 1 < P.length), P[i + 1] - P[i] < δ) {j : ℕ} (hj : j + 1 < P.length) (hr : μ = .roll → 0 < j)
    (h1 : η ≤ cen P j) (h2 : cen P j ≤ Real.pi - η) :
    |dAt (steps P).length (cen P) (fun i => thP l m (cen P i)) j μ + thD l m (cen P j)| < ε := by
  have nb : ∀ a, a < (steps P).length → (a + 1 = j ∨ a = j + 1) →
      |(thP l m (cen P a) - thP l m (cen P j)) / (Real.cos (cen P a) - Real.cos (cen P j)) * Real.sin (cen P j)
        + thD l m (cen P j)| < ε := by
    intro a ha hn
    rw [steps_len] at ha
    rcases hn with rfl | rfl
    · have k := cen_lt iP (j := a) (by omega)
      refine hδ _ _ h1 h2 ?_ k.ne
      rw [abs_lt]
      refine ⟨?_, by have := hd a (by omega); have := P_lt iP (i := a) (j := a + 1) (by omega) (by omega); linarith⟩
      rw [cen_eq P (by omega), cen_eq P (by omega)]
      have := hd a (by omega)
      have := hd (a + 1) (by omega)
      linarith
    · have k := cen_lt iP (j := j) (by omega)
      refine hδ _ _ h1 h2 ?_ k.ne'
      rw [abs_lt]
      refine ⟨by have := hd j (by omega); have := P_lt iP (i := j) (j := j + 1) (by omega) (by omega); linarith, ?_⟩
      rw [cen_eq P (by omega), cen_eq P (by omega)]
      have := hd j (by omega)
      have := hd (j + 1) (by omega)
      linarith
  rcases μ with _ | _
  · rw [dAt]
    have hl : 2 ≤ (steps P).length := by rw [steps_len]; omega
    obtain ⟨w, w0, w1, a, b, ha, hb, na, nb', e⟩ := gr_mean (X := fun i => Real.cos (cen P i)) (F := fun i => thP l m (cen P i)) hl
      (j := j) (by rw [steps_len]; omega) (cos_cen_lt iP h0)
    rw [e]
    have ka := nb a ha na
    have kb := nb b hb nb'
    have := mean_lt w0 w1 ka kb
    convert this using 2
    ring
  · have hj0 := hr rfl
    rw [dAt, if_neg (by omega)]
    have := nb (j - 1) (by rw [steps_len]; omega) (Or.inl (by omega))
    rwa [← neg_sub (thP l m (cen P j)), ← neg_sub (Real.cos (cen P j)), neg_div_neg_eq] at this

/-- One distance for all rows. -/
theorem slope_rows (z : Zdi) {η ε : ℝ} (hη : 0 < η) (hε : 0 < ε) : ∃ δ > 0, ∀ r ∈ z, ∀ θ θ', η ≤ θ → θ ≤ Real.pi - η →
    |θ' - θ| < δ → θ' ≠ θ →
    |(thP r.l.toNat r.m.toNat θ' - thP r.l.toNat r.m.toNat θ) / (Real.cos θ' - Real.cos θ) * Real.sin θ
      + thD r.l.toNat r.m.toNat θ| < ε := by
  induction z with
  | nil => exact ⟨1, one_pos, fun r hr => by simp at hr⟩
  | cons r z ih =>
    obtain ⟨δ, hδ, h⟩ := ih
    obtain ⟨δ', hδ', h'⟩ := slope_near r.l.toNat r.m.toNat hη hε
    refine ⟨min δ δ', lt_min hδ hδ', ?_⟩
    intro q hq θ θ' h1 h2 hd hne
    rcases List.mem_cons.1 hq with rfl | hq
    · exact h' θ θ' h1 h2 (hd.trans_le (min_le_right _ _)) hne
    · exact h q hq θ θ' h1 h2 (hd.trans_le (min_le_left _ _)) hne

theorem norm_expi (m : ℤ) (φ : ℝ) : ‖Zdi.expi m φ‖ = 1 := by
  rw [Zdi.expi, show Complex.I * m * φ = ((m * φ : ℝ) : ℂ) * Complex.I by push_cast; ring]
  exact Complex.norm_exp_ofReal_mul_I _

/-- The weight of a row. -/
noncomputable def coef (r : ZRow) : ℂ := r.b * cLm r.l r.m / (r.l + 1)

theorem sum_near (z : Zdi) (x y : ZRow → ℝ) (φ : ℝ) {ε : ℝ} (h : ∀ r ∈ z, |x r - y r| ≤ ε) :
    ‖(z.map fun r => coef r * (x r : ℝ) * Zdi.expi r.m φ).sum - (z.map fun r => coef r * (y r : ℝ) * Zdi.expi r.m φ).sum‖
      ≤ (z.map fun r => ‖coef r‖).sum * ε := by
  induction z with
  | nil => simp
  | cons r z ih =>
    simp only [List.map_cons, List.sum_cons]
    have ih := ih fun q hq => h q (List.mem_cons_of_mem _ hq)
    have hr := h r (List.mem_cons_self ..)
    rw [add_sub_add_comm, add_mul]
    refine (norm_add_le _ _).trans (add_le_add ?_ ih)
    rw [← sub_mul, ← mul_sub, norm_mul, norm_expi, mul_one, norm_mul, ← Complex.ofReal_sub, Complex.norm_real]
    exact mul_le_mul_of_nonneg_left hr (norm_nonneg _)

theorem lpmv_thP {z : Zdi} (hz : NonnegOrders z) {r : ZRow} (hr : r ∈ z) {θ : ℝ} (hθ : OffAxis θ) :
    lpmv r.m r.l (Real.cos θ) = thP r.l.toNat r.m.toNat θ := by
  rw [lpmv_nonneg (hz.2 r hr).1 (hz.2 r hr).2, legendreP_cos _ _ (Real.sin_pos_of_pos_of_lt_pi hθ.1 hθ.2).le]

/-- The differences use only the columns there are. -/
theorem dAt_congr {k : ℕ} (c : ℕ → ℝ) {F G : ℕ → ℝ} (h : ∀ i < k, F i = G i) {j : ℕ} (hk : 2 ≤ k) (hj : j < k) (μ : Method) :
    dAt k c F j μ = dAt k c G j μ := by
  rcases μ with _ | _
  · rw [dAt, dAt, gr, gr]
    split_ifs with h1 h2
    · rw [h 0 (by omega), h 1 (by omega)]
    · rw [h j hj, h (j - 1) (by omega)]
    · rw [h j hj, h (j - 1) (by omega), h (j + 1) (by omega)]
  · rw [dAt, dAt, h j hj]
    split_ifs
    · rw [h (k - 1) (by omega)]
    · rw [h (j - 1) (by omega)]

theorem tot_eq {z : Zdi} (hz : NonnegOrders z) {P : List ℝ} (iP : Increasing P) (h0 : ∀ p ∈ P, 0 ≤ p ∧ p ≤ Real.pi)
    (h3 : 3 ≤ P.length) {j : ℕ} (hj : j < (steps P).length) (μ : Method) (φ : ℝ) :
    tot (steps P).length (cen P) μ z j φ = (z.map fun r => coef r
      * (dAt (steps P).length (cen P) (fun i => thP r.l.toNat r.m.toNat (cen P i)) j μ : ℝ) * Zdi.expi r.m φ).sum := by
  rw [tot]
  congr 1
  apply List.map_congr_left
  intro r hr
  rw [coef, dAt_congr (cen P) (fun i hi => lpmv_thP hz hr (cen_offAxis iP h0 (by rw [steps_len] at hi; omega)))
    (by rw [steps_len]; omega) hj]

theorem exact_eq {z : Zdi} (hz : NonnegOrders z) {θ : ℝ} (hθ : OffAxis θ) (φ : ℝ) :
    z.polarPoloidal θ φ = .ok ((z.map fun r => coef r * ((-thD r.l.toNat r.m.toNat θ : ℝ) : ℂ) * Zdi.expi r.m φ).sum).re := by
  rw [Zdi.polarPoloidal_eq hz (Real.sin_pos_of_pos_of_lt_pi hθ.1 hθ.2), ← Complex.neg_re, Zdi.harm]
  congr 2
  rw [neg_eq_neg_one_mul]
  symm
  apply Zdi.sum_map_mul
  intro r _
  rw [coef]; push_cast; ring

end Superseded
open Superseded

/-! ### C82 -/

/-- **C82.** Away from the poles the field from finite differences is as close as wanted to the exact one on all fine enough
grids (for `roll`: except in the first column). -/
theorem C82_converges (method : Superseded.Method) (z : Zdi) (hz : NonnegOrders z) {η ε : ℝ} (hη : 0 < η) (hε : 0 < ε) :
    ∃ δ > 0, ∀ (P A : List ℝ) (g : Geom), Geom.init (.arr P) (.arr A) = .ok g → Increasing P →
      (∀ p ∈ P, 0 ≤ p ∧ p ≤ Real.pi) → 3 ≤ P.length → 2 ≤ A.length →
      (∀ i (_ : i + 1 < P.length), P[i + 1] - P[i] < δ) →
      ∃ F, Superseded.polarPoloidal method z g.centers.1 g.centers.2 = .ok F ∧
        ∀ i j θ φ v, at2 g.centers.1 i j = some θ → at2 g.centers.2 i j = some φ → at2 F i j = some v →
          (method = .roll → 0 < j) → η ≤ θ → θ ≤ Real.pi - η →
          ∃ w, z.polarPoloidal θ φ = .ok w ∧ |v - w| < ε := by
  set W := (z.map fun r => ‖Superseded.coef r‖).sum with hW
  have hW0 : 0 ≤ W := List.sum_nonneg (by intro x hx; obtain ⟨r, _, rfl⟩ := List.mem_map.1 hx; exact norm_nonneg _)
  have he : 0 < ε / (W + 1) := by positivity
  obtain ⟨δ, hδ, hs⟩ := slope_rows z hη he
  refine ⟨δ, hδ, ?_⟩
  intro P A g hg iP h0 h3 h2 hd
  obtain ⟨rfl, _, _⟩ := init_arr hg
  refine ⟨_, old_eq P A method (fun _ => ⟨h2, h3⟩) z, ?_⟩
  intro i j θ φ v hθ hφ hv hr l1 l2
  rw [centers_tab] at hθ hφ
  obtain ⟨hj, a, ha, rfl⟩ := at2_tab hθ
  obtain ⟨_, a', ha', rfl⟩ := at2_tab hφ
  obtain ⟨_, a'', ha'', rfl⟩ := at2_tab hv
  rw [ha] at ha' ha''
  cases ha'; cases ha''
  have hj' : j + 1 < P.length := by rw [steps_len] at hj; omega
  refine ⟨_, exact_eq hz (cen_offAxis iP h0 hj') (mid a), ?_⟩
  rw [tot_eq hz iP h0 h3 hj, ← Complex.sub_re]
  refine (Complex.abs_re_le_norm _).trans_lt ((sum_near z _ _ (mid a) (ε := ε / (W + 1)) fun r hr' => ?_).trans_lt ?_)
  · rw [sub_neg_eq_add]
    exact (dAt_near _ _ method hη (hs r hr') iP h0 h3 hd hj' hr l1 l2).le
  · rw [← hW, mul_div_assoc', div_lt_iff₀ (by positivity)]
    nlinarith

/-- **C82.** It is defined exactly if there are at least two centres in polar direction and one in azimuth, or nothing to
add. -/
theorem C82_iff (z : Zdi) {P A : List ℝ} {g : Geom} (hg : Geom.init (.arr P) (.arr A) = .ok g) :
    (∃ F, Superseded.polarPoloidal .gradient z g.centers.1 g.centers.2 = .ok F) ↔
      z = [] ∨ (2 ≤ A.length ∧ 3 ≤ P.length) := by
  obtain ⟨rfl, _, _⟩ := init_arr hg
  constructor
  · rintro ⟨F, hF⟩
    rcases z with _ | ⟨r, z⟩
    · exact Or.inl rfl
    right
    by_contra hn
    obtain ⟨e, he⟩ := dplm_error (p := map1 (fun t => lpmv r.m r.l (Real.cos t)) (meshgrid P A).centers.1)
      (θ := (meshgrid P A).centers.1) (by
        intro row hrow
        rw [centers_tab] at hrow
        rcases hA : steps A with _ | ⟨a, A'⟩
        · rw [hA] at hrow; simp [tab] at hrow
        · have h1 : 2 ≤ A.length := by
            have := congrArg List.length hA
            rw [steps_len] at this; simp at this; omega
          rw [hA] at hrow
          simp only [tab, List.map_cons, List.head?_cons, Option.some.injEq] at hrow
          rw [← hrow]
          simp only [List.length_map, List.length_range, steps_len]
          omega)
    rw [Superseded.polarPoloidal, List.foldlM_cons, addRow, he] at hF
    simp only [bind, Except.bind] at hF
    cases hF
  · rintro (rfl | ⟨h1, h2⟩)
    · exact ⟨_, rfl⟩
    · exact ⟨_, old_eq P A .gradient (fun _ => ⟨h1, h2⟩) z⟩

namespace Superseded

/-! ### Low degrees -/

theorem thD_of_quad {l m : ℕ} {α β γ : ℝ} (h : ∀ t, thP l m t = α + β * Real.cos t + γ * Real.cos t ^ 2) (θ : ℝ) :
    thD l m θ = -(Real.sin θ * (β + 2 * γ * Real.cos θ)) := by
  have h1 := hasDerivAt_thP l m θ
  rw [funext h] at h1
  have h2 : HasDerivAt (fun t => α + β * Real.cos t + γ * Real.cos t ^ 2)
      (β * -Real.sin θ + γ * (2 * Real.cos θ ^ 1 * -Real.sin θ)) θ := by
    have := ((Real.hasDerivAt_cos θ).const_mul β |>.const_add α).add (((Real.hasDerivAt_cos θ).pow 2).const_mul γ)
    exact this.congr_deriv (by push_cast; ring)
  rw [h1.unique h2]; ring

theorem thP_00 (t : ℝ) : thP 0 0 t = 1 + 0 * Real.cos t + 0 * Real.cos t ^ 2 := by
  simp [thP, rod, rodBase, rodNorm]

theorem thP_10 (t : ℝ) : thP 1 0 t = 0 + 1 * Real.cos t + 0 * Real.cos t ^ 2 := by
  simp [thP, rod, rodBase, rodNorm]
  ring

theorem thP_11 (t : ℝ) : thP 1 1 t = -Real.sin t := by
  simp [thP, rod, rodBase, rodNorm]
  ring

theorem thP_20 (t : ℝ) : thP 2 0 t = -1 / 2 + 0 * Real.cos t + 3 / 2 * Real.cos t ^ 2 := by
  simp [thP, rod, rodBase, rodNorm, Polynomial.derivative_pow]
  ring

theorem thP_22 (t : ℝ) : thP 2 2 t = 3 + 0 * Real.cos t + -3 * Real.cos t ^ 2 := by
  simp [thP, rod, rodBase, rodNorm, Polynomial.derivative_pow]
  have := Real.sin_sq_add_cos_sq t
  nlinarith

theorem gr_lin {k : ℕ} {X F : ℕ → ℝ} {α β : ℝ} (hk : 2 ≤ k) (hX : ∀ i, i + 1 < k → X (i + 1) < X i)
    (hF : ∀ i, F i = α + β * X i) {j : ℕ} (hj : j < k) : gr k X F j = β := by
  obtain ⟨w, _, _, a, b, ha, hb, na, nb, e⟩ := gr_mean (F := F) hk hj hX
  have key : ∀ a, a < k → (a + 1 = j ∨ a = j + 1) → (F a - F j) / (X a - X j) = β := by
    intro a ha na
    have hne : X a - X j ≠ 0 := by
      rcases na with rfl | rfl
      · have := hX a hj; linarith
      · have := hX j ha; linarith
    rw [hF, hF]; field_simp; ring
  rw [e, key a ha na, key b hb nb]; ring

theorem gr_quad {k : ℕ} {X F : ℕ → ℝ} {α β γ : ℝ} (hX : ∀ i, i + 1 < k → X (i + 1) < X i)
    (hF : ∀ i, F i = α + β * X i + γ * X i ^ 2) {j : ℕ} (h1 : 0 < j) (h2 : j + 1 < k) :
    gr k X F j = β + 2 * γ * X j := by
  obtain ⟨i, rfl⟩ := Nat.exists_eq_add_of_lt h1
  rw [zero_add] at *
  have l1 := hX i (by omega)
  have l2 := hX (i + 1) h2
  rw [gr, if_neg (by omega), if_neg (by omega), Nat.add_sub_cancel, hF, hF, hF]
  have n1 : X (i + 1) - X i ≠ 0 := by linarith
  have n2 : X (i + 1 + 1) - X (i + 1) ≠ 0 := by linarith
  have n3 : (X (i + 1) - X i) + (X (i + 1 + 1) - X (i + 1)) ≠ 0 := by linarith
  obtain ⟨x, hx⟩ : ∃ x, x = X (i + 1) - X i := ⟨_, rfl⟩
  obtain ⟨y, hy⟩ : ∃ y, y = X (i + 1 + 1) - X (i + 1) := ⟨_, rfl⟩
  have e1 : X i = X (i + 1) - x := by linarith
  have e2 : X (i + 1 + 1) = X (i + 1) + y := by linarith
  rw [← hx] at n1 n3 ⊢
  rw [← hy] at n2 n3 ⊢
  rw [e1, e2]
  field_simp
  ring

end Superseded

/-- **C82.** It is exact for the degrees 0 and 1 of order 0, -/
theorem C82_exact (z : Zdi) (hne : z ≠ []) (hz : ∀ r ∈ z, (r.l, r.m) ∈ [((0 : ℤ), (0 : ℤ)), (1, 0)] )
    {P A : List ℝ} {g : Geom} (hg : Geom.init (.arr P) (.arr A) = .ok g) (iP : Increasing P)
    (h0 : ∀ p ∈ P, 0 ≤ p ∧ p ≤ Real.pi) (h3 : 3 ≤ P.length) (h2 : 2 ≤ A.length) :
    ∃ F, Superseded.polarPoloidal .gradient z g.centers.1 g.centers.2 = .ok F ∧
      ∀ i j θ φ v, at2 g.centers.1 i j = some θ → at2 g.centers.2 i j = some φ → at2 F i j = some v →
        z.polarPoloidal θ φ = .ok v := by
  obtain ⟨rfl, _, _⟩ := init_arr hg
  have hn : NonnegOrders z := ⟨hne, fun r hr => by
    have := hz r hr
    simp only [List.mem_cons, Prod.mk.injEq, List.not_mem_nil, or_false] at this
    omega⟩
  refine ⟨_, old_eq P A .gradient (fun _ => ⟨h2, h3⟩) z, ?_⟩
  intro i j θ φ v hθ hφ hv
  rw [centers_tab] at hθ hφ
  obtain ⟨hj, a, ha, rfl⟩ := at2_tab hθ
  obtain ⟨_, a', ha', rfl⟩ := at2_tab hφ
  obtain ⟨_, a'', ha'', rfl⟩ := at2_tab hv
  rw [ha] at ha' ha''
  cases ha'; cases ha''
  have hj' : j + 1 < P.length := by rw [steps_len] at hj; omega
  rw [exact_eq hn (cen_offAxis iP h0 hj'), tot_eq hn iP h0 h3 hj]
  congr 3
  apply List.map_congr_left
  intro r hr
  congr 3
  rw [dAt]
  have hk : 2 ≤ (steps P).length := by rw [steps_len]; omega
  have := hz r hr
  simp only [List.mem_cons, Prod.mk.injEq, List.not_mem_nil, or_false] at this
  rcases this with ⟨e1, e2⟩ | ⟨e1, e2⟩
  · rw [e1, e2, Int.toNat_zero, thD_of_quad thP_00, gr_lin (α := 1) (β := 0) hk (cos_cen_lt iP h0) (fun i => by rw [thP_00]; ring) hj]
    ring
  · rw [e1, e2, Int.toNat_zero, Int.toNat_one, thD_of_quad thP_10,
      gr_lin (α := 0) (β := 1) hk (cos_cen_lt iP h0) (fun i => by rw [thP_10]; ring) hj]
    ring

/-- **C82.** and between the first and the last column also for degree 2 of even order. -/
theorem C82_interior (z : Zdi) (hne : z ≠ []) (hz : ∀ r ∈ z, (r.l, r.m) ∈ [((0 : ℤ), (0 : ℤ)), (1, 0), (2, 0), (2, 2)])
    {P A : List ℝ} {g : Geom} (hg : Geom.init (.arr P) (.arr A) = .ok g) (iP : Increasing P)
    (h0 : ∀ p ∈ P, 0 ≤ p ∧ p ≤ Real.pi) (h3 : 3 ≤ P.length) (h2 : 2 ≤ A.length) :
    ∃ F, Superseded.polarPoloidal .gradient z g.centers.1 g.centers.2 = .ok F ∧
      ∀ i j θ φ v, 0 < j → j + 2 < P.length → at2 g.centers.1 i j = some θ → at2 g.centers.2 i j = some φ →
        at2 F i j = some v → z.polarPoloidal θ φ = .ok v := by
  obtain ⟨rfl, _, _⟩ := init_arr hg
  have hn : NonnegOrders z := ⟨hne, fun r hr => by
    have := hz r hr
    simp only [List.mem_cons, Prod.mk.injEq, List.not_mem_nil, or_false] at this
    omega⟩
  refine ⟨_, old_eq P A .gradient (fun _ => ⟨h2, h3⟩) z, ?_⟩
  intro i j θ φ v j1 j2 hθ hφ hv
  rw [centers_tab] at hθ hφ
  obtain ⟨hj, a, ha, rfl⟩ := at2_tab hθ
  obtain ⟨_, a', ha', rfl⟩ := at2_tab hφ
  obtain ⟨_, a'', ha'', rfl⟩ := at2_tab hv
  rw [ha] at ha' ha''
  cases ha'; cases ha''
  rw [exact_eq hn (cen_offAxis iP h0 (by omega)), tot_eq hn iP h0 h3 hj]
  congr 3
  apply List.map_congr_left
  intro r hr
  congr 3
  have hk : j + 1 < (steps P).length := by rw [steps_len]; omega
  have key : ∀ (l m : ℕ) (α β γ : ℝ), (∀ t, thP l m t = α + β * Real.cos t + γ * Real.cos t ^ 2) →
      dAt (steps P).length (cen P) (fun i => thP l m (cen P i)) j .gradient = -thD l m (cen P j) := by
    intro l m α β γ h
    rw [dAt, thD_of_quad h, gr_quad (cos_cen_lt iP h0) (fun i => h (cen P i)) j1 hk]; ring
  have := hz r hr
  simp only [List.mem_cons, Prod.mk.injEq, List.not_mem_nil, or_false] at this
  rcases this with ⟨e1, e2⟩ | ⟨e1, e2⟩ | ⟨e1, e2⟩ | ⟨e1, e2⟩ <;> rw [e1, e2]
  · exact (key 0 0 _ _ _ thP_00).symm
  · exact (key 1 0 _ _ _ thP_10).symm
  · exact (key 2 0 _ _ _ thP_20).symm
  · exact (key 2 2 _ _ _ thP_22).symm

/-- **C82.** The cartesian poloidal field is off the one of `as_poloidal` by exactly the error of the polar component. -/
theorem C82_cartesian (method : Superseded.Method) (z : Zdi) (hz : NonnegOrders z) {P A : List ℝ} {g : Geom}
    (hg : Geom.init (.arr P) (.arr A) = .ok g) (iP : Increasing P) (h0 : ∀ p ∈ P, 0 ≤ p ∧ p ≤ Real.pi) (h3 : 3 ≤ P.length)
    (h2 : 2 ≤ A.length) :
    ∃ F G, Superseded.polarPoloidal method z g.centers.1 g.centers.2 = .ok F ∧
      Superseded.cartesianPoloidal method z g.centers.1 g.centers.2 = .ok G ∧ HasShape G (A.length - 1) (P.length - 1) ∧
      ∀ i j θ φ v V, at2 g.centers.1 i j = some θ → at2 g.centers.2 i j = some φ → at2 F i j = some v →
        at2 G i j = some V → ∃ w W, z.polarPoloidal θ φ = .ok w ∧ z.poloidal.cartesian θ φ = .ok W ∧
          (V 0 - W 0) ^ 2 + (V 1 - W 1) ^ 2 + (V 2 - W 2) ^ 2 = (v - w) ^ 2 := by
  obtain ⟨rfl, _, _⟩ := init_arr hg
  have hF := old_eq P A method (fun _ => ⟨h2, h3⟩) z
  refine ⟨_, tab (steps A) (steps P).length fun j a => toCartesian (cen P j) (mid a)
      (z.radialPoloidal (cen P j) (mid a)) (tot (steps P).length (cen P) method z j (mid a)).re
      (z.azimuthalPoloidal (cen P j) (mid a)), hF, ?_, ?_, ?_⟩
  · rw [Superseded.cartesianPoloidal, hF, centers_tab]
    simp only [bind, Except.bind, pure, Except.pure]
    rw [map2_tab, map2_tab]
  · refine ⟨by simp [tab, steps_len], fun r hr => ?_⟩
    obtain ⟨a, _, rfl⟩ := List.mem_map.1 hr
    simp [steps_len]
  · intro i j θ φ v V hθ hφ hv hV
    rw [centers_tab] at hθ hφ
    obtain ⟨hj, a, ha, rfl⟩ := at2_tab hθ
    obtain ⟨_, a', ha', rfl⟩ := at2_tab hφ
    obtain ⟨_, a'', ha'', rfl⟩ := at2_tab hv
    obtain ⟨_, a3, ha3, rfl⟩ := at2_tab hV
    rw [ha] at ha' ha'' ha3
    cases ha'; cases ha''; cases ha3
    have hθ := cen_offAxis iP h0 (j := j) (by rw [steps_len] at hj; omega)
    have hs := Real.sin_pos_of_pos_of_lt_pi hθ.1 hθ.2
    have hp : NonnegOrders z.poloidal := by
      refine ⟨by simpa [Zdi.poloidal, Zdi.copy] using hz.1, ?_⟩
      intro r hr
      obtain ⟨r', hr', rfl⟩ := List.mem_map.1 hr
      exact hz.2 r' hr'
    have e1 : z.poloidal.radial (cen P j) (mid a) = z.radialPoloidal (cen P j) (mid a) := by
      simp [Zdi.radial, Zdi.radialPoloidal, Zdi.radialToroidal, Zdi.poloidal, Zdi.copy, Function.comp_def]
    have e2 : z.poloidal.polar (cen P j) (mid a) = z.polarPoloidal (cen P j) (mid a) := by
      rw [Zdi.polar, Zdi.polarPoloidal_eq hp hs, Zdi.polarPoloidal_eq hz hs]
      simp [bind, Except.bind, pure, Except.pure, Zdi.harm, Zdi.polarToroidal, Zdi.poloidal, Zdi.copy,
        Function.comp_def]
    have e3 : z.poloidal.azimuthal (cen P j) (mid a) = .ok (z.azimuthalPoloidal (cen P j) (mid a)) := by
      rw [Zdi.azimuthal, Zdi.azimuthalToroidal_eq hp hs]
      simp [bind, Except.bind, pure, Except.pure, Zdi.harm, Zdi.azimuthalPoloidal, Zdi.poloidal, Zdi.copy,
        Function.comp_def]
    obtain ⟨w, hw⟩ : ∃ w, z.polarPoloidal (cen P j) (mid a) = .ok w := ⟨_, exact_eq hz hθ _⟩
    refine ⟨w, toCartesian (cen P j) (mid a) (z.radialPoloidal (cen P j) (mid a)) w
      (z.azimuthalPoloidal (cen P j) (mid a)), hw, ?_, ?_⟩
    · rw [Zdi.cartesian, e1, e2, e3, hw]; rfl
    · simp only [toCartesian, sphToRectMatrix, Matrix.mulVec, dotProduct, Fin.sum_univ_three]
      simp only [Matrix.of_apply, Matrix.cons_val_zero, Matrix.cons_val_one, Matrix.cons_val, Matrix.cons_val']
      have s1 := Real.sin_sq_add_cos_sq (cen P j)
      have s2 := Real.sin_sq_add_cos_sq (mid a)
      generalize (tot (steps P).length (cen P) method z j (mid a)).re = v
      linear_combination (v - w) ^ 2 * s1 + (v - w) ^ 2 * Real.cos (cen P j) ^ 2 * s2

namespace Superseded

theorem lin_bounds {n : ℕ} (hn : 3 ≤ n) : ∀ p ∈ lin Real.pi n, 0 ≤ p ∧ p ≤ Real.pi := by
  intro p hp
  obtain ⟨i, hi, rfl⟩ := List.mem_iff_getElem.1 hp
  rw [lin_get]
  rw [lin_length] at hi
  have h1 : (0 : ℝ) < (n : ℝ) - 1 := by have : (3 : ℝ) ≤ n := by exact_mod_cast hn
                                        linarith
  have h2 : (i : ℝ) ≤ (n : ℝ) - 1 := by
    have : (i : ℝ) + 1 ≤ n := by exact_mod_cast hi
    linarith
  have := Real.pi_pos
  refine ⟨by positivity, ?_⟩
  rw [mul_div_assoc', div_le_iff₀ h1]
  nlinarith

theorem cen_lin {n j : ℕ} (h : j + 1 < n) : cen (lin Real.pi n) j = ((j : ℝ) + 1 / 2) * (Real.pi / ((n : ℝ) - 1)) := by
  rw [cen_eq _ (by rw [lin_length]; exact h), lin_get, lin_get]
  push_cast; ring

theorem half_angle {n : ℕ} (hn : 3 ≤ n) : 0 < Real.pi / ((n : ℝ) - 1) ∧ Real.pi / ((n : ℝ) - 1) ≤ Real.pi / 2 := by
  have h1 : (2 : ℝ) ≤ (n : ℝ) - 1 := by have : (3 : ℝ) ≤ n := by exact_mod_cast hn
                                        linarith
  have := Real.pi_pos
  exact ⟨by positivity, by gcongr⟩

theorem thD_11 (t : ℝ) : thD 1 1 t = -Real.cos t := by
  have h := hasDerivAt_thP 1 1 t
  rw [funext thP_11] at h
  exact h.unique (Real.hasDerivAt_sin t).neg

theorem init_int_arr {n k : ℕ} {g : Geom} (h : Geom.init (.int n) (.int k) = .ok g) :
    g = meshgrid (lin Real.pi n) (lin (2 * Real.pi) k) := (init_arr (init_ints ▸ h)).1

/-- At the first centre the slope to the second. -/
theorem first_slope {h : ℝ} (h0 : 0 < h) (h1 : h ≤ Real.pi / 2) :
    (-Real.sin (3 / 2 * h) - -Real.sin (1 / 2 * h)) / (Real.cos (3 / 2 * h) - Real.cos (1 / 2 * h)) * Real.sin (1 / 2 * h)
      = Real.cos h / (1 + Real.cos h) * Real.cos (1 / 2 * h) := by
  set x := 1 / 2 * h with hx
  have e3 : 3 / 2 * h = h + x := by rw [hx]; ring
  have eh : h = x + x := by rw [hx]; ring
  have e1 : x = h - x := by rw [hx]; ring
  have hs : 0 < Real.sin x := Real.sin_pos_of_pos_of_lt_pi (by rw [hx]; linarith) (by rw [hx]; linarith)
  have hc : 0 < Real.cos x := Real.cos_pos_of_mem_Ioo ⟨by rw [hx]; linarith, by rw [hx]; linarith⟩
  have hsh : 0 < Real.sin h := Real.sin_pos_of_pos_of_lt_pi h0 (by linarith [Real.pi_pos])
  have s2 : Real.sin h = 2 * Real.sin x * Real.cos x := by rw [eh, ← two_mul, Real.sin_two_mul]
  have c2 : Real.cos h = 2 * Real.cos x ^ 2 - 1 := by rw [eh, ← two_mul, Real.cos_two_mul]
  have d : Real.cos (3 / 2 * h) - Real.cos x = -2 * Real.sin h * Real.sin x := by
    rw [e3]; nth_rewrite 2 [e1]; rw [Real.cos_add, Real.cos_sub]; ring
  have e : -Real.sin (3 / 2 * h) - -Real.sin x = -2 * Real.cos h * Real.sin x := by
    rw [e3]; nth_rewrite 2 [e1]; rw [Real.sin_add, Real.sin_sub]; ring
  rw [d, e]
  have hp : 1 + Real.cos h = 2 * Real.cos x ^ 2 := by rw [c2]; ring
  rw [hp, s2]
  field_simp

end Superseded

/-- **C82 (violated).** Next to the pole the field of degree 1 and order 1 is less than half of the exact one, on every
equidistant grid; -/
theorem C82_pole (a b c : ℂ) {n k : ℕ} (hn : 3 ≤ n) (hk : 2 ≤ k) {g : Geom} (hg : Geom.init (.int n) (.int k) = .ok g) :
    ∃ F, Superseded.polarPoloidal .gradient [⟨1, 1, a, b, c⟩] g.centers.1 g.centers.2 = .ok F ∧
      ∀ i θ φ v, at2 g.centers.1 i 0 = some θ → at2 g.centers.2 i 0 = some φ → at2 F i 0 = some v →
        ∃ w, Zdi.polarPoloidal [⟨1, 1, a, b, c⟩] θ φ = .ok w ∧
          v = Real.cos (Real.pi / ((n : ℝ) - 1)) / (1 + Real.cos (Real.pi / ((n : ℝ) - 1))) * w ∧ |w| / 2 ≤ |v - w| := by
  have hz : NonnegOrders [(⟨1, 1, a, b, c⟩ : ZRow)] := ⟨by simp, by simp⟩
  have hP := lin_increasing Real.pi_pos (by omega : 2 ≤ n)
  obtain rfl := init_int_arr hg
  refine ⟨_, old_eq _ _ .gradient (fun _ => ⟨by rwa [lin_length], by rwa [lin_length]⟩) _, ?_⟩
  intro i θ φ v hθ hφ hv
  rw [centers_tab] at hθ hφ
  obtain ⟨hj, q, hq, rfl⟩ := at2_tab hθ
  obtain ⟨_, q', hq', rfl⟩ := at2_tab hφ
  obtain ⟨_, q'', hq'', rfl⟩ := at2_tab hv
  rw [hq] at hq' hq''
  cases hq'; cases hq''
  have h3 : 3 ≤ (lin Real.pi n).length := by rwa [lin_length]
  refine ⟨_, exact_eq hz (cen_offAxis hP (lin_bounds hn) (by omega)) (mid q), ?_⟩
  rw [tot_eq hz hP (lin_bounds hn) h3 hj]
  simp only [List.map_cons, List.map_nil, List.sum_cons, List.sum_nil, add_zero, Int.toNat_one]
  obtain ⟨k0, k1⟩ := half_angle hn
  set h := Real.pi / ((n : ℝ) - 1) with hh
  have c0 : cen (lin Real.pi n) 0 = 1 / 2 * h := by rw [cen_lin (by omega)]; push_cast; ring
  have c1 : cen (lin Real.pi n) 1 = 3 / 2 * h := by rw [cen_lin (by omega)]; push_cast; ring
  have ed : dAt (steps (lin Real.pi n)).length (cen (lin Real.pi n)) (fun i => thP 1 1 (cen (lin Real.pi n) i)) 0 .gradient
      = Real.cos h / (1 + Real.cos h) * -thD 1 1 (cen (lin Real.pi n) 0) := by
    rw [dAt, gr, if_pos rfl, thP_11, thP_11, thD_11, neg_neg, c0, c1]
    exact first_slope k0 k1
  have hch : 0 ≤ Real.cos h := Real.cos_nonneg_of_mem_Icc ⟨by linarith, k1⟩
  have e : (Superseded.coef ⟨1, 1, a, b, c⟩ * ((dAt (steps (lin Real.pi n)).length (cen (lin Real.pi n))
      (fun i => thP 1 1 (cen (lin Real.pi n) i)) 0 .gradient : ℝ) : ℂ) * Zdi.expi 1 (mid q)).re
      = Real.cos h / (1 + Real.cos h) * (Superseded.coef ⟨1, 1, a, b, c⟩
        * ((-thD 1 1 (cen (lin Real.pi n) 0) : ℝ) : ℂ) * Zdi.expi 1 (mid q)).re := by
    rw [ed, ← Complex.re_ofReal_mul]
    congr 1
    push_cast; ring
  refine ⟨e, ?_⟩
  rw [e]
  generalize (Superseded.coef ⟨1, 1, a, b, c⟩ * ((-thD 1 1 (cen (lin Real.pi n) 0) : ℝ) : ℂ) * Zdi.expi 1 (mid q)).re = w
  have e' : Real.cos h / (1 + Real.cos h) * w - w = -(1 / (1 + Real.cos h)) * w := by field_simp; ring
  have hp : 0 < 1 / (1 + Real.cos h) := by positivity
  rw [e', abs_mul, abs_neg, abs_of_pos hp]
  have : 1 / 2 ≤ 1 / (1 + Real.cos h) := one_div_le_one_div_of_le (by positivity) (by linarith [Real.cos_le_one h])
  nlinarith [abs_nonneg w]

namespace Superseded

theorem cLm_pos {l m : ℤ} (h0 : 0 ≤ m) (h1 : m ≤ l) : 0 < cLm l m := by
  have := Real.pi_pos
  rw [cLm, spFactorial, spFactorial, if_neg (by omega), if_neg (by omega)]
  have h2 : (0 : ℝ) < 2 * l + 1 := by have : (0 : ℝ) ≤ l := by exact_mod_cast h0.trans h1
                                      linarith
  have := Nat.factorial_pos (l - m).toNat
  have := Nat.factorial_pos (l + m).toNat
  apply Real.sqrt_pos.2
  positivity

theorem init_ints_ok {n k : ℕ} (hn : 2 ≤ n) (hk : 2 ≤ k) : ∃ g, Geom.init (.int n) (.int k) = .ok g := by
  obtain ⟨g, hg, _⟩ := C46_full_sphere n k hn hk
  exact ⟨g, hg⟩

end Superseded

/-- **C82 (violated).** hence the error there does not vanish however fine the grid is. -/
theorem C82_stuck : ∃ z, NonnegOrders z ∧ ∃ c > 0, ∀ n : ℕ, 3 ≤ n → ∃ g F θ φ v w,
    Geom.init (.int n) (.int 2) = .ok g ∧ Superseded.polarPoloidal .gradient z g.centers.1 g.centers.2 = .ok F ∧
    at2 g.centers.1 0 0 = some θ ∧ at2 g.centers.2 0 0 = some φ ∧ at2 F 0 0 = some v ∧
    z.polarPoloidal θ φ = .ok w ∧ c ≤ |v - w| := by
  have hz : NonnegOrders [(⟨1, 1, 0, 1, 0⟩ : ZRow)] := ⟨by simp, by simp⟩
  have hc := cLm_pos (l := 1) (m := 1) (by norm_num) (by norm_num)
  refine ⟨_, hz, cLm 1 1 / 2 * Real.cos (Real.pi / 4) / 2, ?_, ?_⟩
  · rw [Real.cos_pi_div_four]; positivity
  intro n hn
  obtain ⟨g, hg⟩ := init_ints_ok (k := 2) (by omega : 2 ≤ n) le_rfl
  obtain ⟨F, hF, hv⟩ := C82_pole 0 1 0 hn le_rfl hg
  have hP := lin_increasing Real.pi_pos (by omega : 2 ≤ n)
  obtain rfl := init_int_arr hg
  have hs : (steps (lin (2 * Real.pi) 2))[0]? = some (0, 2 * Real.pi) := by
    rw [steps_get _ _ (by rw [lin_length]; omega), lin_get, lin_get]; norm_num
  have hl : 0 < (steps (lin Real.pi n)).length := by rw [steps_len, lin_length]; omega
  have aθ : at2 (meshgrid (lin Real.pi n) (lin (2 * Real.pi) 2)).centers.1 0 0 = some (cen (lin Real.pi n) 0) := by
    rw [centers_tab]; exact tab_at2 _ _ _ hl hs
  have aφ : at2 (meshgrid (lin Real.pi n) (lin (2 * Real.pi) 2)).centers.2 0 0 = some (mid (0, 2 * Real.pi)) := by
    rw [centers_tab]; exact tab_at2 _ _ _ hl hs
  have eF := old_eq (lin Real.pi n) (lin (2 * Real.pi) 2) .gradient
    (fun _ => ⟨by rw [lin_length], by rwa [lin_length]⟩) [⟨1, 1, 0, 1, 0⟩]
  rw [hF] at eF
  have aF : at2 F 0 0 = some (tot (steps (lin Real.pi n)).length (cen (lin Real.pi n)) .gradient
      [⟨1, 1, 0, 1, 0⟩] 0 (mid (0, 2 * Real.pi))).re := by rw [Except.ok.inj eF]; exact tab_at2 _ _ _ hl hs
  obtain ⟨w, hw, _, hd⟩ := hv 0 _ _ _ aθ aφ aF
  refine ⟨_, F, _, _, _, w, hg, hF, aθ, aφ, aF, hw, le_trans ?_ hd⟩
  obtain ⟨k0, k1⟩ := half_angle hn
  rw [exact_eq hz (cen_offAxis hP (lin_bounds hn) (by rw [lin_length]; omega))] at hw
  have e : w = -(cLm 1 1 / 2 * Real.cos (cen (lin Real.pi n) 0)) := by
    rw [← Except.ok.inj hw]
    have hm : mid (0, 2 * Real.pi) = Real.pi := by rw [mid]; ring
    have he : Zdi.expi 1 Real.pi = -1 := by
      rw [Zdi.expi, show Complex.I * ((1 : ℤ) : ℂ) * (Real.pi : ℂ) = Real.pi * Complex.I by push_cast; ring, Complex.exp_pi_mul_I]
    simp only [List.map_cons, List.map_nil, List.sum_cons, List.sum_nil, add_zero, Int.toNat_one, hm, he, thD_11, neg_neg,
      Superseded.coef]
    rw [show (1 : ℂ) * (cLm 1 1 : ℝ) / (((1 : ℤ) : ℂ) + 1) * ((Real.cos (cen (lin Real.pi n) 0) : ℝ) : ℂ) * -1
      = ((-(cLm 1 1 / 2 * Real.cos (cen (lin Real.pi n) 0)) : ℝ) : ℂ) by push_cast; ring, Complex.ofReal_re]
  have c0 : cen (lin Real.pi n) 0 = 1 / 2 * (Real.pi / ((n : ℝ) - 1)) := by rw [cen_lin (by omega)]; push_cast; ring
  have hcos : Real.cos (Real.pi / 4) ≤ Real.cos (cen (lin Real.pi n) 0) := by
    rw [c0]
    exact Real.cos_le_cos_of_nonneg_of_le_pi (by linarith) (by linarith [Real.pi_pos]) (by linarith)
  rw [e, abs_neg]
  have : cLm 1 1 / 2 * Real.cos (Real.pi / 4) ≤ cLm 1 1 / 2 * Real.cos (cen (lin Real.pi n) 0) := by gcongr
  linarith [le_abs_self (cLm 1 1 / 2 * Real.cos (cen (lin Real.pi n) 0))]

/-- **C82 (violated).** The first column of `roll` compares the two poles: zero for a quadrupole. -/
theorem C82_roll (a b c : ℂ) (hb : b.re ≠ 0) {n k : ℕ} (hn : 3 ≤ n) (hk : 2 ≤ k) {g : Geom}
    (hg : Geom.init (.int n) (.int k) = .ok g) :
    ∃ F, Superseded.polarPoloidal .roll [⟨2, 0, a, b, c⟩] g.centers.1 g.centers.2 = .ok F ∧
      ∀ i θ φ v, at2 g.centers.1 i 0 = some θ → at2 g.centers.2 i 0 = some φ → at2 F i 0 = some v →
        v = 0 ∧ ∃ w, Zdi.polarPoloidal [⟨2, 0, a, b, c⟩] θ φ = .ok w ∧ w ≠ 0 := by
  have hz : NonnegOrders [(⟨2, 0, a, b, c⟩ : ZRow)] := ⟨by simp, by simp⟩
  have hP := lin_increasing Real.pi_pos (by omega : 2 ≤ n)
  obtain rfl := init_int_arr hg
  refine ⟨_, old_eq _ _ .roll (fun _ => ⟨by rwa [lin_length], by rwa [lin_length]⟩) _, ?_⟩
  intro i θ φ v hθ hφ hv
  rw [centers_tab] at hθ hφ
  obtain ⟨hj, q, hq, rfl⟩ := at2_tab hθ
  obtain ⟨_, q', hq', rfl⟩ := at2_tab hφ
  obtain ⟨_, q'', hq'', rfl⟩ := at2_tab hv
  rw [hq] at hq' hq''
  cases hq'; cases hq''
  have h3 : 3 ≤ (lin Real.pi n).length := by rwa [lin_length]
  obtain ⟨k0, k1⟩ := half_angle hn
  have hn1 : ((n : ℝ) - 1) ≠ 0 := by have : (3 : ℝ) ≤ n := by exact_mod_cast hn
                                     linarith
  have c0 : cen (lin Real.pi n) 0 = 1 / 2 * (Real.pi / ((n : ℝ) - 1)) := by rw [cen_lin (by omega)]; push_cast; ring
  have cl : cen (lin Real.pi n) ((steps (lin Real.pi n)).length - 1) = Real.pi - 1 / 2 * (Real.pi / ((n : ℝ) - 1)) := by
    rw [steps_len, lin_length, cen_lin (by omega), Nat.cast_sub (by omega), Nat.cast_sub (by omega)]
    push_cast; field_simp; ring
  constructor
  · rw [tot_eq hz hP (lin_bounds hn) h3 hj]
    have : dAt (steps (lin Real.pi n)).length (cen (lin Real.pi n)) (fun i => thP 2 0 (cen (lin Real.pi n) i)) 0 .roll = 0 := by
      rw [dAt, if_pos rfl, thP_20, thP_20, cl, c0, Real.cos_pi_sub]
      ring_nf
    simp [this]
  · refine ⟨_, exact_eq hz (cen_offAxis hP (lin_bounds hn) (by omega)) (mid q), ?_⟩
    have hth : thD 2 0 (cen (lin Real.pi n) 0)
        = -(3 * Real.sin (cen (lin Real.pi n) 0) * Real.cos (cen (lin Real.pi n) 0)) := by rw [thD_of_quad thP_20]; ring
    have hs : 0 < Real.sin (cen (lin Real.pi n) 0) := by
      rw [c0]; exact Real.sin_pos_of_pos_of_lt_pi (by linarith) (by linarith [Real.pi_pos])
    have hcs : 0 < Real.cos (cen (lin Real.pi n) 0) := by
      rw [c0]; exact Real.cos_pos_of_mem_Ioo ⟨by linarith [Real.pi_pos], by linarith [Real.pi_pos]⟩
    have hc := cLm_pos (l := 2) (m := 0) (by norm_num) (by norm_num)
    have he : Zdi.expi 0 (mid q) = 1 := by simp [Zdi.expi]
    have e2 : Int.toNat 2 = 2 := rfl
    simp only [List.map_cons, List.map_nil, List.sum_cons, List.sum_nil, add_zero, Int.toNat_zero, he, e2, hth, neg_neg,
      Superseded.coef]
    rw [show b * (cLm 2 0 : ℝ) / (((2 : ℤ) : ℂ) + 1)
        * ((3 * Real.sin (cen (lin Real.pi n) 0) * Real.cos (cen (lin Real.pi n) 0) : ℝ) : ℂ) * 1
      = ((cLm 2 0 * Real.sin (cen (lin Real.pi n) 0) * Real.cos (cen (lin Real.pi n) 0) : ℝ) : ℂ) * b by
        push_cast; norm_num; ring, Complex.re_ofReal_mul]
    positivity

/-- The grids of `C82_converges` exist for every distance. -/
example {δ : ℝ} (hδ : 0 < δ) : ∃ (P A : List ℝ) (g : Geom), Geom.init (.arr P) (.arr A) = .ok g ∧ Increasing P ∧
    (∀ p ∈ P, 0 ≤ p ∧ p ≤ Real.pi) ∧ 3 ≤ P.length ∧ 2 ≤ A.length ∧ ∀ i (_ : i + 1 < P.length), P[i + 1] - P[i] < δ := by
  obtain ⟨N, hN⟩ := exists_nat_gt (Real.pi / δ)
  refine ⟨lin Real.pi (N + 3), lin (2 * Real.pi) 2, _, init_lin (by omega) le_rfl, lin_increasing Real.pi_pos (by omega),
    lin_bounds (by omega), by rw [lin_length]; omega, by rw [lin_length], ?_⟩
  intro i hi
  rw [lin_get, lin_get]
  have h0 : (0 : ℝ) ≤ N := Nat.cast_nonneg N
  have h1 : (0 : ℝ) < ((N + 3 : ℕ) : ℝ) - 1 := by push_cast; linarith
  rw [← sub_mul, show (((i + 1 : ℕ) : ℝ) - i) = 1 by push_cast; ring, one_mul, div_lt_iff₀ h1]
  rw [div_lt_iff₀ hδ] at hN
  push_cast
  nlinarith

/-- An axial dipole on a grid of three by one facets: exact. -/
example : ∃ F, Superseded.polarPoloidal .gradient [⟨1, 0, 0, 1, 0⟩] (meshgrid (lin Real.pi 4) (lin (2 * Real.pi) 2)).centers.1
    (meshgrid (lin Real.pi 4) (lin (2 * Real.pi) 2)).centers.2 = .ok F ∧ ∃ v, at2 F 0 0 = some v := by
  obtain ⟨F, hF, _⟩ := C82_exact [⟨1, 0, 0, 1, 0⟩] (by simp) (by simp) (init_lin (n := 4) (k := 2) (by omega) le_rfl)
    (lin_increasing Real.pi_pos (by omega)) (lin_bounds (by omega)) (by rw [lin_length]; omega) (by rw [lin_length])
  refine ⟨F, hF, ?_⟩
  have eF := old_eq (lin Real.pi 4) (lin (2 * Real.pi) 2) .gradient
    (fun _ => ⟨by rw [lin_length], by rw [lin_length]; omega⟩) [⟨1, 0, 0, 1, 0⟩]
  rw [hF] at eF
  rw [Except.ok.inj eF]
  exact ⟨_, tab_at2 _ _ _ (by rw [steps_len, lin_length]; omega)
    (steps_get (lin (2 * Real.pi) 2) 0 (by rw [lin_length]; omega))⟩

/-- Three rows of corners and no azimuthal facet: refused. -/
example : ¬∃ F, Superseded.polarPoloidal .gradient [⟨1, 0, 0, 1, 0⟩] (meshgrid [0, 1, 2] [0]).centers.1
    (meshgrid [0, 1, 2] [0]).centers.2 = .ok F := by
  have hp := Real.pi_gt_three
  rw [C82_iff _ (init_ok (P := [0, 1, 2]) (A := [0]) (by simp) (by simp) (by
    intro x hx y hy
    simp at hx hy
    rcases hx with rfl | rfl | rfl <;> rcases hy with rfl | rfl | rfl <;> linarith) (by
    intro x hx y hy
    simp at hx hy
    subst hx hy
    linarith))]
  simp

end Verif
