import Verif.Lemmas.SphereMean
import Verif.Props.Fibonacci
import Verif.Props.SphereLimit

/-!
# C96: the points of a Fibonacci sphere are spread evenly
-/

namespace Verif
open Filter Topology

namespace Spec

/-- The unit sphere. -/
def UnitSphere : Set (ℝ × ℝ × ℝ) := {p | p.1 ^ 2 + p.2.1 ^ 2 + p.2.2 ^ 2 = 1}

/-- The direction with polar angle `θ` and azimuth `φ`. -/
noncomputable def direction (θ φ : ℝ) : ℝ × ℝ × ℝ :=
  (Real.sin θ * Real.cos φ, Real.sin θ * Real.sin φ, Real.cos θ)

/-- The average of a function over points. -/
noncomputable def average (f : ℝ × ℝ × ℝ → ℝ) (ps : List (ℝ × ℝ × ℝ)) : ℝ := (ps.map f).sum / ps.length

open Classical in
/-- The fraction of points in a set. -/
noncomputable def share (A : Set (ℝ × ℝ × ℝ)) (ps : List (ℝ × ℝ × ℝ)) : ℝ := (ps.filter fun p => p ∈ A).length / ps.length

/-- The cosine of the angle between directions. -/
def cosBetween (p q : ℝ × ℝ × ℝ) : ℝ := p.1 * q.1 + p.2.1 * q.2.1 + p.2.2 * q.2.2

/-- Point sets of increasing size, randomised or not: what was drawn is in `[0, 1)`. -/
structure Spirals (draw : ℕ → Option ℝ) (ps : ℕ → List (ℝ × ℝ × ℝ)) : Prop where
  range : ∀ n x, draw n = some x → 0 ≤ x ∧ x < 1
  points : ∀ n : ℕ, 0 < n → fibonacciSphere n (draw n) = .ok (ps n)

end Spec

open Spec

namespace Equidist
open SphereLimit Disc

theorem spirals_eq {draw : ℕ → Option ℝ} {ps : ℕ → List (ℝ × ℝ × ℝ)} (h : Spirals draw ps) {n : ℕ} (hn : 0 < n) :
    ps n = (List.range n).map (fibPoint n ((draw n).elim 1 (· * n))) := by
  have := h.points n hn
  rw [fibonacciSphere, if_neg (by omega), if_neg (by omega)] at this
  have := (Except.ok.inj this).symm
  simpa using this

theorem spirals_rnd {draw : ℕ → Option ℝ} {ps : ℕ → List (ℝ × ℝ × ℝ)} (h : Spirals draw ps) :
    (∀ n : ℕ, 0 ≤ (draw n).elim (1 : ℝ) (· * n)) ∧ ∀ n : ℕ, 0 < n → (draw n).elim (1 : ℝ) (· * n) ≤ n := by
  refine ⟨fun n => ?_, fun n hn => ?_⟩
  · cases hd : draw n with
    | none => simp
    | some x => have := (h.range n x hd).1; simp only [Option.elim_some]; positivity
  · have hn' : (1 : ℝ) ≤ n := by exact_mod_cast hn
    cases hd : draw n with
    | none => simpa using hn'
    | some x =>
      have := (h.range n x hd).2
      simp only [Option.elim_some]
      nlinarith

theorem direction_pt (θ φ : ℝ) : direction θ φ = pt 0 θ φ := by
  simp [direction, pt]

theorem average_tendsto {draw : ℕ → Option ℝ} {ps : ℕ → List (ℝ × ℝ × ℝ)} (h : Spirals draw ps) {f : ℝ × ℝ × ℝ → ℝ}
    (hf : ContinuousOn f UnitSphere) :
    Tendsto (fun n => average f (ps n)) atTop (𝓝 (sphereMean fun θ φ => f (direction θ φ))) := by
  have := fib_tendsto hf (spirals_rnd h).1 (spirals_rnd h).2
  have e : sphereMean (fun θ φ => f (direction θ φ)) = sphereInt (fun θ φ => f (pt 0 θ φ)) / (4 * Real.pi) := by
    rw [sphereMean_eq]; simp only [direction_pt]
  rw [e]
  refine this.congr' ?_
  filter_upwards [eventually_gt_atTop 0] with n hn
  rw [average, spirals_eq h hn, List.map_map, List.length_map, List.length_range]
  congr 1

theorem average_mono {f g : ℝ × ℝ × ℝ → ℝ} {ps : List (ℝ × ℝ × ℝ)} (h : ∀ p ∈ ps, f p ≤ g p) : average f ps ≤ average g ps := by
  unfold average
  refine div_le_div_of_nonneg_right ?_ (by positivity)
  exact List.sum_le_sum h

open Classical in
theorem share_eq (A : Set (ℝ × ℝ × ℝ)) (ps : List (ℝ × ℝ × ℝ)) : share A ps = average (fun p => if p ∈ A then 1 else 0) ps := by
  unfold share average
  congr 1
  induction ps with
  | nil => simp
  | cons p ps ih =>
    rw [List.map_cons, List.sum_cons, ← ih]
    by_cases h : p ∈ A
    · rw [List.filter_cons_of_pos (by simpa using h), if_pos h]; push_cast [List.length_cons]; ring
    · rw [List.filter_cons_of_neg (by simpa using h), if_neg h, zero_add]

/-- A direction has angles. -/
theorem angles {q : ℝ × ℝ × ℝ} (hq : q ∈ UnitSphere) : ∃ t x, q = rz x (pt t 0 0) := by
  have h : q.1 ^ 2 + q.2.1 ^ 2 + q.2.2 ^ 2 = 1 := hq
  have hz : -1 ≤ q.2.2 ∧ q.2.2 ≤ 1 := by constructor <;> nlinarith [sq_nonneg q.1, sq_nonneg q.2.1]
  refine ⟨Real.arccos q.2.2, Complex.arg ⟨q.1, q.2.1⟩, ?_⟩
  have hs : Real.sin (Real.arccos q.2.2) = ‖(⟨q.1, q.2.1⟩ : ℂ)‖ := by
    rw [Real.sin_arccos, Complex.norm_eq_sqrt_sq_add_sq]
    congr 1
    linarith
  have h1 := Complex.norm_mul_cos_arg ⟨q.1, q.2.1⟩
  have h2 := Complex.norm_mul_sin_arg ⟨q.1, q.2.1⟩
  simp only [rz, pt, Real.sin_zero, Real.cos_zero, zero_mul, mul_zero, zero_add, mul_one, sub_zero, add_zero, hs, Real.cos_arccos hz.1 hz.2]
  refine Prod.ext ?_ (Prod.ext ?_ rfl)
  · simpa [mul_comm] using h1.symm
  · simpa [mul_comm] using h2.symm

/-- The mean of a function of the angle to a direction. -/
theorem mean_angle {h : ℝ → ℝ} (hc : Continuous h) {q : ℝ × ℝ × ℝ} (hq : q ∈ UnitSphere) :
    sphereMean (fun θ φ => h (cosBetween (direction θ φ) q)) = (∫ s in (-1 : ℝ)..1, h s) / 2 := by
  obtain ⟨t, x, rfl⟩ := angles hq
  have hcont : ContinuousOn (fun v => h (cosBetween v (rz x (pt t 0 0)))) S2 := by
    unfold cosBetween; exact Continuous.continuousOn (by fun_prop)
  have e := turn_cont hcont t x
  have ed : ∀ θ φ, cosBetween (rz x (pt t θ φ)) (rz x (pt t 0 0)) = Real.cos θ := by
    intro θ φ
    rw [← dot_turned t x θ φ]
    simp only [cosBetween, Geometry.dot3]; ring
  simp only [ed] at e
  rw [sphereMean_eq]
  simp only [direction_pt]
  rw [← e, sphereInt, intervalIntegral.integral_const, smul_eq_mul]
  have ez : ∫ θ in (0 : ℝ)..Real.pi, h (Real.cos θ) * Real.sin θ = ∫ s in (-1 : ℝ)..1, h s := by
    have := zone (h := fun y => (h y : ℂ)) (by fun_prop)
    simp only [← Complex.ofReal_mul, intervalIntegral.integral_ofReal, Complex.ofReal_inj] at this
    exact this
  rw [ez]
  have := Real.pi_pos.ne'
  field_simp
  ring

/-- The ramp from 0 at `a` to 1 at `a + δ`. -/
noncomputable def ramp (a δ s : ℝ) : ℝ := max 0 (min 1 ((s - a) / δ))

theorem ramp_cont (a δ : ℝ) : Continuous (ramp a δ) := by unfold ramp; fun_prop

theorem ramp_nonneg (a δ s : ℝ) : 0 ≤ ramp a δ s := le_max_left _ _
theorem ramp_le (a δ s : ℝ) : ramp a δ s ≤ 1 := max_le zero_le_one (min_le_left _ _)

theorem ramp_zero {a δ s : ℝ} (hδ : 0 < δ) (h : s ≤ a) : ramp a δ s = 0 := by
  unfold ramp
  rw [max_eq_left]
  exact (min_le_right _ _).trans (div_nonpos_of_nonpos_of_nonneg (by linarith) hδ.le)

theorem ramp_one {a δ s : ℝ} (hδ : 0 < δ) (h : a + δ ≤ s) : ramp a δ s = 1 := by
  unfold ramp
  rw [min_eq_left, max_eq_right zero_le_one]
  rw [le_div_iff₀ hδ]; linarith

theorem ramp_int_le {a δ : ℝ} (hδ : 0 < δ) (ha : a ≤ 1) : ∫ s in (-1 : ℝ)..1, ramp a δ s ≤ 1 - a := by
  have hi : ∀ u v : ℝ, IntervalIntegrable (ramp a δ) MeasureTheory.volume u v := fun u v => (ramp_cont a δ).intervalIntegrable u v
  rcases le_total (-1) a with h | h
  · rw [← intervalIntegral.integral_add_adjacent_intervals (hi (-1) a) (hi a 1)]
    have h1 : ∫ s in (-1 : ℝ)..a, ramp a δ s = 0 := by
      rw [intervalIntegral.integral_congr (g := fun _ => (0 : ℝ)) fun s hs => ?_]
      · simp
      · rw [Set.uIcc_of_le h] at hs; exact ramp_zero hδ hs.2
    have h2 : ∫ s in a..1, ramp a δ s ≤ ∫ s in a..1, (1 : ℝ) :=
      intervalIntegral.integral_mono_on ha (hi _ _) (by simp) fun s _ => ramp_le _ _ _
    rw [intervalIntegral.integral_const, smul_eq_mul, mul_one] at h2
    linarith
  · have h2 : ∫ s in (-1 : ℝ)..1, ramp a δ s ≤ ∫ s in (-1 : ℝ)..1, (1 : ℝ) :=
      intervalIntegral.integral_mono_on (by norm_num) (hi _ _) (by simp) fun s _ => ramp_le _ _ _
    rw [intervalIntegral.integral_const, smul_eq_mul, mul_one] at h2
    linarith

theorem ramp_int_ge {a δ : ℝ} (hδ : 0 < δ) (ha : -1 ≤ a) : 1 - (a + δ) ≤ ∫ s in (-1 : ℝ)..1, ramp a δ s := by
  have hi : ∀ u v : ℝ, IntervalIntegrable (ramp a δ) MeasureTheory.volume u v := fun u v => (ramp_cont a δ).intervalIntegrable u v
  rcases le_total (a + δ) 1 with h | h
  · rw [← intervalIntegral.integral_add_adjacent_intervals (hi (-1) (a + δ)) (hi (a + δ) 1)]
    have h1 : 0 ≤ ∫ s in (-1 : ℝ)..(a + δ), ramp a δ s :=
      intervalIntegral.integral_nonneg (by linarith) fun s _ => ramp_nonneg _ _ _
    have h2 : ∫ s in (a + δ)..1, ramp a δ s = ∫ s in (a + δ)..1, (1 : ℝ) := by
      refine intervalIntegral.integral_congr fun s hs => ?_
      rw [Set.uIcc_of_le h] at hs; exact ramp_one hδ hs.1
    rw [intervalIntegral.integral_const, smul_eq_mul, mul_one] at h2
    linarith
  · have h1 : 0 ≤ ∫ s in (-1 : ℝ)..1, ramp a δ s :=
      intervalIntegral.integral_nonneg (by norm_num) fun s _ => ramp_nonneg _ _ _
    linarith

theorem ramp_tendsto {draw : ℕ → Option ℝ} {ps : ℕ → List (ℝ × ℝ × ℝ)} (h : Spirals draw ps) {q : ℝ × ℝ × ℝ}
    (hq : q ∈ UnitSphere) (a δ : ℝ) :
    Tendsto (fun n => average (fun p => ramp a δ (cosBetween p q)) (ps n)) atTop (𝓝 ((∫ s in (-1 : ℝ)..1, ramp a δ s) / 2)) := by
  rw [← mean_angle (ramp_cont a δ) hq]
  refine average_tendsto h ?_
  have := ramp_cont a δ
  unfold cosBetween
  exact Continuous.continuousOn (by fun_prop)

theorem hole_one {draw : ℕ → Option ℝ} {ps : ℕ → List (ℝ × ℝ × ℝ)} (h : Spirals draw ps) {q : ℝ × ℝ × ℝ} (hq : q ∈ UnitSphere)
    {c : ℝ} (hc : c < 1) : ∀ᶠ n in atTop, ∃ p ∈ ps n, c < cosBetween p q := by
  have hpos : (0 : ℝ) < (∫ s in (-1 : ℝ)..1, ramp (max c 0) ((1 - max c 0) / 2) s) / 2 := by
    have hd1 : max c 0 < 1 := max_lt hc zero_lt_one
    have := ramp_int_ge (a := max c 0) (δ := (1 - max c 0) / 2) (by linarith) (by linarith [le_max_right c 0])
    linarith
  filter_upwards [(ramp_tendsto h hq (max c 0) ((1 - max c 0) / 2)).eventually (lt_mem_nhds hpos)] with n hn
  by_contra hno
  push Not at hno
  have hle : average (fun p => ramp (max c 0) ((1 - max c 0) / 2) (cosBetween p q)) (ps n) ≤ average (fun _ => 0) (ps n) := by
    refine average_mono fun p hp => ?_
    rw [ramp_zero (by linarith [max_lt hc (zero_lt_one (α := ℝ))]) ((hno p hp).trans (le_max_left _ _))]
  have : average (fun _ => 0) (ps n) = 0 := by simp [average]
  linarith

end Equidist

open Equidist

/-- **C96.** Averages over the points of `fibonacci_sphere` converge to the mean over the sphere, for every continuous function,
whether or not the points are randomised and whatever was drawn. -/
theorem C96_mean (draw : ℕ → Option ℝ) (ps : ℕ → List (ℝ × ℝ × ℝ)) (h : Spirals draw ps) (f : ℝ × ℝ × ℝ → ℝ)
    (hf : ContinuousOn f UnitSphere) :
    Tendsto (fun n => average f (ps n)) atTop (𝓝 (sphereMean fun θ φ => f (direction θ φ))) :=
  average_tendsto h hf

/-- **C96.** Every cap gets its share: of the directions within an angle `arccos c` of any direction there is in the limit the
fraction `(1 - c)/2` of the points, which is the fraction of the area. The boundary may be counted or not, in part or in whole. -/
theorem C96_caps (draw : ℕ → Option ℝ) (ps : ℕ → List (ℝ × ℝ × ℝ)) (h : Spirals draw ps) (q : ℝ × ℝ × ℝ) (hq : q ∈ UnitSphere)
    (c : ℝ) (hc : -1 ≤ c) (hc' : c ≤ 1) (A : Set (ℝ × ℝ × ℝ)) (h1 : ∀ p ∈ UnitSphere, c < cosBetween p q → p ∈ A)
    (h2 : ∀ p ∈ UnitSphere, p ∈ A → c ≤ cosBetween p q) : Tendsto (fun n => share A (ps n)) atTop (𝓝 ((1 - c) / 2)) := by
  classical
  rw [Metric.tendsto_nhds]
  intro ε hε
  have lo := ramp_tendsto h hq c (ε / 2)
  have hi := ramp_tendsto h hq (c - ε / 2) (ε / 2)
  have ilo := ramp_int_ge (a := c) (δ := ε / 2) (by positivity) hc
  have ihi := ramp_int_le (a := c - ε / 2) (δ := ε / 2) (by positivity) (by linarith)
  rw [Metric.tendsto_nhds] at lo hi
  filter_upwards [lo (ε / 4) (by positivity), hi (ε / 4) (by positivity), eventually_gt_atTop 0] with n hlo hhi hn
  have hmem : ∀ p ∈ ps n, p ∈ UnitSphere := fun p hp => C50_unit_sphere n (draw n) (ps n) (h.points n hn) p hp
  have b1 : average (fun p => ramp c (ε / 2) (cosBetween p q)) (ps n) ≤ share A (ps n) := by
    rw [share_eq]
    refine average_mono fun p hp => ?_
    by_cases hpa : p ∈ A
    · rw [if_pos hpa]; exact ramp_le _ _ _
    · rw [if_neg hpa, ramp_zero (by positivity)]
      by_contra hlt
      exact hpa (h1 p (hmem p hp) (not_le.1 hlt))
  have b2 : share A (ps n) ≤ average (fun p => ramp (c - ε / 2) (ε / 2) (cosBetween p q)) (ps n) := by
    rw [share_eq]
    refine average_mono fun p hp => ?_
    by_cases hpa : p ∈ A
    · rw [if_pos hpa, ramp_one (by positivity)]
      have := h2 p (hmem p hp) hpa
      linarith
    · rw [if_neg hpa]; exact ramp_nonneg _ _ _
  rw [Real.dist_eq, abs_lt] at *
  constructor <;> linarith [hlo.1, hlo.2, hhi.1, hhi.2]

/-- **C96.** No hole stays: given any angle `arccos c`, for all large numbers of points every direction has a point within it. -/
theorem C96_dense (draw : ℕ → Option ℝ) (ps : ℕ → List (ℝ × ℝ × ℝ)) (h : Spirals draw ps) (c : ℝ) (hc : c < 1) :
    ∀ᶠ n in atTop, ∀ q ∈ UnitSphere, ∃ p ∈ ps n, c < cosBetween p q := by
  obtain ⟨t, ht, hfin, hcov⟩ := S2_compact.finite_cover_balls (e := (1 - c) / 6) (by linarith)
  have hev : ∀ᶠ n in atTop, ∀ q ∈ t, ∃ p ∈ ps n, (1 + c) / 2 < cosBetween p q :=
    (eventually_all_finite hfin).2 fun q hq => hole_one h (ht hq) (by linarith)
  filter_upwards [hev, eventually_gt_atTop 0] with n hn hpos q hq
  obtain ⟨q0, hq0, hb⟩ := Set.mem_iUnion₂.1 (hcov hq)
  obtain ⟨p, hp, hpq⟩ := hn q0 hq0
  refine ⟨p, hp, ?_⟩
  have hmem : p.1 ^ 2 + p.2.1 ^ 2 + p.2.2 ^ 2 = 1 := C50_unit_sphere n (draw n) (ps n) (h.points n hpos) p hp
  rw [Metric.mem_ball, dist_eq_norm, Prod.norm_def, Prod.norm_def, max_lt_iff, max_lt_iff] at hb
  simp only [Real.norm_eq_abs, Prod.fst_sub, Prod.snd_sub] at hb
  obtain ⟨d1, d2, d3⟩ := hb
  have p1 : |p.1| ≤ 1 := abs_le_of_sq_le_sq (by nlinarith [sq_nonneg p.2.1, sq_nonneg p.2.2]) zero_le_one
  have p2 : |p.2.1| ≤ 1 := abs_le_of_sq_le_sq (by nlinarith [sq_nonneg p.1, sq_nonneg p.2.2]) zero_le_one
  have p3 : |p.2.2| ≤ 1 := abs_le_of_sq_le_sq (by nlinarith [sq_nonneg p.1, sq_nonneg p.2.1]) zero_le_one
  have prod : ∀ {a b : ℝ}, |a| ≤ 1 → |b| < (1 - c) / 6 → -((1 - c) / 6) < a * b := by
    intro a b ha hb
    have h1 : |a * b| ≤ |b| := by
      rw [abs_mul]
      have := mul_le_mul_of_nonneg_right ha (abs_nonneg b)
      linarith
    have := neg_abs_le (a * b)
    linarith
  have e1 := prod p1 d1
  have e2 := prod p2 d2
  have e3 := prod p3 d3
  unfold cosBetween at hpq ⊢
  nlinarith [e1, e2, e3]

/-! ### Cases that meet the hypotheses -/

/-- Every third set randomised. -/
private noncomputable def exDraw (n : ℕ) : Option ℝ := if n % 3 = 0 then some (1 / 3) else none

private noncomputable def exSpiral (n : ℕ) : List (ℝ × ℝ × ℝ) := (fibonacciSphere n (exDraw n)).toOption.getD []

private theorem exSpirals : Spirals exDraw exSpiral where
  range n x h := by
    unfold exDraw at h
    split_ifs at h
    simp only [Option.some.injEq] at h
    rw [← h]; norm_num
  points n hn := by
    obtain ⟨ps, h, -⟩ := C50_count n (by exact_mod_cast hn) (exDraw n)
    rw [exSpiral, h]; rfl

/-- Half of the points are in front: the hemisphere about (0.6, 0, 0.8). -/
example : Tendsto (fun n => share {p | 0 < cosBetween p (0.6, 0, 0.8)} (exSpiral n)) atTop (𝓝 ((1 - 0) / 2)) :=
  C96_caps exDraw exSpiral exSpirals (0.6, 0, 0.8) (by simp [UnitSphere]; norm_num) 0 (by norm_num) (by norm_num) _
    (fun _ _ h => h) (fun _ _ h => le_of_lt h)

/-- The average of a function with a kink. -/
example : Tendsto (fun n => average (fun p => |p.1 - p.2.2|) (exSpiral n)) atTop
    (𝓝 (sphereMean fun θ φ => |(direction θ φ).1 - (direction θ φ).2.2|)) :=
  C96_mean exDraw exSpiral exSpirals _ (Continuous.continuousOn (by fun_prop))

end Verif
