import Verif.Model.Parker

/-!
# C51-C53: the Parker wind
-/

namespace Verif
open Parker

namespace Parker

theorem lhs_anti {a b : ℝ} (ha : 0 < a) (hab : a < b) (hb : b ≤ 1) : lhs b < lhs a := by
  have hb0 : 0 < b := ha.trans hab
  have h1 : Real.log (a / b) < a / b - 1 :=
    Real.log_lt_sub_one_of_pos (div_pos ha hb0) (by rw [Ne, div_eq_one_iff_eq hb0.ne']; exact hab.ne)
  rw [Real.log_div ha.ne' hb0.ne'] at h1
  have h2 : a / b - 1 ≤ a - b := by
    rw [div_sub_one hb0.ne', div_le_iff₀ hb0]; nlinarith
  simp only [lhs]; nlinarith

theorem lhs_mono {a b : ℝ} (ha : 1 ≤ a) (hab : a < b) : lhs a < lhs b := by
  have ha0 : 0 < a := by linarith
  have hb0 : 0 < b := ha0.trans hab
  have h1 : Real.log (b / a) < b / a - 1 :=
    Real.log_lt_sub_one_of_pos (div_pos hb0 ha0) (by rw [Ne, div_eq_one_iff_eq ha0.ne']; exact hab.ne')
  rw [Real.log_div hb0.ne' ha0.ne'] at h1
  have h2 : b / a - 1 ≤ b - a := by
    rw [div_sub_one ha0.ne', div_le_iff₀ ha0]; nlinarith
  simp only [lhs]; nlinarith

theorem rhs_anti {a b : ℝ} (ha : 0 < a) (hab : a < b) (hb : b ≤ 1) : rhs b < rhs a := by
  have hb0 : 0 < b := ha.trans hab
  have h1 : Real.log (b / a) < b / a - 1 :=
    Real.log_lt_sub_one_of_pos (div_pos hb0 ha) (by rw [Ne, div_eq_one_iff_eq ha.ne']; exact hab.ne')
  rw [Real.log_div hb0.ne' ha.ne'] at h1
  have h2 : b / a - 1 ≤ 1 / a - 1 / b := by
    rw [div_sub_one ha.ne', div_sub_div _ _ ha.ne' hb0.ne', div_le_div_iff₀ ha (by positivity)]
    nlinarith [mul_nonneg (mul_nonneg ha.le (sub_nonneg.2 hab.le)) (sub_nonneg.2 hb)]
  simp only [rhs]; linarith

theorem rhs_mono {a b : ℝ} (ha : 1 ≤ a) (hab : a < b) : rhs a < rhs b := by
  have ha0 : 0 < a := by linarith
  have hb0 : 0 < b := ha0.trans hab
  have h1 : Real.log (a / b) < a / b - 1 :=
    Real.log_lt_sub_one_of_pos (div_pos ha0 hb0) (by rw [Ne, div_eq_one_iff_eq hb0.ne']; exact hab.ne)
  rw [Real.log_div ha0.ne' hb0.ne'] at h1
  have h2 : a / b - 1 ≤ 1 / b - 1 / a := by
    rw [div_sub_one hb0.ne', div_sub_div _ _ hb0.ne' ha0.ne', div_le_div_iff₀ hb0 (by positivity)]
    nlinarith [mul_nonneg (mul_nonneg hb0.le (sub_nonneg.2 hab.le)) (sub_nonneg.2 ha)]
  simp only [rhs]; linarith

theorem rhs_one : rhs 1 = 0 := by simp [rhs]
theorem lhs_one : lhs 1 = 0 := by simp [lhs]

theorem rhs_nonneg {r : ℝ} (hr : 0 < r) : 0 ≤ rhs r := by
  rcases lt_trichotomy r 1 with h | rfl | h
  · have := rhs_anti hr h le_rfl; rw [rhs_one] at this; exact this.le
  · exact rhs_one.ge
  · have := rhs_mono le_rfl h; rw [rhs_one] at this; exact this.le

private theorem continuous_wexp : Continuous fun w : ℝ => w * Real.exp w := by fun_prop

theorem exists_principal {x : ℝ} (h : -Real.exp (-1) ≤ x) (hx : x < 0) : ∃ w : ℝ, w * Real.exp w = x ∧ -1 ≤ w := by
  have := intermediate_value_Icc (show (-1 : ℝ) ≤ 0 by norm_num) continuous_wexp.continuousOn
  obtain ⟨w, hw, rfl⟩ := this (show x ∈ Set.Icc _ _ by
    refine ⟨?_, ?_⟩
    · simpa using h
    · simpa using hx.le)
  exact ⟨w, rfl, hw.1⟩

theorem exists_minusOne {x : ℝ} (h : -Real.exp (-1) ≤ x) (hx : x < 0) : ∃ w : ℝ, w * Real.exp w = x ∧ w ≤ -1 := by
  set M := max 1 (2 / (-x)) with hM
  have hM1 : 1 ≤ M := le_max_left _ _
  have hM0 : 0 < M := by linarith
  have hbig : x ≤ -M * Real.exp (-M) := by
    have h1 : 2 / (-x) ≤ M := le_max_right _ _
    have h2 := Real.quadratic_le_exp_of_nonneg hM0.le
    rw [div_le_iff₀ (by linarith)] at h1
    rw [Real.exp_neg, neg_mul, ← div_eq_mul_inv, le_neg, div_le_iff₀ (Real.exp_pos M)]
    nlinarith
  have := intermediate_value_Icc' (show -M ≤ (-1 : ℝ) by linarith) continuous_wexp.continuousOn
  obtain ⟨w, hw, rfl⟩ := this (show x ∈ Set.Icc _ _ by
    refine ⟨?_, hbig⟩
    simpa using h)
  exact ⟨w, rfl, hw.2⟩

/-- What the root of minus a Lambert value is. -/
theorem sqrt_spec {y w : ℝ} (h : w * Real.exp w = -Real.exp (-y - 1)) :
    0 < Real.sqrt (-w) ∧ lhs (Real.sqrt (-w)) = y ∧ (-1 ≤ w → Real.sqrt (-w) ≤ 1) ∧ (w ≤ -1 → 1 ≤ Real.sqrt (-w)) := by
  have hw : w < 0 := by
    by_contra hw
    have := mul_nonneg (not_lt.1 hw) (Real.exp_pos w).le
    have := Real.exp_pos (-y - 1)
    linarith
  have hpos : 0 < Real.sqrt (-w) := Real.sqrt_pos.2 (by linarith)
  have hsq : Real.sqrt (-w) ^ 2 = -w := Real.sq_sqrt (by linarith)
  refine ⟨hpos, ?_, fun h1 => ?_, fun h1 => ?_⟩
  · have h2 : Real.log (-w) + w = -y - 1 := by
      have := congrArg Real.log (show -w * Real.exp w = Real.exp (-y - 1) by rw [neg_mul, h, neg_neg])
      rwa [Real.log_mul (by linarith) (Real.exp_pos w).ne', Real.log_exp, Real.log_exp] at this
    rw [lhs, hsq, Real.log_sqrt (by linarith)]
    linarith
  · rw [← Real.sqrt_one]; exact Real.sqrt_le_sqrt (by linarith)
  · rw [Real.one_le_sqrt]; linarith

theorem lambert_arg {r : ℝ} (hr : 0 < r) :
    -Real.exp (-1) ≤ -Real.exp (-rhs r - 1) ∧ -Real.exp (-rhs r - 1) < 0 := by
  have := rhs_nonneg hr
  refine ⟨neg_le_neg (Real.exp_le_exp.2 (by linarith)), by simpa using Real.exp_pos _⟩

theorem lambertW_zero {x : ℝ} (h : -Real.exp (-1) ≤ x) (hx : x < 0) :
    lambertW 0 x * Real.exp (lambertW 0 x) = x ∧ -1 ≤ lambertW 0 x := by
  obtain ⟨w, hw⟩ := exists_principal h hx
  have hex : ∃ w : ℝ, w * Real.exp w = x ∧ if (0 : ℤ) = 0 then -1 ≤ w else w ≤ -1 := ⟨w, by simpa using hw⟩
  rw [lambertW, dif_pos hex]
  simpa using hex.choose_spec

theorem lambertW_minusOne {x : ℝ} (h : -Real.exp (-1) ≤ x) (hx : x < 0) :
    lambertW (-1) x * Real.exp (lambertW (-1) x) = x ∧ lambertW (-1) x ≤ -1 := by
  obtain ⟨w, hw⟩ := exists_minusOne h hx
  have hex : ∃ w : ℝ, w * Real.exp w = x ∧ if (-1 : ℤ) = 0 then -1 ≤ w else w ≤ -1 := ⟨w, by simpa using hw⟩
  rw [lambertW, dif_pos hex]
  simpa using hex.choose_spec

end Parker

/-! ## C51 -/

/-- **C51.** Every argument handed to `lambertw` lies where both real branches exist, so the result is real. -/
theorem C51_lambert_domain (r : ℝ) (hr : 0 < r) :
    -Real.exp (-1) ≤ -Real.exp (-rhs r - 1) ∧ -Real.exp (-rhs r - 1) < 0 := lambert_arg hr

/-- **C51.** `all_sols`: both roots of the Parker equation, the subsonic one first; there is no other positive root. -/
theorem C51_both_roots (r : ℝ) (hr : 0 < r) :
    let u := findAll r
    0 < u.1 ∧ u.1 ≤ 1 ∧ 1 ≤ u.2 ∧
    (∀ v : ℝ, 0 < v → (v ^ 2 - 1 - 2 * Real.log v = 4 * Real.log r + 4 * (1 / r - 1) ↔ v = u.1 ∨ v = u.2)) := by
  obtain ⟨h1, h2⟩ := lambert_arg hr
  obtain ⟨a1, a2⟩ := lambertW_zero h1 h2
  obtain ⟨b1, b2⟩ := lambertW_minusOne h1 h2
  obtain ⟨p1, p2, p3, _⟩ := sqrt_spec a1
  obtain ⟨q1, q2, _, q4⟩ := sqrt_spec b1
  refine ⟨p1, p3 a2, q4 b2, fun v hv => ?_⟩
  show lhs v = rhs r ↔ _
  constructor
  · intro e
    rcases le_total v 1 with hv1 | hv1
    · left
      rcases lt_trichotomy v (findAll r).1 with h | h | h
      · have := lhs_anti hv h (p3 a2); rw [findAll, p2, e] at this; exact absurd this (lt_irrefl _)
      · exact h
      · have := lhs_anti p1 h hv1; rw [p2, e] at this; exact absurd this (lt_irrefl _)
    · right
      rcases lt_trichotomy v (findAll r).2 with h | h | h
      · have := lhs_mono hv1 h; rw [findAll, q2, e] at this; exact absurd this (lt_irrefl _)
      · exact h
      · have := lhs_mono (q4 b2) h; rw [q2, e] at this; exact absurd this (lt_irrefl _)
  · rintro (rfl | rfl)
    · exact p2
    · exact q2

/-- **C51.** The solution is the subsonic root below the sonic radius and the supersonic root from there on. -/
theorem C51_branch (r : ℝ) : find r = if r < 1 then (findAll r).1 else (findAll r).2 := by
  rw [find, branch, findAll]; split_ifs <;> rfl

/-- **C51.** It solves the Parker equation and is transonic. -/
theorem C51_transonic (r : ℝ) (hr : 0 < r) :
    0 < find r ∧ find r ^ 2 - 1 - 2 * Real.log (find r) = 4 * Real.log r + 4 * (1 / r - 1) ∧
    (r < 1 → find r < 1) ∧ (r = 1 → find r = 1) ∧ (1 < r → 1 < find r) := by
  obtain ⟨h1, h2, h3, h4⟩ := C51_both_roots r hr
  have hsol : 0 < find r ∧ lhs (find r) = rhs r ∧ (r < 1 → find r ≤ 1) ∧ (¬ r < 1 → 1 ≤ find r) := by
    rw [C51_branch]
    split_ifs with h
    · exact ⟨h1, (h4 _ h1).2 (Or.inl rfl), fun _ => h2, fun h' => absurd h h'⟩
    · have : 0 < (findAll r).2 := by linarith
      exact ⟨this, (h4 _ this).2 (Or.inr rfl), fun h' => absurd h' h, fun _ => h3⟩
  obtain ⟨k1, k2, k3, k4⟩ := hsol
  refine ⟨k1, k2, fun h => ?_, fun h => ?_, fun h => ?_⟩
  · refine lt_of_le_of_ne (k3 h) fun e => ?_
    have := rhs_anti hr h le_rfl
    rw [e, lhs_one] at k2; rw [rhs_one] at this; linarith
  · subst h
    refine le_antisymm ?_ (k4 (lt_irrefl _))
    by_contra hgt
    have := lhs_mono le_rfl (not_le.1 hgt)
    rw [k2, rhs_one, lhs_one] at this; exact lt_irrefl _ this
  · refine lt_of_le_of_ne (k4 (by linarith)) fun e => ?_
    have := rhs_mono le_rfl h
    rw [← e, lhs_one] at k2; rw [rhs_one] at this; linarith

/-- **C51.** It increases strictly with the radius. -/
theorem C51_increasing (r r' : ℝ) (hr : 0 < r) (h : r < r') : find r < find r' := by
  obtain ⟨a1, a2, a3, a4, a5⟩ := C51_transonic r hr
  obtain ⟨b1, b2, b3, b4, b5⟩ := C51_transonic r' (hr.trans h)
  rcases lt_trichotomy r' 1 with h1 | rfl | h1
  · have := rhs_anti hr h h1.le
    by_contra hle
    rcases (not_lt.1 hle).lt_or_eq with hlt | heq
    · have := lhs_anti b1 hlt (a3 (h.trans h1)).le
      simp only [lhs, rhs] at *; linarith
    · rw [heq] at b2; simp only [rhs] at this; linarith
  · rw [b4 rfl]; exact a3 h
  · rcases lt_trichotomy r 1 with h2 | rfl | h2
    · exact (a3 h2).trans (b5 h1)
    · rw [a4 rfl]; exact b5 h1
    · have := rhs_mono h2.le h
      by_contra hle
      rcases (not_lt.1 hle).lt_or_eq with hlt | heq
      · have := lhs_mono (b5 h1).le hlt
        simp only [lhs, rhs] at *; linarith
      · rw [heq] at b2; simp only [rhs] at this; linarith

/-! ## C52 -/

/-- Positive physical parameters. -/
structure Spec.Physical (c : Consts) (s : Star) : Prop where
  G : 0 < c.G
  protonMass : 0 < c.protonMass
  kB : 0 < c.kB
  temperature : 0 < s.temperature
  baseDensity : 0 < s.baseDensity
  radius : 0 < s.radius
  mass : 0 < s.mass

open Spec

namespace Parker

variable {c : Consts} {s : Star}

theorem radiusSonic_pos (h : Physical c s) : 0 < radiusSonic c s := by
  have := h.G; have := h.protonMass; have := h.kB; have := h.temperature; have := h.mass
  rw [radiusSonic]; positivity

theorem speedSonic_pos (h : Physical c s) : 0 < speedSonic c s := by
  have := h.protonMass; have := h.kB; have := h.temperature
  rw [speedSonic]; positivity

/-- Speed and density at one radius. -/
noncomputable def speedAt (c : Consts) (s : Star) (r : ℝ) : ℝ := find (r / radiusSonic c s) * speedSonic c s
noncomputable def densityAt (c : Consts) (s : Star) (r : ℝ) : ℝ :=
  s.baseDensity * (r / s.radius) ^ (-2 : ℤ) * (speedAt c s r / speedSurface c s) ^ (-1 : ℤ)

theorem speedAt_pos (h : Physical c s) {r : ℝ} (hr : 0 < r) : 0 < speedAt c s r :=
  mul_pos (C51_transonic _ (div_pos hr (radiusSonic_pos h))).1 (speedSonic_pos h)

theorem speedAt_mono (h : Physical c s) {r r' : ℝ} (hr : 0 < r) (hrr : r < r') : speedAt c s r < speedAt c s r' :=
  mul_lt_mul_of_pos_right (C51_increasing _ _ (div_pos hr (radiusSonic_pos h))
    (div_lt_div_of_pos_right hrr (radiusSonic_pos h))) (speedSonic_pos h)

theorem densityAt_eq (h : Physical c s) {r : ℝ} (hr : 0 < r) :
    densityAt c s r = s.baseDensity * s.radius ^ 2 * speedSurface c s / (r ^ 2 * speedAt c s r) := by
  have h1 := (speedAt_pos h hr).ne'
  have h2 := h.radius.ne'
  have h3 : speedSurface c s ≠ 0 := (speedAt_pos h h.radius).ne'
  rw [densityAt, zpow_neg, zpow_neg, zpow_one]
  have : (r / s.radius) ^ (2 : ℤ) = (r / s.radius) ^ 2 := by norm_cast
  rw [this]
  field_simp

/-- The radius at which the code evaluates. -/
noncomputable def eff (R : ℝ) (a : Arr) (x : ℝ) : ℝ := open Classical in if x ≤ R then a.stored R else x

theorem eff_eff {R : ℝ} (hR : 0 < R) (a : Arr) (x : ℝ) : eff R a (eff R a x) = eff R a x := by
  have : a.stored R ≤ R := by
    rw [Arr.stored]; split_ifs
    · exact Int.floor_le R
    · linarith
    · exact le_rfl
  unfold eff
  split_ifs with h
  · rfl
  · rfl

theorem eff_float (R : ℝ) {a : Arr} (hf : a.isInt = false) (x : ℝ) : eff R a x = max x R := by
  have hs : a.stored R = R := by rw [Arr.stored, hf]; rfl
  unfold eff
  split_ifs with h
  · rw [hs, max_eq_right h]
  · rw [max_eq_left (not_le.1 h).le]

theorem clamp_data (R : ℝ) (a : Arr) : (clamp R a).data = a.data.map (eff R a) ∧ (clamp R a).isInt = a.isInt := ⟨rfl, rfl⟩

theorem clamp_clamp {R : ℝ} (hR : 0 < R) (a : Arr) : clamp R (clamp R a) = clamp R a := by
  have : ∀ x, eff R (clamp R a) x = eff R a x := fun x => rfl
  have e : (clamp R (clamp R a)).data = (clamp R a).data := by
    rw [(clamp_data R (clamp R a)).1, (clamp_data R a).1, List.map_map]
    apply List.map_congr_left
    intro x _
    rw [Function.comp, this, eff_eff hR]
  exact congrArg (Arr.mk a.isInt) e

theorem speed_eq (c : Consts) (s : Star) (h : Heap) (arg : RadArg) :
    (speed c s h arg).1 = (if (arg.contents h).data = [] then .error .value
      else .ok ((arg.contents h).data.map fun x => speedAt c s (eff s.radius (arg.contents h) x))) := by
  have key : ∀ a : Arr, speedOf c s (clamp s.radius a) = (if a.data = [] then .error .value
      else .ok (a.data.map fun x => speedAt c s (eff s.radius a x))) := by
    intro a
    rw [speedOf, (clamp_data _ _).1]
    by_cases hn : a.data = []
    · rw [if_pos (by simp [hn]), if_pos hn]
    · rw [if_neg (by simp [hn]), if_neg hn, List.map_map]
      rfl
  cases arg with
  | fresh a => exact key a
  | array i => exact key (h i)

theorem density_eq (hR : 0 < s.radius) (h : Heap) (arg : RadArg) :
    (density c s h arg).1 = (if (arg.contents h).data = [] then .error .value
      else .ok ((arg.contents h).data.map fun x => densityAt c s (eff s.radius (arg.contents h) x))) := by
  have key : ∀ a : Arr, ((do
      let v ← speedOf c s (clamp s.radius (clamp s.radius a))
      pure (List.zipWith (fun r v => s.baseDensity * (r / s.radius) ^ (-2 : ℤ) * (v / speedSurface c s) ^ (-1 : ℤ))
        (clamp s.radius (clamp s.radius a)).data v)) : Res (List ℝ))
      = (if a.data = [] then .error .value else .ok (a.data.map fun x => densityAt c s (eff s.radius a x))) := by
    intro a
    rw [clamp_clamp hR, speedOf, (clamp_data _ _).1]
    by_cases hn : a.data = []
    · rw [if_pos (by simp [hn]), if_pos hn]; rfl
    · rw [if_neg (by simp [hn]), if_neg hn]
      show Except.ok _ = Except.ok _
      congr 1
      rw [List.zipWith_map_right, List.zipWith_self, List.map_map]
      rfl
  cases arg with
  | fresh a => exact key a
  | array i =>
    have e : (Function.update h i (clamp s.radius (h i))) i = clamp s.radius (h i) := Function.update_self ..
    have := key (h i)
    rw [← e] at this
    exact this

end Parker

/-- **C52.** For a float array (or number, or list): one value per radius, the flow at radii up to the stellar radius is
that at the stellar radius, and the mass flux through every sphere outside is the same. -/
theorem C52_mass_flux (c : Consts) (s : Star) (hp : Physical c s) (h : Heap) (arg : RadArg)
    (hf : (arg.contents h).isInt = false) (hne : (arg.contents h).data ≠ []) :
    ∃ vs ds, (speed c s h arg).1 = .ok vs ∧ (density c s h arg).1 = .ok ds ∧
      vs.length = (arg.contents h).data.length ∧ ds.length = (arg.contents h).data.length ∧
      ∀ (i : ℕ) (r v d : ℝ), (arg.contents h).data[i]? = some r → vs[i]? = some v → ds[i]? = some d →
        0 < v ∧ 0 < d ∧ 4 * Real.pi * max r s.radius ^ 2 * v * d = totalMassFlux c s ∧
        (r ≤ s.radius → v = speedSurface c s ∧ d = s.baseDensity) := by
  refine ⟨_, _, by rw [speed_eq, if_neg hne], by rw [density_eq hp.radius, if_neg hne], by simp, by simp, ?_⟩
  intro i r v d hr hv hd
  rw [List.getElem?_map, hr] at hv hd
  obtain rfl := Option.some.inj hv
  obtain rfl := Option.some.inj hd
  have he : eff s.radius (arg.contents h) r = max r s.radius := eff_float _ hf r
  simp only [he]
  have hpos : 0 < max r s.radius := lt_max_of_lt_right hp.radius
  have hv := speedAt_pos hp hpos
  have hs : 0 < speedSurface c s := speedAt_pos hp hp.radius
  have hb := hp.baseDensity
  have hR := hp.radius
  have hrs := radiusSonic_pos hp
  have hss := speedSonic_pos hp
  have hd := densityAt_eq hp hpos
  refine ⟨hv, ?_, ?_, fun h1 => ?_⟩
  · rw [hd]; positivity
  · rw [hd, totalMassFlux, densitySonic, zpow_neg, zpow_neg, zpow_one]
    have : (radiusSonic c s / s.radius) ^ (2 : ℤ) = (radiusSonic c s / s.radius) ^ 2 := by norm_cast
    rw [this]
    field_simp
  · rw [max_eq_right h1]
    refine ⟨rfl, ?_⟩
    rw [densityAt_eq hp hp.radius]
    have : speedAt c s s.radius = speedSurface c s := rfl
    rw [this]; field_simp

/-- **C52.** At a sonic point outside the star the flow has the sonic speed and the sonic density. -/
theorem C52_sonic_point (c : Consts) (s : Star) (hp : Physical c s) (h : Heap) (hs : s.radius ≤ radiusSonic c s) :
    (speed c s h (.fresh ⟨false, [radiusSonic c s]⟩)).1 = .ok [speedSonic c s] ∧
    (density c s h (.fresh ⟨false, [radiusSonic c s]⟩)).1 = .ok [densitySonic c s] := by
  have hr := radiusSonic_pos hp
  have he : eff s.radius ⟨false, [radiusSonic c s]⟩ (radiusSonic c s) = radiusSonic c s := by
    rw [eff, Arr.stored]
    split_ifs with h1 h2
    · cases h2
    · cases h2
    · exact le_antisymm hs h1
    · rfl
  have h1 : speedAt c s (radiusSonic c s) = speedSonic c s := by
    rw [speedAt, div_self hr.ne', (C51_transonic 1 one_pos).2.2.2.1 rfl, one_mul]
  refine ⟨?_, ?_⟩
  · rw [speed_eq, if_neg (by simp [RadArg.contents])]
    simp only [RadArg.contents, List.map_cons, List.map_nil, he, h1]
  · rw [density_eq hp.radius, if_neg (by simp [RadArg.contents])]
    simp only [RadArg.contents, List.map_cons, List.map_nil, he]
    rw [densityAt, h1, densitySonic]

/-- **C52.** Outwards the speed rises and the density falls. -/
theorem C52_monotone (c : Consts) (s : Star) (hp : Physical c s) (h : Heap) (r r' : ℝ) (h1 : s.radius ≤ r) (h2 : r < r') :
    ∃ v v' d d', (speed c s h (.fresh ⟨false, [r, r']⟩)).1 = .ok [v, v'] ∧ v < v' ∧
      (density c s h (.fresh ⟨false, [r, r']⟩)).1 = .ok [d, d'] ∧ d' < d := by
  have hr : 0 < r := hp.radius.trans_le h1
  have he : ∀ x, s.radius ≤ x → eff s.radius ⟨false, [r, r']⟩ x = x := by
    intro x hx
    rw [eff, Arr.stored]
    split_ifs with h3 h4
    · cases h4
    · cases h4
    · exact le_antisymm hx h3
    · rfl
  have hm := speedAt_mono hp hr h2
  have hv := speedAt_pos hp hr
  have hs : 0 < speedSurface c s := speedAt_pos hp hp.radius
  refine ⟨speedAt c s r, speedAt c s r', densityAt c s r, densityAt c s r', ?_, hm, ?_, ?_⟩
  · rw [speed_eq, if_neg (by simp [RadArg.contents])]
    simp only [RadArg.contents, List.map_cons, List.map_nil, he r h1, he r' (h1.trans h2.le)]
  · rw [density_eq hp.radius, if_neg (by simp [RadArg.contents])]
    simp only [RadArg.contents, List.map_cons, List.map_nil, he r h1, he r' (h1.trans h2.le)]
  · rw [densityAt_eq hp hr, densityAt_eq hp (hr.trans h2)]
    have := hp.baseDensity
    have := hp.radius
    refine div_lt_div_of_pos_left (by positivity) (by positivity) ?_
    exact mul_lt_mul'' (pow_lt_pow_left₀ h2 hr.le (by norm_num)) hm (by positivity) hv.le

/-- **C52.** An integer array cannot hold a fractional stellar radius: radii up to it are replaced by its integer part,
and the density there exceeds the base density. -/
theorem C52_integer_radii (c : Consts) (s : Star) (hp : Physical c s) (h : Heap) (k : ℤ) (hk : (k : ℝ) ≤ s.radius)
    (h1 : 1 ≤ s.radius) (hfrac : (⌊s.radius⌋ : ℝ) ≠ s.radius) :
    ∃ d, (density c s h (.fresh ⟨true, [(k : ℝ)]⟩)).1 = .ok [d] ∧ s.baseDensity < d := by
  have he : eff s.radius ⟨true, [(k : ℝ)]⟩ k = ⌊s.radius⌋ := by
    rw [eff, if_pos hk, Arr.stored, if_pos rfl, if_pos hp.radius.le]
  have hf0 : (0 : ℝ) < ⌊s.radius⌋ := by
    have : (1 : ℤ) ≤ ⌊s.radius⌋ := Int.le_floor.2 (by simpa using h1)
    exact_mod_cast this
  have hlt : (⌊s.radius⌋ : ℝ) < s.radius := lt_of_le_of_ne (Int.floor_le _) hfrac
  refine ⟨densityAt c s ⌊s.radius⌋, ?_, ?_⟩
  · rw [density_eq hp.radius, if_neg (by simp [RadArg.contents])]
    simp only [RadArg.contents, List.map_cons, List.map_nil, he]
  · rw [densityAt_eq hp hf0]
    have hm := speedAt_mono hp hf0 hlt
    have hv := speedAt_pos hp hf0
    have : speedAt c s s.radius = speedSurface c s := rfl
    rw [← this, lt_div_iff₀ (by positivity), mul_assoc]
    refine mul_lt_mul_of_pos_left ?_ hp.baseDensity
    exact mul_lt_mul'' (pow_lt_pow_left₀ hlt hf0.le (by norm_num)) hm (by positivity) hv.le

/-- A sun-like star in convenient units, with its sonic point outside. -/
example : ∃ (c : Consts) (s : Star), Physical c s ∧ s.radius ≤ radiusSonic c s ∧ (⌊s.radius⌋ : ℝ) ≠ s.radius := by
  refine ⟨⟨1, 1, 1⟩, ⟨1, 1, 3 / 2, 8⟩, ⟨?_, ?_, ?_, ?_, ?_, ?_, ?_⟩, ?_, ?_⟩
  all_goals norm_num [radiusSonic]

/-! ## C53 -/

/-- **C53.** What `speed` and `density` do to the caller's arrays: nothing for numbers and lists; an array passed in has
its entries up to the stellar radius overwritten. -/
theorem C53_effect (c : Consts) (s : Star) (hR : 0 < s.radius) (h : Heap) :
    (∀ a, (speed c s h (.fresh a)).2 = h ∧ (density c s h (.fresh a)).2 = h) ∧
    ∀ i, (speed c s h (.array i)).2 = Function.update h i (clamp s.radius (h i)) ∧
      (density c s h (.array i)).2 = Function.update h i (clamp s.radius (h i)) := by
  refine ⟨fun a => ⟨rfl, rfl⟩, fun i => ⟨rfl, ?_⟩⟩
  show Function.update (Function.update h i (clamp s.radius (h i))) i
    (clamp s.radius (Function.update h i (clamp s.radius (h i)) i)) = _
  rw [Function.update_self, Function.update_idem, clamp_clamp hR]

/-- **C53.** So a float array survives exactly when no entry is below the stellar radius. -/
theorem C53_unchanged_iff (c : Consts) (s : Star) (hR : 0 < s.radius) (h : Heap) (i : ℕ) (hf : (h i).isInt = false) :
    ((speed c s h (.array i)).2 = h ↔ ∀ x ∈ (h i).data, s.radius ≤ x) ∧
    ((density c s h (.array i)).2 = h ↔ ∀ x ∈ (h i).data, s.radius ≤ x) := by
  have key : Function.update h i (clamp s.radius (h i)) = h ↔ ∀ x ∈ (h i).data, s.radius ≤ x := by
    rw [Function.update_eq_self_iff]
    constructor
    · intro e x hx
      have e' := congrArg Arr.data e
      rw [(clamp_data _ _).1] at e'
      have := List.map_inj_left.1 (e'.trans (List.map_id _).symm) x hx
      by_contra hlt
      rw [eff_float _ hf, max_eq_right (not_le.1 hlt).le] at this
      simp only [id] at this; linarith
    · intro hx
      have e : (h i).data.map (eff s.radius (h i)) = (h i).data := by
        refine (List.map_congr_left fun x hxm => ?_).trans (List.map_id _)
        rw [eff_float _ hf, max_eq_left (hx x hxm)]
        rfl
      exact congrArg (Arr.mk (h i).isInt) e
  rw [((C53_effect c s hR h).2 i).1, ((C53_effect c s hR h).2 i).2]
  exact ⟨key, key⟩

/-- **C53.** The violation: asking for the speed at `[0.5, 2]` stellar radii turns the caller's array into `[1, 2]`. -/
theorem C53_overwritten (c : Consts) (s : Star) (hR : 0 < s.radius) (h : Heap) (i : ℕ)
    (hi : h i = ⟨false, [s.radius / 2, 2 * s.radius]⟩) :
    (speed c s h (.array i)).2 i = ⟨false, [s.radius, 2 * s.radius]⟩ ∧ (speed c s h (.array i)).2 i ≠ h i := by
  have e : (speed c s h (.array i)).2 i = ⟨false, [s.radius, 2 * s.radius]⟩ := by
    rw [((C53_effect c s hR h).2 i).1, Function.update_self, hi, clamp]
    have h1 : s.radius / 2 ≤ s.radius := by linarith
    have h2 : ¬ 2 * s.radius ≤ s.radius := by linarith
    simp [Arr.stored, h1, h2]
  refine ⟨e, ?_⟩
  rw [e, hi]
  intro h'
  have := congrArg Arr.data h'
  simp at this
  linarith

end Verif
