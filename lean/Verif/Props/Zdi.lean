import Verif.Lemmas.Zdi
import Verif.Lemmas.LegendreInt
import Verif.Props.Coordinates

/-!
# Properties C37 - C40, C44, C45: ZDI magnetograms
-/

namespace Verif
open Spec Legendre Zdi

/-! ## C37: cartesian and spherical components -/

/-- **C37.** The cartesian field exists exactly when the field strength does, has that length, and its component
along the direction of the point is the radial field. -/
theorem C37_cartesian (z : Zdi) (θ φ : ℝ) :
    (∀ e, cartesian z θ φ = .error e ↔ strength z θ φ = .error e) ∧
    ∀ v, cartesian z θ φ = .ok v →
      strength z θ φ = .ok (Real.sqrt (v 0 ^ 2 + v 1 ^ 2 + v 2 ^ 2)) ∧
      v 0 * (rectFromSpherical 1 θ φ).1 + v 1 * (rectFromSpherical 1 θ φ).2.1
        + v 2 * (rectFromSpherical 1 θ φ).2.2 = radial z θ φ := by
  rw [cartesian, strength]
  rcases hp : polar z θ φ with e | p
  · refine ⟨fun e' => by simp [bind, Except.bind], fun v hv => ?_⟩
    exact absurd hv (by simp [bind, Except.bind])
  · rcases ha : azimuthal z θ φ with e | a
    · refine ⟨fun e' => by simp [bind, Except.bind], fun v hv => ?_⟩
      exact absurd hv (by simp [bind, Except.bind])
    · refine ⟨fun e' => ?_, fun v hv => ?_⟩
      · simp [bind, Except.bind, pure, Except.pure]
      · have : v = toCartesian θ φ (radial z θ φ) p a := by
          simpa [bind, Except.bind, pure, Except.pure] using hv.symm
        subst this
        refine ⟨?_, C37_radial_component θ φ _ _ _⟩
        rw [C37_norm]
        rfl

/-- **C37.** `get_cartesian_toroidal_field` never returns: it calls a method that is `assert False`. -/
theorem C37_cartesianToroidal_raises (z : Zdi) (θ φ : ℝ) : cartesianToroidal z θ φ = .error .assertion := rfl

/-! ## C38: poloidal plus toroidal -/

theorem poloidal_lm (z : Zdi) : lm (poloidal z) = lm z := by
  simp [lm, poloidal, Zdi.copy, Function.comp_def]

theorem toroidal_lm (z : Zdi) : lm (toroidal z) = lm z := by
  simp [lm, toroidal, Zdi.copy, Function.comp_def]

/-- **C38.** The radial field of the parts adds up, and the toroidal part has none. -/
theorem C38_radial (z : Zdi) (θ φ : ℝ) :
    radial z θ φ = radial (poloidal z) θ φ + radial (toroidal z) θ φ ∧ radial (toroidal z) θ φ = 0 := by
  have h0 : radial (toroidal z) θ φ = 0 := by
    simp [radial, radialToroidal, radialPoloidal, toroidal, Zdi.copy, Function.comp_def]
  refine ⟨?_, h0⟩
  rw [h0, add_zero]
  simp [radial, radialToroidal, radialPoloidal, poloidal, Zdi.copy, Function.comp_def]

private theorem zipWith_zero {β γ : Type} (xs : List β) (ys : List γ) :
    (List.zipWith (fun _ _ => (0 : ℂ)) xs ys).sum = 0 := by
  induction xs generalizing ys with
  | nil => simp
  | cons x xs ih => cases ys <;> simp [ih]

/-- **C38.** The polar field of the parts adds up (and is undefined for the parts exactly when it is for the
whole). -/
theorem C38_polar (z : Zdi) (θ φ : ℝ) :
    polar z θ φ = (do
      let p ← polar (poloidal z) θ φ
      let t ← polar (toroidal z) θ φ
      pure (p + t)) := by
  simp only [polar, polarPoloidal, poloidal_lm, toroidal_lm]
  rcases calcLpmn z.lm θ with e | pd
  · rfl
  · simp [bind, Except.bind, pure, Except.pure, polarToroidal, poloidal, toroidal, Zdi.copy,
      Function.comp_def, List.zipWith_map_left, zipWith_zero]

/-- **C38.** The azimuthal field of the parts adds up. -/
theorem C38_azimuthal (z : Zdi) (θ φ : ℝ) :
    azimuthal z θ φ = (do
      let p ← azimuthal (poloidal z) θ φ
      let t ← azimuthal (toroidal z) θ φ
      pure (p + t)) := by
  simp only [azimuthal, azimuthalToroidal, poloidal_lm, toroidal_lm]
  rcases calcLpmn z.lm θ with e | pd
  · rfl
  · simp [bind, Except.bind, pure, Except.pure, azimuthalPoloidal, poloidal, toroidal, Zdi.copy,
      Function.comp_def, List.zipWith_map_left, zipWith_zero]

/-- **C38.** Taking a part twice changes nothing; taking both parts leaves the same pairs with zero
coefficients. -/
theorem C38_projections (z : Zdi) :
    poloidal (poloidal z) = poloidal z ∧ toroidal (toroidal z) = toroidal z ∧
    poloidal (toroidal z) = z.map (fun r => ⟨r.l, r.m, 0, 0, 0⟩) ∧
    toroidal (poloidal z) = z.map (fun r => ⟨r.l, r.m, 0, 0, 0⟩) := by
  simp [poloidal, toroidal, Zdi.copy, Function.comp_def]

/-- **C38.** A part keeps its own coefficients and the pairs. -/
theorem C38_parts_keep (z : Zdi) :
    (poloidal z).map (fun r => (r.l, r.m, r.a, r.b)) = z.map (fun r => (r.l, r.m, r.a, r.b)) ∧
    (toroidal z).map (fun r => (r.l, r.m, r.g)) = z.map (fun r => (r.l, r.m, r.g)) := by
  simp [poloidal, toroidal, Zdi.copy, Function.comp_def]

/-! ## C39: surface gradient and surface curl -/

private theorem sin_pos_of {θ : ℝ} (h : OffAxis θ) : 0 < Real.sin θ := Real.sin_pos_of_pos_of_lt_pi h.1 h.2

/-- **C39.** Away from the poles the poloidal tangential field is minus the surface gradient of a scalar `S`:
`B_θ = -∂S/∂θ` and `sin θ B_φ = -∂S/∂φ`; hence its radial curl `∂(sin θ B_φ)/∂θ - ∂B_θ/∂φ` vanishes. -/
theorem C39_poloidal_gradient (z : Zdi) (hz : NonnegOrders z) :
    ∃ (S Bp Ba : ℝ → ℝ → ℝ),
      (∀ θ φ, OffAxis θ → polarPoloidal z θ φ = .ok (Bp θ φ) ∧ azimuthalPoloidal z θ φ = Ba θ φ) ∧
      (∀ θ φ, OffAxis θ → HasDerivAt (fun t => S t φ) (-(Bp θ φ)) θ ∧
        HasDerivAt (fun p => S θ p) (-(Real.sin θ * Ba θ φ)) φ) ∧
      ∀ θ φ, OffAxis θ → ∃ X, HasDerivAt (fun t => Real.sin t * Ba t φ) X θ ∧ HasDerivAt (fun p => Bp θ p) X φ := by
  set w : ZRow → ℂ := fun r => r.b * cLm r.l r.m / (r.l + 1) with hw
  refine ⟨fun θ φ => (harm w thP z θ φ).re, fun θ φ => -(harm w thD z θ φ).re,
    fun θ φ => -((harm (fun r => Complex.I * r.m * w r) thP z θ φ).re / Real.sin θ), ?_, ?_, ?_⟩
  · intro θ φ h
    exact ⟨polarPoloidal_eq hz (sin_pos_of h) φ, azimuthalPoloidal_eq hz.2 (sin_pos_of h).le φ⟩
  · intro θ φ h
    constructor
    · rw [neg_neg]
      exact hasDerivAt_re (harm_deriv_polar w thP thD z θ φ fun r _ => hasDerivAt_thP _ _ θ)
    · refine (hasDerivAt_re (harm_deriv_azimuth w thP z θ φ)).congr_deriv ?_
      have := (sin_pos_of h).ne'
      field_simp
  · intro θ φ h
    refine ⟨-(harm (fun r => Complex.I * r.m * w r) thD z θ φ).re, ?_, ?_⟩
    · have h1 := (hasDerivAt_re (harm_deriv_polar (fun r => Complex.I * r.m * w r) thP thD z θ φ
        fun r _ => hasDerivAt_thP _ _ θ)).neg
      refine h1.congr_of_eventuallyEq ?_
      have hev : ∀ᶠ t in nhds θ, OffAxis t := (isOpen_Ioo (a := (0 : ℝ)) (b := Real.pi)).mem_nhds h
      filter_upwards [hev] with t ht
      have := (sin_pos_of ht).ne'
      simp only [Pi.neg_apply]
      field_simp
    · exact (hasDerivAt_re (harm_deriv_azimuth w thD z θ φ)).neg

/-- **C39.** The toroidal tangential field is a rotated surface gradient: `sin θ B_θ = ∂T/∂φ`, `B_φ = -∂T/∂θ`;
hence its surface divergence `∂(sin θ B_θ)/∂θ + ∂B_φ/∂φ` vanishes. -/
theorem C39_toroidal_curl (z : Zdi) (hz : NonnegOrders z) :
    ∃ (T Bp Ba : ℝ → ℝ → ℝ),
      (∀ θ φ, OffAxis θ → polarToroidal z θ φ = Bp θ φ ∧ azimuthalToroidal z θ φ = .ok (Ba θ φ)) ∧
      (∀ θ φ, OffAxis θ → HasDerivAt (fun t => T t φ) (-(Ba θ φ)) θ ∧
        HasDerivAt (fun p => T θ p) (Real.sin θ * Bp θ φ) φ) ∧
      ∀ θ φ, OffAxis θ →
        ∃ X, HasDerivAt (fun t => Real.sin t * Bp t φ) X θ ∧ HasDerivAt (fun p => Ba θ p) (-X) φ := by
  set w : ZRow → ℂ := fun r => r.g * cLm r.l r.m / (r.l + 1) with hw
  refine ⟨fun θ φ => (harm w thP z θ φ).re,
    fun θ φ => (harm (fun r => Complex.I * r.m * w r) thP z θ φ).re / Real.sin θ,
    fun θ φ => -(harm w thD z θ φ).re, ?_, ?_, ?_⟩
  · intro θ φ h
    exact ⟨polarToroidal_eq hz.2 (sin_pos_of h).le φ, azimuthalToroidal_eq hz (sin_pos_of h) φ⟩
  · intro θ φ h
    constructor
    · rw [neg_neg]
      exact hasDerivAt_re (harm_deriv_polar w thP thD z θ φ fun r _ => hasDerivAt_thP _ _ θ)
    · refine (hasDerivAt_re (harm_deriv_azimuth w thP z θ φ)).congr_deriv ?_
      have := (sin_pos_of h).ne'
      field_simp
  · intro θ φ h
    refine ⟨(harm (fun r => Complex.I * r.m * w r) thD z θ φ).re, ?_, ?_⟩
    · have h1 := hasDerivAt_re (harm_deriv_polar (fun r => Complex.I * r.m * w r) thP thD z θ φ
        fun r _ => hasDerivAt_thP _ _ θ)
      refine h1.congr_of_eventuallyEq ?_
      have hev : ∀ᶠ t in nhds θ, OffAxis t := (isOpen_Ioo (a := (0 : ℝ)) (b := Real.pi)).mem_nhds h
      filter_upwards [hev] with t ht
      have := (sin_pos_of ht).ne'
      field_simp
    · exact (hasDerivAt_re (harm_deriv_azimuth w thD z θ φ)).neg

/-- Non-vacuity of C39: a magnetogram with two rows. -/
example : NonnegOrders [⟨1, 0, 1, 2, 3⟩, ⟨3, 2, Complex.I, 1, 0⟩] := by
  refine ⟨by simp, ?_⟩
  intro r hr
  simp only [List.mem_cons, List.not_mem_nil, or_false] at hr
  rcases hr with rfl | rfl <;> simp

/-! ## C40: the normalisation constant -/

theorem exp_neg_sum_log (a n : ℕ) :
    Real.exp (-((List.range n).map fun i : ℕ => Real.log ((a : ℝ) + 1 + i)).sum)
      = (a.factorial : ℝ) / ((a + n).factorial : ℝ) := by
  induction n with
  | zero =>
    have : (a.factorial : ℝ) ≠ 0 := by positivity
    simp [this]
  | succ n ih =>
    rw [List.range_succ, List.map_append, List.sum_append, neg_add, Real.exp_add, ih]
    have h : (0 : ℝ) < (a : ℝ) + 1 + n := by positivity
    simp only [List.map_cons, List.map_nil, List.sum_cons, List.sum_nil, add_zero]
    rw [Real.exp_neg, Real.exp_log h, ← Nat.add_assoc, Nat.factorial_succ]
    have : ((a + n).factorial : ℝ) ≠ 0 := by positivity
    push_cast
    field_simp
    ring

private theorem pyRange_cast (a b : ℤ) (f : ℝ → ℝ) :
    ((pyRange a b).map fun k : ℤ => f k) = (List.range (b - a).toNat).map fun i : ℕ => f ((a : ℝ) + i) := by
  simp [pyRange, Function.comp_def]

/-- **C40.** For `0 ≤ m ≤ l` both methods give the same positive number. -/
theorem C40_methods_agree (l m : ℤ) (h0 : 0 ≤ m) (h1 : m ≤ l) : cLm l m = cLmAlt l m ∧ 0 < cLm l m := by
  obtain ⟨M, rfl⟩ := Int.eq_ofNat_of_zero_le h0
  obtain ⟨d, hd⟩ := Int.eq_ofNat_of_zero_le (sub_nonneg.2 h1)
  have hl : l = (d + M : ℕ) := by push_cast; omega
  subst hl
  have e1 : spFactorial (((d + M : ℕ) : ℤ) - (M : ℤ)) = (d.factorial : ℝ) := by
    rw [spFactorial, if_neg (by omega)]; congr 2; omega
  have e2 : spFactorial (((d + M : ℕ) : ℤ) + (M : ℤ)) = ((d + 2 * M).factorial : ℝ) := by
    rw [spFactorial, if_neg (by omega)]; congr 2; omega
  constructor
  · rw [cLm, cLmAlt, e1, e2, pyRange_cast]
    have e3 : ((((d + M : ℕ) : ℤ) + (M : ℤ) + 1) - (((d + M : ℕ) : ℤ) - (M : ℤ) + 1)).toNat = 2 * M := by omega
    have e4 : (((((d + M : ℕ) : ℤ) - (M : ℤ) + 1 : ℤ)) : ℝ) = (d : ℝ) + 1 := by push_cast; ring
    rw [e3, e4, exp_neg_sum_log, mul_div_assoc]
  · rw [cLm, e1, e2]
    apply Real.sqrt_pos.2
    have := Real.pi_pos
    positivity

/-- **C40.** For negative orders the alternative method is wrong: it is strictly smaller (the range of the
product is empty). -/
theorem C40_negative_orders_differ (l m : ℤ) (h0 : m < 0) (h1 : -m ≤ l) : cLmAlt l m < cLm l m := by
  obtain ⟨M, hM⟩ := Int.eq_ofNat_of_zero_le (show 0 ≤ -m by omega)
  obtain ⟨d, hd⟩ := Int.eq_ofNat_of_zero_le (show 0 ≤ l + m by omega)
  have hm : m = -(M : ℤ) := by omega
  have hl : l = (d + M : ℕ) := by push_cast; omega
  subst hm; subst hl
  have e1 : spFactorial (((d + M : ℕ) : ℤ) - (-(M : ℤ))) = ((d + 2 * M).factorial : ℝ) := by
    rw [spFactorial, if_neg (by omega)]; congr 2; omega
  have e2 : spFactorial (((d + M : ℕ) : ℤ) + (-(M : ℤ))) = (d.factorial : ℝ) := by
    rw [spFactorial, if_neg (by omega)]; congr 2; omega
  have e3 : ((((d + M : ℕ) : ℤ) + (-(M : ℤ)) + 1) - (((d + M : ℕ) : ℤ) - (-(M : ℤ)) + 1)).toNat = 0 := by omega
  rw [cLm, cLmAlt, e1, e2, pyRange_cast, e3]
  simp only [List.range_zero, List.map_nil, List.sum_nil, neg_zero, Real.exp_zero, mul_one]
  have hp := Real.pi_pos
  have hd0 : (0 : ℝ) < (d.factorial : ℝ) := by positivity
  apply Real.sqrt_lt_sqrt
  · positivity
  · rw [mul_div_assoc]
    have : (1 : ℝ) < ((d + 2 * M).factorial : ℝ) / (d.factorial : ℝ) := by
      rw [one_lt_div hd0]
      have h1 : d.factorial < (d + 2 * M).factorial := by
        rcases Nat.eq_zero_or_pos d with rfl | hdp
        · have : 2 ≤ 0 + 2 * M := by omega
          calc (0 : ℕ).factorial = 1 := rfl
            _ < (2 : ℕ).factorial := by decide
            _ ≤ _ := Nat.factorial_le this
        · exact (Nat.factorial_lt hdp).2 (by omega)
      exact_mod_cast h1
    have hb : (0 : ℝ) < (2 * ((((d + M : ℕ) : ℤ)) : ℝ) + 1) / (4 * Real.pi) := by positivity
    exact lt_mul_of_one_lt_right hb this

/-- Non-vacuity of C40: (1, -1), where the values are `sqrt(3/4π)` and `sqrt(6/4π)`. -/
example : cLmAlt 1 (-1) < cLm 1 (-1) := C40_negative_orders_differ 1 (-1) (by norm_num) (by norm_num)

/-! ## C44: restriction to ranges -/

/-- A row lies in the requested ranges. -/
def InRanges (dl om : RangeArg) (r : ZRow) : Prop :=
  dl.pair.1 ≤ r.l ∧ r.l ≤ dl.pair.2 ∧ om.pair.1 ≤ r.m ∧ r.m ≤ om.pair.2

private theorem mem_restricted (z : Zdi) (dl om : RangeArg) (r : ZRow) :
    r ∈ restricted z dl om ↔ r ∈ z ∧ InRanges dl om r := by
  simp [restricted, InRanges, and_assoc]

/-- **C44.** `as_restricted` returns the longest sublist of rows in the ranges: rows keep order and coefficients,
every row in the ranges is kept and no other. -/
theorem C44_restricted (z : Zdi) (dl om : RangeArg) :
    (restricted z dl om).Sublist z ∧ (∀ r ∈ restricted z dl om, InRanges dl om r) ∧
    ∀ y : Zdi, y.Sublist z → (∀ r ∈ y, InRanges dl om r) → y.Sublist (restricted z dl om) := by
  refine ⟨List.filter_sublist, fun r hr => ((mem_restricted z dl om r).1 hr).2, fun y hy h => ?_⟩
  have := hy.filter fun r => decide (dl.pair.1 ≤ r.l) && decide (r.l ≤ dl.pair.2) && decide (om.pair.1 ≤ r.m)
    && decide (r.m ≤ om.pair.2)
  rwa [List.filter_eq_self.2] at this
  intro r hr
  obtain ⟨h1, h2, h3, h4⟩ := h r hr
  simp [h1, h2, h3, h4]

/-- **C44.** Restricting is idempotent and commutes with taking parts. -/
theorem C44_restricted_idem (z : Zdi) (dl om : RangeArg) :
    restricted (restricted z dl om) dl om = restricted z dl om ∧
    restricted (poloidal z) dl om = poloidal (restricted z dl om) ∧
    restricted (toroidal z) dl om = toroidal (restricted z dl om) := by
  refine ⟨?_, ?_, ?_⟩
  · simp [restricted, List.filter_filter]
  · simp [restricted, poloidal, Zdi.copy, List.filter_map, Function.comp_def]
  · simp [restricted, toroidal, Zdi.copy, List.filter_map, Function.comp_def]

/-- **C44.** Two restrictions amount to the intersection of the ranges. -/
theorem C44_restricted_twice (z : Zdi) (a b c d a' b' c' d' : ℤ) :
    restricted (restricted z (.two a b) (.two c d)) (.two a' b') (.two c' d')
      = restricted z (.two (max a a') (min b b')) (.two (max c c') (min d d')) := by
  rw [restricted, restricted, restricted, List.filter_filter]
  apply List.filter_congr
  intro r _
  rw [Bool.eq_iff_iff]
  simp only [Bool.and_eq_true, decide_eq_true_eq]
  simp only [RangeArg.pair, max_le_iff, le_min_iff]
  tauto

/-- **C44.** `as_dipole` keeps the rows of degree 1 with order 0..1000: negative orders are dropped. -/
theorem C44_dipole (z : Zdi) (r : ZRow) : r ∈ dipole z ↔ r ∈ z ∧ r.l = 1 ∧ 0 ≤ r.m ∧ r.m ≤ 1000 := by
  rw [dipole, mem_restricted]
  simp only [InRanges, RangeArg.pair]
  constructor
  · rintro ⟨h, h1, h2, h3, h4⟩; exact ⟨h, by omega, h3, h4⟩
  · rintro ⟨h, h1, h2, h3⟩; exact ⟨h, by omega, by omega, h2, h3⟩

/-- **C44.** The default order range silently drops a dipole row with negative order. -/
theorem C44_dipole_drops_negative :
    (⟨1, -1, 1, 0, 0⟩ : ZRow) ∈ ([⟨1, -1, 1, 0, 0⟩] : Zdi) ∧ dipole [⟨1, -1, 1, 0, 0⟩] = [] := by
  refine ⟨by simp, ?_⟩
  rw [List.eq_nil_iff_forall_not_mem]
  intro r hr
  rw [C44_dipole] at hr
  obtain ⟨h, _, h2, _⟩ := hr
  simp only [List.mem_singleton] at h
  subst h
  simp at h2

/-! ## C45: associated Legendre values and derivatives -/

/-- **C45.** For non-negative orders `calculate_lpmn` returns `P_l^m(cos θ)` and its `θ` derivative. -/
theorem C45_values_derivatives (lm : List (ℤ × ℤ)) (hne : lm ≠ []) (h : ∀ k ∈ lm, 0 ≤ k.2 ∧ k.2 ≤ k.1) (θ : ℝ)
    (hθ : OffAxis θ) :
    ∃ vs, calcLpmn lm θ = .ok vs ∧ vs.length = lm.length ∧
      ∀ i (hi : i < lm.length) (hv : i < vs.length),
        vs[i].1 = legendreP lm[i].1.toNat lm[i].2.toNat (Real.cos θ) ∧
        HasDerivAt (fun t => legendreP lm[i].1.toNat lm[i].2.toNat (Real.cos t)) vs[i].2 θ := by
  have hs := sin_pos_of hθ
  refine ⟨_, calcLpmn_ok' hne h hs, by simp, fun i hi hv => ?_⟩
  simp only [List.getElem_map]
  exact ⟨(legendreP_cos _ _ hs.le).symm, hasDerivAt_legendreP_cos _ _ hs⟩

/-- **C45.** A negative order `m` is looked up as order `m + M + 1`, `M` the largest order given. -/
theorem C45_negative_orders (lm : List (ℤ × ℤ)) (L M : ℤ) (hL : listMax (lm.map Prod.fst) = some L)
    (hM : listMax (lm.map Prod.snd) = some M) (hM0 : 0 ≤ M) (hML : M ≤ L)
    (h : ∀ k ∈ lm, 0 ≤ k.1 ∧ -(M + 1) ≤ k.2) (θ : ℝ) :
    calcLpmn lm θ = .ok (lm.map fun k =>
      let m := (if 0 ≤ k.2 then k.2 else k.2 + M + 1).toNat
      (legendreP k.1.toNat m (Real.cos θ), deriv (legendreP k.1.toNat m) (Real.cos θ) * -Real.sin θ)) := by
  have hne : lm ≠ [] := by rintro rfl; simp [listMax] at hL
  obtain ⟨L', hL', _, hLu⟩ := listMax_spec (xs := lm.map Prod.fst) (by simpa using hne)
  obtain ⟨M', hM', _, hMu⟩ := listMax_spec (xs := lm.map Prod.snd) (by simpa using hne)
  rw [hL] at hL'; rw [hM] at hM'
  cases hL'; cases hM'
  rw [calcLpmn, hL, hM]
  simp only
  rw [if_neg (by omega)]
  apply mapM_pure_ok
  intro j hj
  have h3 := h j hj
  have h4 := hLu j.1 (List.mem_map_of_mem hj)
  have h5 := hMu j.2 (List.mem_map_of_mem hj)
  rw [npIndex_ok (size := L + 1) h3.1 (by omega)]
  by_cases h0 : 0 ≤ j.2
  · rw [npIndex_ok (size := M + 1) h0 (by omega), if_pos h0]; rfl
  · rw [npIndex, if_neg (by omega), if_pos (by omega), if_neg h0, ← add_assoc]
    rfl

/-- **C45.** So for the pairs (1,1), (1,-1) the second value is `P_1^1` instead of `P_1^{-1} = -P_1^1/2`. -/
theorem C45_negative_order_wrong (θ : ℝ) (hθ : OffAxis θ) :
    ∃ p q, calcLpmn [(1, 1), (1, -1)] θ = .ok [p, q] ∧ q.1 = p.1 ∧ q.1 ≠ legendrePZ 1 (-1) (Real.cos θ) := by
  have hs := sin_pos_of hθ
  have h := C45_negative_orders [(1, 1), (1, -1)] 1 1 rfl rfl (by norm_num) (by norm_num)
    (by simp) θ
  refine ⟨_, _, h, rfl, ?_⟩
  have e1 : legendrePZ 1 (-1) (Real.cos θ) = -(1 / 2) * legendreP 1 1 (Real.cos θ) := by
    rw [legendrePZ, if_neg (by norm_num), if_neg (by norm_num)]
    norm_num [Nat.factorial]
  have e2 : legendreP 1 1 (Real.cos θ) = -Real.sin θ := by
    rw [legendreP_cos _ _ hs.le, thP, show 1 + 1 = 2 * 1 from rfl, rod_top, rodNorm]
    norm_num [Nat.factorial]
    ring
  rw [e1]
  simp only [Int.toNat_one]
  norm_num
  rw [e2]
  intro hc
  linarith

end Verif
