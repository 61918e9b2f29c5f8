import Verif.Lemmas.Zdi
import Verif.Model.Energy

/-!
# Properties C41 - C43: magnetic energy of a ZDI magnetogram
-/

namespace Verif
open Spec Zdi

/-! ## C41 -/

/-- What the energy of one coefficient should be: the mean square of the field component it stands for, up to
the common factor `1/4π`: `|c|²/2`, for the axisymmetric ones `(Re c)²`, and an extra `l/(l+1)` for the two
tangential kinds. -/
noncomputable def specEnergy (k : Comp) (r : ZRow) : ℝ :=
  (if r.m = 0 then (k.of r).re ^ 2 else ((k.of r).re ^ 2 + (k.of r).im ^ 2) / 2)
    * (if k = .alpha then 1 else (r.l : ℝ) / (r.l + 1))

private theorem energyC_eq (k : Comp) (r : ZRow) : energyC r (k.of r) (k ≠ .alpha) = (specEnergy k r : ℂ) := by
  generalize hc : k.of r = c
  have hre : ((r.l : ℂ) / ((r.l : ℂ) + 1)) = (((r.l : ℝ) / ((r.l : ℝ) + 1) : ℝ) : ℂ) := by push_cast; rfl
  have hcc : c * (starRingEnd ℂ) c = ((c.re ^ 2 + c.im ^ 2 : ℝ) : ℂ) := by
    rw [Complex.mul_conj, Complex.normSq_apply]; push_cast; ring
  have h2 : c ^ 2 + (starRingEnd ℂ) c ^ 2 = ((2 * (c.re ^ 2 - c.im ^ 2) : ℝ) : ℂ) := by
    apply Complex.ext <;> simp [pow_two] <;> ring
  have key : ∀ m0 : ℝ, 0.5 * c * (starRingEnd ℂ) c + (m0 : ℂ) * 0.25 * (c ^ 2 + (starRingEnd ℂ) c ^ 2)
      = (((c.re ^ 2 + c.im ^ 2) / 2 + m0 * ((c.re ^ 2 - c.im ^ 2) / 2) : ℝ) : ℂ) := by
    intro m0
    rw [mul_assoc 0.5, hcc, h2]
    push_cast
    ring
  have hm : (if r.m = 0 then (1 : ℂ) else 0) = ((if r.m = 0 then (1 : ℝ) else 0 : ℝ) : ℂ) := by
    split_ifs <;> simp
  simp only [energyC, specEnergy, hc]
  rw [hm, key, hre]
  cases k <;> simp only [ne_eq, reduceCtorEq, not_false_eq_true, not_true_eq_false, decide_true, decide_false,
    if_true, Bool.false_eq_true, if_false, mul_one]
  all_goals
    try rw [← Complex.ofReal_mul]
    congr 1
    split_ifs <;> ring

/-- **C41.** The energies computed in complex arithmetic are real, so `np.real_if_close` loses nothing. -/
theorem C41_real (k : Comp) (r : ZRow) : (energyC r (k.of r) (k ≠ .alpha)).im = 0 := by
  rw [energyC_eq, Complex.ofReal_im]

/-- **C41.** The value of one entry. -/
theorem C41_value (k : Comp) (r : ZRow) : energyOf k r = specEnergy k r := by
  rw [energyOf, energyC_eq, Complex.ofReal_re]

private theorem lfac_nonneg {l : ℤ} (h : 0 ≤ l) : (0 : ℝ) ≤ (l : ℝ) / (l + 1) := by
  have : (0 : ℝ) ≤ l := by exact_mod_cast h
  positivity

/-- **C41.** Entries are non-negative. -/
theorem C41_nonneg (k : Comp) (r : ZRow) (h : 0 ≤ r.l) : 0 ≤ energyOf k r := by
  rw [C41_value, specEnergy]
  apply mul_nonneg
  · split_ifs <;> positivity
  · split_ifs
    · norm_num
    · exact lfac_nonneg h

/-- **C41.** An entry vanishes exactly when the coefficient has no field: it is zero, or purely imaginary at order
zero, or tangential at degree zero. -/
theorem C41_zero_iff (k : Comp) (r : ZRow) (h : 0 ≤ r.l) :
    energyOf k r = 0 ↔ k.of r = 0 ∨ (r.m = 0 ∧ (k.of r).re = 0) ∨ (k ≠ .alpha ∧ r.l = 0) := by
  rw [C41_value, specEnergy, mul_eq_zero]
  have h1 : ((if r.m = 0 then (k.of r).re ^ 2 else ((k.of r).re ^ 2 + (k.of r).im ^ 2) / 2) = 0) ↔
      (k.of r = 0 ∨ (r.m = 0 ∧ (k.of r).re = 0)) := by
    split_ifs with hm
    · simp only [hm, true_and, Complex.ext_iff, Complex.zero_re, Complex.zero_im]
      constructor
      · intro h; right; exact pow_eq_zero_iff (two_ne_zero) |>.1 h
      · rintro (h | h)
        · rw [h.1]; ring
        · rw [h]; ring
    · simp only [hm, false_and, or_false, Complex.ext_iff, Complex.zero_re, Complex.zero_im]
      constructor
      · intro h
        have a := sq_nonneg (k.of r).re
        have b := sq_nonneg (k.of r).im
        exact ⟨pow_eq_zero_iff (two_ne_zero) |>.1 (by linarith), pow_eq_zero_iff (two_ne_zero) |>.1 (by linarith)⟩
      · rintro ⟨h, h'⟩; rw [h, h']; ring
  have h2 : ((if k = .alpha then (1 : ℝ) else (r.l : ℝ) / (r.l + 1)) = 0) ↔ (k ≠ .alpha ∧ r.l = 0) := by
    split_ifs with hk
    · simp [hk]
    · have : (r.l : ℝ) + 1 ≠ 0 := by
        have : (0 : ℝ) ≤ r.l := by exact_mod_cast h
        positivity
      simp [hk, this]
  rw [h1, h2]
  tauto

/-- **C41.** Scaling all coefficients by a real number scales each energy by its square. -/
theorem C41_scaling (k : Comp) (r : ZRow) (x : ℝ) :
    energyOf k { r with a := x * r.a, b := x * r.b, g := x * r.g } = x ^ 2 * energyOf k r := by
  rw [C41_value, C41_value, specEnergy, specEnergy]
  cases k <;> simp [Comp.of] <;> split_ifs <;> ring

/-- The poloidal and toroidal totals. -/
noncomputable def polEnergy (z : Zdi) : ℝ := (z.map (energyOf .alpha)).sum + (z.map (energyOf .beta)).sum
noncomputable def torEnergy (z : Zdi) : ℝ := (z.map (energyOf .gamma)).sum

/-- **C41.** The total is the poloidal plus the toroidal energy, and these are the totals of the two parts. -/
theorem C41_split (z : Zdi) :
    totalEnergy z = polEnergy z + torEnergy z ∧ totalEnergy (poloidal z) = polEnergy z ∧
    totalEnergy (toroidal z) = torEnergy z := by
  have e : ∀ k, energyOf k = fun r => specEnergy k r := fun k => funext (C41_value k)
  refine ⟨rfl, ?_, ?_⟩
  · simp [totalEnergy, polEnergy, poloidal, Zdi.copy, Function.comp_def, e, specEnergy, Comp.of]
  · simp [totalEnergy, torEnergy, toroidal, Zdi.copy, Function.comp_def, e, specEnergy, Comp.of]

/-- **C41.** All sums are non-negative. -/
theorem C41_sums_nonneg (z : Zdi) (h : ∀ r ∈ z, 0 ≤ r.l) : 0 ≤ polEnergy z ∧ 0 ≤ torEnergy z ∧
    0 ≤ totalEnergy z ∧ (z.map (energyOf .alpha)).sum ≤ polEnergy z := by
  have hk : ∀ k : Comp, 0 ≤ (z.map (energyOf k)).sum := by
    intro k
    apply List.sum_nonneg
    intro x hx
    obtain ⟨r, hr, rfl⟩ := List.mem_map.1 hx
    exact C41_nonneg k r (h r hr)
  have ha := hk .alpha
  have hb := hk .beta
  have hg := hk .gamma
  refine ⟨?_, hg, ?_, ?_⟩
  · rw [polEnergy]; linarith
  · rw [totalEnergy]; linarith
  · rw [polEnergy]; linarith

/-- A reported fraction is a number between 0 and 1 unless its denominator is zero. -/
def IsFraction (o : Option ℝ) : Prop := ∀ x, o = some x → 0 ≤ x ∧ x ≤ 1

private theorem npDiv_fraction {a b : ℝ} (h0 : 0 ≤ a) (h1 : a ≤ b) : IsFraction (npDiv a b) := by
  intro x hx
  rw [npDiv] at hx
  split_ifs at hx with hb
  simp only [Option.some.injEq] at hx
  subst hx
  have hb' : 0 < b := lt_of_le_of_ne (le_trans h0 h1) (Ne.symm hb)
  exact ⟨div_nonneg h0 hb'.le, (div_le_one hb').2 h1⟩

private theorem sumWhere_bounds (p : ZRow → Bool) (f : ZRow → ℝ) (z : Zdi) (h : ∀ r ∈ z, 0 ≤ f r) :
    0 ≤ sumWhere p f z ∧ sumWhere p f z ≤ (z.map f).sum := by
  induction z with
  | nil => simp [sumWhere]
  | cons r z ih =>
    obtain ⟨h1, h2⟩ := ih fun s hs => h s (by simp [hs])
    have h3 := h r (by simp)
    simp only [sumWhere] at h1 h2 ⊢
    by_cases hp : p r = true
    · simp only [List.filter_cons, hp, if_true, List.map_cons, List.sum_cons]
      constructor <;> linarith
    · simp only [List.filter_cons, hp, Bool.false_eq_true, if_false, List.map_cons, List.sum_cons]
      constructor <;> linarith

private theorem sumWhere_all (f : ZRow → ℝ) (z : Zdi) : sumWhere (fun _ => true) f z = (z.map f).sum := by
  rw [sumWhere, List.filter_eq_self.2 (by simp)]

private theorem sum_pol (z : Zdi) : (z.map energyPol).sum = polEnergy z := by
  rw [polEnergy]
  induction z with
  | nil => simp
  | cons r z ih => simp only [List.map_cons, List.sum_cons, ih, energyPol]; ring

private theorem sumWhere_add (p : ZRow → Bool) (f g : ZRow → ℝ) (z : Zdi) :
    sumWhere p f z + sumWhere p g z = sumWhere p (fun r => f r + g r) z := by
  simp only [sumWhere, List.sum_map_add]

/-- **C41.** Every fraction that `energy` reports lies in [0, 1]. -/
theorem C41_fractions (z : Zdi) (h : ∀ r ∈ z, 0 ≤ r.l) (e : String × Option ℝ)
    (he : e ∈ (energyEntries z).tail ++ axisymEntries z) : IsFraction e.2 := by
  have hk : ∀ k : Comp, ∀ r ∈ z, 0 ≤ energyOf k r := fun k r hr => C41_nonneg k r (h r hr)
  have hp : ∀ r ∈ z, 0 ≤ energyPol r := fun r hr => add_nonneg (hk _ r hr) (hk _ r hr)
  obtain ⟨s1, s2, s3, s4⟩ := C41_sums_nonneg z h
  have s5 : 0 ≤ (z.map (energyOf .alpha)).sum := by
    have := (sumWhere_bounds (fun _ => true) (energyOf .alpha) z (hk _))
    exact le_trans this.1 this.2
  have ePol : sumWhere (fun _ => true) (energyOf .alpha) z + sumWhere (fun _ => true) (energyOf .beta) z
      = polEnergy z := by rw [sumWhere_all, sumWhere_all]; rfl
  have eTor : sumWhere (fun _ => true) (energyOf .gamma) z = torEnergy z := by rw [sumWhere_all]; rfl
  have eTot : totalEnergy z = polEnergy z + torEnergy z := rfl
  have bPol : ∀ p, 0 ≤ sumWhere p energyPol z ∧ sumWhere p energyPol z ≤ polEnergy z := by
    intro p; rw [← sum_pol]; exact sumWhere_bounds p energyPol z hp
  have bTor : ∀ p, 0 ≤ sumWhere p (energyOf .gamma) z ∧ sumWhere p (energyOf .gamma) z ≤ torEnergy z :=
    fun p => sumWhere_bounds p _ z (hk _)
  have bRad : ∀ p, 0 ≤ sumWhere p (energyOf .alpha) z ∧ sumWhere p (energyOf .alpha) z ≤ polEnergy z :=
    fun p => ⟨(sumWhere_bounds p _ z (hk _)).1, le_trans (sumWhere_bounds p _ z (hk _)).2 s4⟩
  simp only [energyEntries, axisymEntries, ePol, eTor, List.cons_append, List.tail_cons, List.nil_append,
    List.mem_append, List.mem_cons, List.not_mem_nil, or_false, List.mem_map, or_assoc] at he
  rcases he with rfl | rfl | rfl | rfl | rfl | rfl | rfl | rfl | rfl | ⟨l, _, rfl⟩ | ⟨l, _, rfl⟩ | rfl | rfl
    | rfl | rfl
  · exact npDiv_fraction (bRad _).1 (le_trans (bRad _).2 (by rw [eTot]; linarith))
  · exact npDiv_fraction s1 (by rw [eTot]; linarith)
  · exact npDiv_fraction s2 (by rw [eTot]; linarith)
  · exact npDiv_fraction (bPol _).1 (bPol _).2
  · exact npDiv_fraction (bPol _).1 (bPol _).2
  · exact npDiv_fraction (bPol _).1 (bPol _).2
  · exact npDiv_fraction (bTor _).1 (bTor _).2
  · exact npDiv_fraction (bTor _).1 (bTor _).2
  · exact npDiv_fraction (bTor _).1 (bTor _).2
  · exact npDiv_fraction (bPol _).1 (bPol _).2
  · exact npDiv_fraction (bTor _).1 (bTor _).2
  · refine npDiv_fraction (add_nonneg (bPol _).1 (bTor _).1) ?_
    rw [eTot]; exact add_le_add (bPol _).2 (bTor _).2
  · exact npDiv_fraction (bRad _).1 (bRad _).2
  · exact npDiv_fraction (bPol _).1 (bPol _).2
  · exact npDiv_fraction (bTor _).1 (bTor _).2

/-- The value reported under a key. -/
noncomputable def reported (es : List (String × Option ℝ)) (key : String) : Option (Option ℝ) :=
  (es.find? fun e => e.1 = key).map Prod.snd

/-- **C41.** When the total is positive the poloidal and toroidal fractions are reported and add up to 1. -/
theorem C41_fractions_sum (z : Zdi) (hp : 0 < totalEnergy z) :
    ∃ x y, reported (energyEntries z) "magnetogram.poloidal.energy.fraction" = some (some x) ∧
      reported (energyEntries z) "magnetogram.toroidal.energy.fraction" = some (some y) ∧ x + y = 1 := by
  refine ⟨polEnergy z / totalEnergy z, torEnergy z / totalEnergy z, ?_, ?_, ?_⟩
  · simp [reported, energyEntries, npDiv, hp.ne', polEnergy, sumWhere_all]
  · simp [reported, energyEntries, npDiv, hp.ne', torEnergy, sumWhere_all]
  · rw [← add_div, ← (C41_split z).1, div_self hp.ne']

/-- Energy of the given kinds in the rows with a selected degree and order. -/
noncomputable def Spec.energyIn (z : Zdi) (p : ℤ → ℤ → Bool) (ks : List Comp) : ℝ :=
  ((z.filter fun r => p r.l r.m).map fun r => (ks.map fun k => specEnergy k r).sum).sum

/-- One reported share: key, selected degrees and orders, kinds counted, kinds it is a share of. -/
structure Spec.Share where
  key : String
  rows : ℤ → ℤ → Bool
  part : List Comp
  whole : List Comp

/-- What the keys of `dest` say. -/
def Spec.shares : List Share :=
  let all : ℤ → ℤ → Bool := fun _ _ => true
  let pol : List Comp := [.alpha, .beta]
  let tor : List Comp := [.gamma]
  let tot : List Comp := [.alpha, .beta, .gamma]
  [⟨"magnetogram.radial.energy.fraction", all, [.alpha], tot⟩,
   ⟨"magnetogram.poloidal.energy.fraction", all, pol, tot⟩,
   ⟨"magnetogram.toroidal.energy.fraction", all, tor, tot⟩,
   ⟨"magnetogram.total.energy.dipole.fraction", fun l _ => l = 1, pol, pol⟩,
   ⟨"magnetogram.total.energy.quadrupole.fraction", fun l _ => l = 2, pol, pol⟩,
   ⟨"magnetogram.total.energy.octopole.fraction", fun l _ => l = 3, pol, pol⟩,
   ⟨"magnetogram.total.energy.toroidal.l1.fraction", fun l _ => l = 1, tor, tor⟩,
   ⟨"magnetogram.total.energy.toroidal.l2.fraction", fun l _ => l = 2, tor, tor⟩,
   ⟨"magnetogram.total.energy.toroidal.l3.fraction", fun l _ => l = 3, tor, tor⟩,
   ⟨"magnetogram.total.energy.axisymmetric.fraction", fun _ m => m = 0, tot, tot⟩,
   ⟨"magnetogram.total.energy.radial.axisymmetric.fraction", fun _ m => m = 0, [.alpha], pol⟩,
   ⟨"magnetogram.total.energy.poloidal.axisymmetric.fraction", fun _ m => m = 0, pol, pol⟩,
   ⟨"magnetogram.total.energy.toroidal.axisymmetric.fraction", fun _ m => m = 0, tor, tor⟩]

/-- One share by its definition. -/
noncomputable def Spec.shareOf (z : Zdi) (e : Share) : Option ℝ := open Classical in
  if energyIn z (fun _ _ => true) e.whole = 0 then none
  else some (energyIn z e.rows e.part / energyIn z (fun _ _ => true) e.whole)

private theorem share_aux (z : Zdi) :
    (∀ x y : ℝ, (if y = 0 then none else some (x / y)) = npDiv x y) ∧
    (∀ p k, energyIn z p [k] = sumWhere (fun r => p r.l r.m) (energyOf k) z) ∧
    (∀ p, energyIn z p [.alpha, .beta] = sumWhere (fun r => p r.l r.m) energyPol z) ∧
    (∀ p, energyIn z p [.alpha, .beta, .gamma] =
      sumWhere (fun r => p r.l r.m) energyPol z + sumWhere (fun r => p r.l r.m) (energyOf .gamma) z) ∧
    sumWhere (fun _ => true) (energyOf .alpha) z + sumWhere (fun _ => true) (energyOf .beta) z =
      sumWhere (fun _ => true) energyPol z ∧
    totalEnergy z = sumWhere (fun _ => true) energyPol z + sumWhere (fun _ => true) (energyOf .gamma) z := by
  have npd : ∀ x y : ℝ, npDiv x y = if y = 0 then none else some (x / y) := by
    intro x y; rw [npDiv]
  have i1 : ∀ p k, energyIn z p [k] = sumWhere (fun r => p r.l r.m) (energyOf k) z := by
    intro p k
    rw [energyIn, sumWhere]
    congr 2
    funext r
    simp [C41_value]
  have i2 : ∀ p, energyIn z p [.alpha, .beta] = sumWhere (fun r => p r.l r.m) energyPol z := by
    intro p
    rw [energyIn, sumWhere]
    congr 2
    funext r
    simp [energyPol, C41_value]
  have i3 : ∀ p, energyIn z p [.alpha, .beta, .gamma] =
      sumWhere (fun r => p r.l r.m) energyPol z + sumWhere (fun r => p r.l r.m) (energyOf .gamma) z := by
    intro p
    rw [sumWhere_add, energyIn, sumWhere]
    congr 2
    funext r
    simp [energyPol, C41_value, add_assoc]
  have hp : sumWhere (fun _ => true) (energyOf .alpha) z + sumWhere (fun _ => true) (energyOf .beta) z =
      sumWhere (fun _ => true) energyPol z := sumWhere_add _ _ _ _
  have ht : totalEnergy z = sumWhere (fun _ => true) energyPol z + sumWhere (fun _ => true) (energyOf .gamma) z := by
    rw [← hp, sumWhere_all, sumWhere_all, sumWhere_all]; rfl
  exact ⟨fun x y => (npd x y).symm, i1, i2, i3, hp, ht⟩

/-- **C41.** Every reported fraction is the share that its key names; it is no number exactly if the whole is zero. -/
theorem C41_shares (z : Zdi) (e : Share) (he : e ∈ shares) :
    reported (energyEntries z ++ axisymEntries z) e.key = some (shareOf z e) := by
  obtain ⟨npd, i1, i2, i3, hp, ht⟩ := share_aux z
  have hr : pyRange 1 16 = [1, 2, 3, 4, 5, 6, 7, 8, 9, 10, 11, 12, 13, 14, 15] := by decide
  have r1 : Int.repr 1 = "1" := by decide
  have r2 : Int.repr 2 = "2" := by decide
  have r3 : Int.repr 3 = "3" := by decide
  have r4 : Int.repr 4 = "4" := by decide
  have r5 : Int.repr 5 = "5" := by decide
  have r6 : Int.repr 6 = "6" := by decide
  have r7 : Int.repr 7 = "7" := by decide
  have r8 : Int.repr 8 = "8" := by decide
  have r9 : Int.repr 9 = "9" := by decide
  have r10 : Int.repr 10 = "10" := by decide
  have r11 : Int.repr 11 = "11" := by decide
  have r12 : Int.repr 12 = "12" := by decide
  have r13 : Int.repr 13 = "13" := by decide
  have r14 : Int.repr 14 = "14" := by decide
  have r15 : Int.repr 15 = "15" := by decide
  simp only [shares, List.mem_cons, List.not_mem_nil, or_false] at he
  rcases he with rfl | rfl | rfl | rfl | rfl | rfl | rfl | rfl | rfl | rfl | rfl | rfl | rfl
  all_goals
    simp only [shareOf, i1, i2, i3, npd]
    simp [reported, energyEntries, axisymEntries, hp, ht, hr, r1, r2, r3, r4, r5, r6, r7, r8, r9, r10, r11, r12, r13, r14, r15]

/-- **C41.** The fractions by degree: for degrees 1 to 15 the share of the degree in the poloidal and in the toroidal
energy. -/
theorem C41_shares_degree (z : Zdi) (l : ℤ) (h1 : 1 ≤ l) (h2 : l ≤ 15) :
    reported (energyEntries z ++ axisymEntries z) ("magnetogram.pol.energy.l" ++ toString l ++ ".fraction") =
      some (shareOf z ⟨"", fun l' _ => l' = l, [.alpha, .beta], [.alpha, .beta]⟩) ∧
    reported (energyEntries z ++ axisymEntries z) ("magnetogram.tor.energy.l" ++ toString l ++ ".fraction") =
      some (shareOf z ⟨"", fun l' _ => l' = l, [.gamma], [.gamma]⟩) := by
  obtain ⟨npd, i1, i2, i3, hp, ht⟩ := share_aux z
  have hr : pyRange 1 16 = [1, 2, 3, 4, 5, 6, 7, 8, 9, 10, 11, 12, 13, 14, 15] := by decide
  have r1 : Int.repr 1 = "1" := by decide
  have r2 : Int.repr 2 = "2" := by decide
  have r3 : Int.repr 3 = "3" := by decide
  have r4 : Int.repr 4 = "4" := by decide
  have r5 : Int.repr 5 = "5" := by decide
  have r6 : Int.repr 6 = "6" := by decide
  have r7 : Int.repr 7 = "7" := by decide
  have r8 : Int.repr 8 = "8" := by decide
  have r9 : Int.repr 9 = "9" := by decide
  have r10 : Int.repr 10 = "10" := by decide
  have r11 : Int.repr 11 = "11" := by decide
  have r12 : Int.repr 12 = "12" := by decide
  have r13 : Int.repr 13 = "13" := by decide
  have r14 : Int.repr 14 = "14" := by decide
  have r15 : Int.repr 15 = "15" := by decide
  simp only [shareOf, i1, i2, i3, npd]
  interval_cases l
  all_goals
    simp [reported, energyEntries, axisymEntries, hp, hr, r1, r2, r3, r4, r5, r6, r7, r8, r9, r10, r11, r12, r13, r14, r15]

/-! ## C42 -/

/-- **C42.** `energy` completes exactly when there is exactly one row for the axial dipole (1, 0); otherwise it
raises AssertionError, and then `dest` has received every entry but the last. -/
theorem C42_energy (z : Zdi) (dest : List (String × Option ℝ)) :
    ((z.filter fun r => decide (r.l = 1 ∧ r.m = 0)).length = 1 → ∃ last : Option ℝ,
      energy z dest = .ok (z.map (energyOf .alpha), z.map (energyOf .beta), z.map (energyOf .gamma))
        (dest ++ energyEntries z ++ axisymEntries z
          ++ [("magnetogram.total.energy.dipole.axisymmetric.fraction", last)])) ∧
    ((z.filter fun r => decide (r.l = 1 ∧ r.m = 0)).length ≠ 1 →
      energy z dest = .error .assertion (dest ++ energyEntries z ++ axisymEntries z)) := by
  have e : (z.filter fun r => decide (r.l = 1 ∧ r.m = 0)) = axialDipole z := by
    rw [axialDipole]; apply List.filter_congr; intro r _; simp
  have hclose : |totalEnergy z - (sumWhere (fun _ => true) (energyOf .alpha) z
      + sumWhere (fun _ => true) (energyOf .beta) z + sumWhere (fun _ => true) (energyOf .gamma) z)|
      ≤ 1e-8 + 1e-5 * |sumWhere (fun _ => true) (energyOf .alpha) z
      + sumWhere (fun _ => true) (energyOf .beta) z + sumWhere (fun _ => true) (energyOf .gamma) z| := by
    rw [sumWhere_all, sumWhere_all, sumWhere_all]
    rw [show totalEnergy z = (z.map (energyOf .alpha)).sum + (z.map (energyOf .beta)).sum
      + (z.map (energyOf .gamma)).sum from rfl, sub_self, abs_zero]
    positivity
  rw [e]
  constructor
  · intro h
    refine ⟨npDiv (((axialDipole z).map energyPol).headD 0)
      (sumWhere (fun r => decide (r.l = 1)) energyPol z), ?_⟩
    simp only [energy, writeEntries, pyAssert, if_pos hclose, List.length_map, if_pos h]
    rfl
  · intro h
    simp only [energy, writeEntries, pyAssert, if_pos hclose, List.length_map, if_neg h]
    rfl

/-- **C42.** The last entry is the share of the axial dipole in the poloidal energy of all dipoles. -/
theorem C42_last (z : Zdi) (out : List ℝ × List ℝ × List ℝ) (dest es : List (String × Option ℝ))
    (hok : energy z dest = .ok out es) : ∃ o, es.getLast? =
      some ("magnetogram.total.energy.dipole.axisymmetric.fraction", o) ∧
      (energyIn z (fun l _ => l = 1) [.alpha, .beta] = 0 → o = none) ∧
      (energyIn z (fun l _ => l = 1) [.alpha, .beta] ≠ 0 → o = some (energyIn z (fun l m => l = 1 && m = 0) [.alpha, .beta] /
        energyIn z (fun l _ => l = 1) [.alpha, .beta])) := by
  have e : (z.filter fun r => decide (r.l = 1 ∧ r.m = 0)) = axialDipole z := by
    rw [axialDipole]; apply List.filter_congr; intro r _; simp
  obtain ⟨-, -, i2, -, hp, ht⟩ := share_aux z
  by_cases h1 : (z.filter fun r => decide (r.l = 1 ∧ r.m = 0)).length = 1
  · have hclose : |totalEnergy z - (sumWhere (fun _ => true) (energyOf .alpha) z
        + sumWhere (fun _ => true) (energyOf .beta) z + sumWhere (fun _ => true) (energyOf .gamma) z)|
        ≤ 1e-8 + 1e-5 * |sumWhere (fun _ => true) (energyOf .alpha) z
        + sumWhere (fun _ => true) (energyOf .beta) z + sumWhere (fun _ => true) (energyOf .gamma) z| := by
      rw [hp, ht, sub_self, abs_zero]
      positivity
    rw [e] at h1
    simp only [energy, writeEntries, pyAssert, if_pos hclose, List.length_map, if_pos h1] at hok
    have hes : es = dest ++ energyEntries z ++ axisymEntries z
        ++ [("magnetogram.total.energy.dipole.axisymmetric.fraction",
          npDiv (((axialDipole z).map energyPol).headD 0)
            (sumWhere (fun r => decide (r.l = 1)) energyPol z))] := by
      injection hok with _ h'; exact h'.symm
    have hnum : ((axialDipole z).map energyPol).headD 0 =
        energyIn z (fun l m => l = 1 && m = 0) [.alpha, .beta] := by
      rw [i2, sumWhere]
      change _ = ((axialDipole z).map energyPol).sum
      obtain ⟨r, hr⟩ := List.length_eq_one_iff.1 h1
      rw [hr]; simp
    refine ⟨_, by rw [hes, List.getLast?_append]; rfl, ?_⟩
    rw [hnum, i2 (fun l _ => l = 1), npDiv]
    exact ⟨fun h => by rw [if_pos h], fun h => by rw [if_neg h]⟩
  · rw [(C42_energy z dest).2 h1] at hok
    cases hok

/-- **C42.** The last entry, when reported, is a fraction too. -/
theorem C42_dipole_fraction (z : Zdi) (h : ∀ r ∈ z, 0 ≤ r.l) (out : List ℝ × List ℝ × List ℝ)
    (dest es : List (String × Option ℝ)) (hok : energy z dest = .ok out es) (o : Option ℝ)
    (hl : es.getLast? = some ("magnetogram.total.energy.dipole.axisymmetric.fraction", o)) : IsFraction o := by
  have e : (z.filter fun r => decide (r.l = 1 ∧ r.m = 0)) = axialDipole z := by
    rw [axialDipole]; apply List.filter_congr; intro r _; simp
  by_cases h1 : (z.filter fun r => decide (r.l = 1 ∧ r.m = 0)).length = 1
  · have hclose : |totalEnergy z - (sumWhere (fun _ => true) (energyOf .alpha) z
        + sumWhere (fun _ => true) (energyOf .beta) z + sumWhere (fun _ => true) (energyOf .gamma) z)|
        ≤ 1e-8 + 1e-5 * |sumWhere (fun _ => true) (energyOf .alpha) z
        + sumWhere (fun _ => true) (energyOf .beta) z + sumWhere (fun _ => true) (energyOf .gamma) z| := by
      rw [sumWhere_all, sumWhere_all, sumWhere_all]
      rw [show totalEnergy z = (z.map (energyOf .alpha)).sum + (z.map (energyOf .beta)).sum
        + (z.map (energyOf .gamma)).sum from rfl, sub_self, abs_zero]
      positivity
    rw [e] at h1
    simp only [energy, writeEntries, pyAssert, if_pos hclose, List.length_map, if_pos h1] at hok
    have hes : es = dest ++ energyEntries z ++ axisymEntries z
        ++ [("magnetogram.total.energy.dipole.axisymmetric.fraction",
          npDiv (((axialDipole z).map energyPol).headD 0)
            (sumWhere (fun r => decide (r.l = 1)) energyPol z))] := by
      injection hok with _ h'; exact h'.symm
    rw [hes, List.getLast?_append] at hl
    simp only [List.getLast?_singleton, Option.some_or, Option.some.injEq, Prod.mk.injEq, true_and] at hl
    rw [← hl]
    obtain ⟨r, hr⟩ := List.length_eq_one_iff.1 h1
    have hrz : r ∈ z.filter (fun r => decide (r.l = 1)) ∧ r ∈ z := by
      have : r ∈ axialDipole z := by rw [hr]; simp
      rw [axialDipole] at this
      have := List.mem_filter.1 this
      simp only [Bool.and_eq_true, decide_eq_true_eq] at this
      exact ⟨List.mem_filter.2 ⟨this.1, by simp [this.2.1]⟩, this.1⟩
    have hpol : ∀ s ∈ z, 0 ≤ energyPol s := fun s hs =>
      add_nonneg (C41_nonneg _ s (h s hs)) (C41_nonneg _ s (h s hs))
    rw [hr]
    refine npDiv_fraction (hpol r hrz.2) ?_
    simp only [List.map_cons, List.headD_cons, sumWhere]
    apply List.single_le_sum
    · intro x hx
      obtain ⟨s, hs, rfl⟩ := List.mem_map.1 hx
      exact hpol s (List.mem_filter.1 hs).1
    · exact List.mem_map_of_mem hrz.1
  · rw [(C42_energy z dest).2 h1] at hok
    cases hok

/-- Non-vacuity of C42: a magnetogram with one, and one with no, axial dipole row. -/
example : (([⟨1, 0, 1, 0, 0⟩, ⟨2, 1, 1, 0, 0⟩] : Zdi).filter fun r => decide (r.l = 1 ∧ r.m = 0)).length = 1 := rfl
example (dest) : energy [⟨1, 1, 1, 0, 0⟩] dest
    = .error .assertion (dest ++ energyEntries [⟨1, 1, 1, 0, 0⟩] ++ axisymEntries [⟨1, 1, 1, 0, 0⟩]) :=
  (C42_energy _ dest).2 (by decide)

/-! ## C43 -/

private theorem foldl_assign_not_mem (es : List ((ℕ × ℕ) × ℝ)) (k : ℕ × ℕ) (v : ℝ) (h : k ∉ es.map Prod.fst) :
    es.foldl (fun v e => if e.1 = k then e.2 else v) v = v := by
  induction es generalizing v with
  | nil => rfl
  | cons e es ih =>
    simp only [List.map_cons, List.mem_cons, not_or] at h
    rw [List.foldl_cons, if_neg (Ne.symm h.1)]
    exact ih v h.2

private theorem assignAll_sum (es : List ((ℕ × ℕ) × ℝ)) (hn : (es.map Prod.fst).Nodup) (i j : ℕ) :
    assignAll es i j = (es.map fun e => if e.1 = (i, j) then e.2 else 0).sum := by
  rw [assignAll]
  induction es with
  | nil => rfl
  | cons e es ih =>
    rw [List.map_cons, List.nodup_cons] at hn
    rw [List.foldl_cons, List.map_cons, List.sum_cons]
    split_ifs with h
    · rw [foldl_assign_not_mem _ _ _ (h ▸ hn.1), ← ih hn.2, foldl_assign_not_mem _ _ _ (h ▸ hn.1), add_zero]
    · rw [ih hn.2, zero_add]

/-- The numpy index pair of a row. -/
private def idxOf (L : ℕ) (r : ZRow) : ℕ × ℕ :=
  (r.l.toNat, if 0 ≤ r.m then r.m.toNat else (r.m + (2 * L + 1)).toNat)

private theorem matrixIndices_ok (L : ℕ) (z : Zdi) (h : ∀ r ∈ z, |r.m| ≤ r.l ∧ r.l ≤ L) :
    matrixIndices L z = .ok (z.map (idxOf L)) := by
  rw [matrixIndices]
  apply mapM_pure_ok
  intro r hr
  obtain ⟨h1, h2⟩ := h r hr
  obtain ⟨h3, h4⟩ := abs_le.1 h1
  rw [npIndex_ok (by omega) (by omega)]
  by_cases hm : 0 ≤ r.m
  · rw [npIndex_ok hm (by omega)]
    simp [idxOf, hm, bind, Except.bind, pure, Except.pure]
  · rw [npIndex, if_neg (by omega), if_pos (by omega)]
    simp [idxOf, hm, bind, Except.bind, pure, Except.pure]

private theorem idxOf_iff (L : ℕ) (r : ZRow) (h : |r.m| ≤ r.l ∧ r.l ≤ L) (i j : ℕ) (hj : j ≤ 2 * L) :
    idxOf L r = (i, (j + (L + 1)) % (2 * L + 1)) ↔ (r.l = i ∧ r.m + L = j) := by
  obtain ⟨h3, h4⟩ := abs_le.1 h.1
  have h5 := h.2
  have hmod : (j + (L + 1)) % (2 * L + 1) = if L ≤ j then j - L else j + L + 1 := by
    split_ifs with hc
    · rw [show j + (L + 1) = (j - L) + (2 * L + 1) by omega, Nat.add_mod_right, Nat.mod_eq_of_lt (by omega)]
    · rw [Nat.mod_eq_of_lt (by omega)]; omega
  rw [hmod, idxOf, Prod.mk.injEq]
  split_ifs <;> omega

private theorem idxOf_inj (L : ℕ) {z : Zdi} (h : ∀ r ∈ z, |r.m| ≤ r.l ∧ r.l ≤ L)
    (hn : (z.map fun r => (r.l, r.m)).Nodup) : (z.map (idxOf L)).Nodup := by
  induction z with
  | nil => simp
  | cons r z ih =>
    rw [List.map_cons, List.nodup_cons] at hn ⊢
    refine ⟨?_, ih (fun s hs => h s (by simp [hs])) hn.2⟩
    intro hm
    obtain ⟨s, hs, e⟩ := List.mem_map.1 hm
    apply hn.1
    refine List.mem_map.2 ⟨s, hs, ?_⟩
    obtain ⟨a1, a2⟩ := h r (by simp)
    obtain ⟨b1, b2⟩ := h s (by simp [hs])
    obtain ⟨a3, a4⟩ := abs_le.1 a1
    obtain ⟨b3, b4⟩ := abs_le.1 b1
    simp only [idxOf, Prod.mk.injEq] at e ⊢
    split_ifs at e <;> omega

private theorem roll_assign (L : ℕ) (z : Zdi) (f : ZRow → ℝ) (h : ∀ r ∈ z, |r.m| ≤ r.l ∧ r.l ≤ L)
    (hn : (z.map fun r => (r.l, r.m)).Nodup) (i j : ℕ) (hj : j ≤ 2 * L) :
    rollCols L (assignAll ((z.map (idxOf L)).zip (z.map f))) i j
      = (z.map fun r => if r.l = (i : ℤ) ∧ r.m + L = (j : ℤ) then f r else 0).sum := by
  have hz : (z.map (idxOf L)).zip (z.map f) = z.map fun r => (idxOf L r, f r) := by
    clear h hn
    induction z with
    | nil => rfl
    | cons r z ih => simp only [List.map_cons, List.zip_cons_cons, ih]
  rw [rollCols, hz, assignAll_sum _ (by simpa [Function.comp_def] using idxOf_inj L h hn), List.map_map]
  congr 1
  apply List.map_congr_left
  intro r hr
  simp only [Function.comp]
  simp only [idxOf_iff L r (h r hr) i j hj]

/-- **C43.** Without coefficients there is no largest degree: `degree` and `energy_matrix` raise ValueError. -/
theorem C43_empty : Zdi.degree [] = .error .value ∧ energyMatrix [] = .error .value := ⟨rfl, rfl⟩

/-- **C43.** With only negative degrees there is no matrix either: ValueError. -/
theorem C43_negative (z : Zdi) (h : ∀ r ∈ z, r.l < 0) : energyMatrix z = .error .value := by
  by_cases hz : z = []
  · rw [hz]; rfl
  · obtain ⟨L, hL, hm, -⟩ := listMax_spec (xs := z.map ZRow.l) (by simpa using hz)
    obtain ⟨r, hr, rfl⟩ := List.mem_map.1 hm
    have hd : degree z = .ok r.l := by rw [degree, hL]
    rw [energyMatrix, hd]
    simp only [bind, Except.bind, if_pos (h r hr)]
    rfl

example : energyMatrix [⟨-1, 0, 1, 0, 0⟩] = .error .value := C43_negative _ (by simp)

/-- **C43.** For a non-empty magnetogram with `|m| ≤ l` and no repeated pair, `energy_matrix` completes with the
largest degree `L`; the energies of a row are at `[l, m + L]`, all other entries are zero, and the poloidal and
toroidal matrices together sum to the total energy. -/
theorem C43_matrix (z : Zdi) (hne : z ≠ []) (h : ∀ r ∈ z, |r.m| ≤ r.l)
    (hn : (z.map fun r => (r.l, r.m)).Nodup) :
    ∃ (L : ℕ) (er ep et : ℕ → ℕ → ℝ), energyMatrix z = .ok (L, er, ep, et) ∧
      (∃ r ∈ z, r.l = L) ∧ (∀ r ∈ z, r.l ≤ L) ∧
      (∀ r ∈ z, ∀ i j : ℕ, (i : ℤ) = r.l → (j : ℤ) = r.m + L →
        er i j = specEnergy .alpha r ∧ ep i j = specEnergy .alpha r + specEnergy .beta r ∧
        et i j = specEnergy .gamma r) ∧
      (∀ i j : ℕ, j ≤ 2 * L → (∀ r ∈ z, ¬ (r.l = i ∧ r.m + L = j)) → er i j = 0 ∧ ep i j = 0 ∧ et i j = 0) ∧
      (∑ i ∈ Finset.range (L + 1), ∑ j ∈ Finset.range (2 * L + 1), (ep i j + et i j)) = totalEnergy z := by
  obtain ⟨L, hL, hLm, hLu⟩ := listMax_spec (xs := z.map ZRow.l) (by simpa using hne)
  obtain ⟨r0, hr0, rfl⟩ := List.mem_map.1 hLm
  have hL0 : 0 ≤ r0.l := le_trans (abs_nonneg _) (h r0 hr0)
  obtain ⟨L, hLn⟩ := Int.eq_ofNat_of_zero_le hL0
  rw [hLn] at hL hLu
  have hb : ∀ r ∈ z, |r.m| ≤ r.l ∧ r.l ≤ L := fun r hr => ⟨h r hr, hLu _ (List.mem_map_of_mem hr)⟩
  let mat (f : ZRow → ℝ) := rollCols L (assignAll ((z.map (idxOf L)).zip (z.map f)))
  have hmat : ∀ f i j, j ≤ 2 * L → mat f i j = (z.map fun r => if r.l = (i : ℤ) ∧ r.m + L = (j : ℤ) then f r else 0).sum :=
    fun f i j hj => roll_assign L z f hb hn i j hj
  have hzero : ∀ f (i j : ℕ), j ≤ 2 * L → (∀ r ∈ z, ¬ (r.l = i ∧ r.m + L = j)) → mat f i j = 0 := by
    intro f i j hj hno
    rw [hmat f i j hj]
    apply List.sum_eq_zero
    intro x hx
    obtain ⟨r, hr, rfl⟩ := List.mem_map.1 hx
    rw [if_neg (hno r hr)]
  have hentry : ∀ f, ∀ r ∈ z, ∀ i j : ℕ, (i : ℤ) = r.l → (j : ℤ) = r.m + L → mat f i j = f r := by
    intro f r hr i j hi hj
    obtain ⟨h1, h2⟩ := hb r hr
    obtain ⟨h3, h4⟩ := abs_le.1 h1
    rw [hmat f i j (by omega)]
    clear hL hLu hLm hmat hzero mat
    have : ∀ s ∈ z, (s.l = i ∧ s.m + L = j) ↔ (s.l, s.m) = (r.l, r.m) := by
      intro s _; rw [Prod.mk.injEq]; omega
    clear hne h hb hr0
    induction z with
    | nil => simp at hr
    | cons s z ih =>
      rw [List.map_cons, List.nodup_cons] at hn
      rw [List.map_cons, List.sum_cons]
      have hrest : (∀ t ∈ z, (t.l, t.m) ≠ (r.l, r.m)) →
          (z.map fun r => if r.l = (i : ℤ) ∧ r.m + L = (j : ℤ) then f r else 0).sum = 0 := by
        intro hno
        apply List.sum_eq_zero
        intro x hx
        obtain ⟨t, ht, rfl⟩ := List.mem_map.1 hx
        rw [if_neg]
        rw [this t (by simp [ht])]
        exact hno t ht
      rcases List.mem_cons.1 hr with rfl | hr
      · rw [if_pos ((this r (by simp)).2 rfl), hrest, add_zero]
        intro t ht e
        exact hn.1 (List.mem_map.2 ⟨t, ht, e⟩)
      · rw [if_neg, ih hn.2 hr (fun t ht => this t (by simp [ht])), zero_add]
        rw [this s (by simp)]
        intro e
        exact hn.1 (List.mem_map.2 ⟨r, hr, e.symm⟩)
  refine ⟨L, mat (energyOf .alpha), mat energyPol, mat (energyOf .gamma), ?_, ⟨r0, hr0, hLn⟩,
    fun r hr => (hb r hr).2, ?_, ?_, ?_⟩
  · have hd : degree z = .ok (L : ℤ) := by rw [degree, hL]
    rw [energyMatrix, hd]
    simp only [bind, Except.bind, matrixIndices_ok L z hb]
    rw [if_neg (by omega)]
    simp [pure, Except.pure, mat]
  · intro r hr i j hi hj
    rw [← C41_value, ← C41_value, ← C41_value]
    exact ⟨hentry _ r hr i j hi hj, hentry _ r hr i j hi hj, hentry _ r hr i j hi hj⟩
  · intro i j hj hno
    exact ⟨hzero _ i j hj hno, hzero _ i j hj hno, hzero _ i j hj hno⟩
  · have hsum : ∀ f, (∑ i ∈ Finset.range (L + 1), ∑ j ∈ Finset.range (2 * L + 1), mat f i j) = (z.map f).sum := by
      intro f
      have : (∑ i ∈ Finset.range (L + 1), ∑ j ∈ Finset.range (2 * L + 1), mat f i j)
          = ∑ i ∈ Finset.range (L + 1), ∑ j ∈ Finset.range (2 * L + 1),
            (z.map fun r => if r.l = (i : ℤ) ∧ r.m + L = (j : ℤ) then f r else 0).sum := by
        refine Finset.sum_congr rfl fun i _ => Finset.sum_congr rfl fun j hj => ?_
        exact hmat f i j (by have := Finset.mem_range.1 hj; omega)
      rw [this]
      clear this hentry hzero hmat mat hL hLu hLm hn h hne hr0
      induction z with
      | nil => simp
      | cons r z ih =>
        simp only [List.map_cons, List.sum_cons, Finset.sum_add_distrib]
        rw [ih fun s hs => hb s (by simp [hs])]
        congr 1
        obtain ⟨h1, h2⟩ := hb r (by simp)
        obtain ⟨h3, h4⟩ := abs_le.1 h1
        rw [Finset.sum_eq_single r.l.toNat, Finset.sum_eq_single (r.m + L).toNat]
        · rw [if_pos]; omega
        · intro j _ hj; rw [if_neg]; omega
        · intro hj; exact absurd (Finset.mem_range.2 (by omega)) hj
        · intro i _ hi
          apply Finset.sum_eq_zero
          intro j _
          rw [if_neg]; omega
        · intro hi; exact absurd (Finset.mem_range.2 (by omega)) hi
    simp only [Finset.sum_add_distrib]
    rw [hsum, hsum, sum_pol]
    rfl

/-- The entries of all three matrices as sums over the rows (used for the row sums). -/
theorem energyMatrix_entries (z : Zdi) (hne : z ≠ []) (h : ∀ r ∈ z, |r.m| ≤ r.l)
    (hn : (z.map fun r => (r.l, r.m)).Nodup) :
    ∃ (L : ℕ) (mat : (ZRow → ℝ) → ℕ → ℕ → ℝ),
      energyMatrix z = .ok (L, mat (energyOf .alpha), mat energyPol, mat (energyOf .gamma)) ∧ (∃ r ∈ z, r.l = L) ∧
      (∀ r ∈ z, r.l ≤ L) ∧ ∀ f i j, j ≤ 2 * L →
        mat f i j = (z.map fun r => if r.l = (i : ℤ) ∧ r.m + L = (j : ℤ) then f r else 0).sum := by
  obtain ⟨L, hL, hLm, hLu⟩ := listMax_spec (xs := z.map ZRow.l) (by simpa using hne)
  obtain ⟨r0, hr0, rfl⟩ := List.mem_map.1 hLm
  have hL0 : 0 ≤ r0.l := le_trans (abs_nonneg _) (h r0 hr0)
  obtain ⟨L, hLn⟩ := Int.eq_ofNat_of_zero_le hL0
  rw [hLn] at hL hLu
  have hb : ∀ r ∈ z, |r.m| ≤ r.l ∧ r.l ≤ L := fun r hr => ⟨h r hr, hLu _ (List.mem_map_of_mem hr)⟩
  refine ⟨L, fun f => rollCols L (assignAll ((z.map (idxOf L)).zip (z.map f))), ?_, ⟨r0, hr0, hLn⟩, fun r hr => (hb r hr).2,
    fun f i j hj => roll_assign L z f hb hn i j hj⟩
  have hd : degree z = .ok (L : ℤ) := by rw [degree, hL]
  rw [energyMatrix, hd]
  simp only [bind, Except.bind, matrixIndices_ok L z hb]
  rw [if_neg (by omega)]
  simp [pure, Except.pure]

/-- Non-vacuity of C43: orders of both signs. -/
example : let z : Zdi := [⟨1, -1, 1, 0, 0⟩, ⟨1, 0, 0, 1, 0⟩, ⟨2, 2, 0, 0, Complex.I⟩]
    z ≠ [] ∧ (∀ r ∈ z, |r.m| ≤ r.l) ∧ (z.map fun r => (r.l, r.m)).Nodup := by
  simp

end Verif
