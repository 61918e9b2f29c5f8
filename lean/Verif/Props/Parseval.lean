import Verif.Lemmas.Parseval
import Verif.Props.Energy

/-!
# Property C64: the energy is the integral of the squared field over the unit sphere
-/

namespace Verif
open Spec Zdi Legendre Parseval intervalIntegral

private theorem harm_Hs (w : ZRow → ℂ) (p : ℕ → ℕ → ℝ → ℝ) (z : Zdi) (h : ∀ r ∈ z, 0 ≤ r.m) (θ φ : ℝ) :
    (harm w p z θ φ).re = Hs (fun i : Fin z.length => z[i.val].m.toNat)
      (fun i => w z[i.val] * p z[i.val].l.toNat z[i.val].m.toNat θ) φ := by
  rw [harm, Hs, ← Fin.sum_univ_fun_getElem]
  congr 1
  refine Finset.sum_congr rfl fun i _ => ?_
  rw [Int.toNat_of_nonneg (h _ (List.getElem_mem _))]

theorem cLm_sq {l m : ℤ} (h0 : 0 ≤ m) (h1 : m ≤ l) :
    cLm l m ^ 2 * N l.toNat m.toNat = 1 / (2 * Real.pi) := by
  obtain ⟨m, rfl⟩ := Int.eq_ofNat_of_zero_le h0
  obtain ⟨l, rfl⟩ := Int.eq_ofNat_of_zero_le (le_trans h0 h1)
  have hml : m ≤ l := by omega
  have e1 : ((l : ℤ) - m).toNat = l - m := by omega
  have e2 : ((l : ℤ) + m).toNat = l + m := by omega
  have f1 : ((l - m).factorial : ℝ) ≠ 0 := by positivity
  have f2 : ((l + m).factorial : ℝ) ≠ 0 := by positivity
  have f3 : (2 * (l : ℝ) + 1) ≠ 0 := by positivity
  rw [cLm, Real.sq_sqrt, N, spFactorial, spFactorial, if_neg (by omega), if_neg (by omega), e1, e2]
  · simp only [Int.toNat_natCast]
    push_cast
    field_simp
    ring
  · rw [spFactorial, spFactorial, if_neg (by omega), if_neg (by omega)]
    push_cast
    positivity

private theorem A_self (m : ℤ) (x : ℂ) :
    A m x x = 2 * Real.pi * (if m = 0 then x.re ^ 2 else (x.re ^ 2 + x.im ^ 2) / 2) := by
  simp only [A, Complex.mul_re, Complex.conj_re, Complex.conj_im]
  split_ifs <;> ring

private theorem sum_fin (z : Zdi) (f : ZRow → ℝ) : ∑ i : Fin z.length, f z[i.val] = (z.map f).sum :=
  Fin.sum_univ_fun_getElem z f

private theorem inj_of_nodup {z : Zdi} (h : ∀ r ∈ z, 0 ≤ r.m ∧ r.m ≤ r.l)
    (hn : (z.map fun r => (r.l, r.m)).Nodup) (i j : Fin z.length)
    (e1 : z[i.val].m.toNat = z[j.val].m.toNat) (e2 : z[i.val].l.toNat = z[j.val].l.toNat) : i = j := by
  have h1 := h _ (List.getElem_mem i.isLt)
  have h2 := h _ (List.getElem_mem j.isLt)
  have e : (z.map fun r => (r.l, r.m))[i.val]'(by simp) = (z.map fun r => (r.l, r.m))[j.val]'(by simp) := by
    simp only [List.getElem_map, Prod.mk.injEq]
    omega
  exact Fin.ext ((hn.getElem_inj_iff).1 e)

private theorem radial_energy {r : ZRow} (h : 0 ≤ r.m ∧ r.m ≤ r.l) :
    A ((r.m.toNat : ℕ) : ℤ) (r.a * cLm r.l r.m) (r.a * cLm r.l r.m) * N r.l.toNat r.m.toNat
      = energyOf .alpha r := by
  rw [Int.toNat_of_nonneg h.1, A_real, A_self, C41_value, specEnergy]
  have := cLm_sq h.1 h.2
  have hp : (2 * Real.pi) ≠ 0 := by positivity
  simp only [if_true, mul_one, Comp.of]
  calc _ = 2 * Real.pi * (cLm r.l r.m ^ 2 * N r.l.toNat r.m.toNat)
      * (if r.m = 0 then r.a.re ^ 2 else (r.a.re ^ 2 + r.a.im ^ 2) / 2) := by ring
    _ = _ := by rw [this]; field_simp

private theorem tangential_energy {r : ZRow} (h : 0 ≤ r.m ∧ r.m ≤ r.l) (k : Comp) (hk : k ≠ .alpha) :
    A ((r.m.toNat : ℕ) : ℤ) (k.of r * cLm r.l r.m / (r.l + 1)) (k.of r * cLm r.l r.m / (r.l + 1))
      * ((r.l.toNat : ℝ) * (r.l.toNat + 1) * N r.l.toNat r.m.toNat) = energyOf k r := by
  have hl : ((r.l.toNat : ℕ) : ℝ) = (r.l : ℝ) := by
    exact_mod_cast Int.toNat_of_nonneg (le_trans h.1 h.2)
  have hl0 : (0 : ℝ) ≤ r.l := by exact_mod_cast le_trans h.1 h.2
  have e : k.of r * cLm r.l r.m / ((r.l : ℂ) + 1) = k.of r * ((cLm r.l r.m / (r.l + 1) : ℝ) : ℂ) := by
    push_cast; ring
  rw [Int.toNat_of_nonneg h.1, e, A_real, A_self, C41_value, specEnergy, if_neg hk, hl]
  have := cLm_sq h.1 h.2
  have hp : (2 * Real.pi) ≠ 0 := by positivity
  have hl1 : (r.l : ℝ) + 1 ≠ 0 := by positivity
  calc _ = 2 * Real.pi * (cLm r.l r.m ^ 2 * N r.l.toNat r.m.toNat)
      * (if r.m = 0 then (k.of r).re ^ 2 else ((k.of r).re ^ 2 + (k.of r).im ^ 2) / 2)
        * ((r.l : ℝ) * (r.l + 1) / (r.l + 1) ^ 2) := by field_simp
    _ = _ := by rw [this]; field_simp

/-- **C64.** For non-negative orders without repeated pairs, the integral of the squared radial field over the
unit sphere is the sum of the radial energies. -/
theorem C64_radial (z : Zdi) (h : ∀ r ∈ z, 0 ≤ r.m ∧ r.m ≤ r.l) (hn : (z.map fun r => (r.l, r.m)).Nodup) :
    ∫ θ in (0 : ℝ)..Real.pi, (∫ φ in (0 : ℝ)..2 * Real.pi, radial z θ φ ^ 2) * Real.sin θ
      = (z.map (energyOf .alpha)).sum := by
  have e := radial_int (fun i : Fin z.length => z[i.val].m.toNat) (fun i => z[i.val].l.toNat)
    (inj_of_nodup h hn) (fun i => by have := h _ (List.getElem_mem i.isLt); omega)
    (fun i => z[i.val].a * cLm z[i.val].l z[i.val].m)
  have e2 : (∑ i : Fin z.length, A ((z[i.val].m.toNat : ℕ) : ℤ) (z[i.val].a * cLm z[i.val].l z[i.val].m)
      (z[i.val].a * cLm z[i.val].l z[i.val].m) * N z[i.val].l.toNat z[i.val].m.toNat)
      = (z.map (energyOf .alpha)).sum := by
    rw [← sum_fin]
    exact Finset.sum_congr rfl fun i _ => radial_energy (h _ (List.getElem_mem i.isLt))
  rw [← e2, ← e]
  refine integral_congr_Ioo_of_le Real.pi_pos.le fun θ hθ => ?_
  have hs := Real.sin_pos_of_pos_of_lt_pi hθ.1 hθ.2
  congr 2
  ext φ
  rw [radial_eq h hs.le, harm_Hs _ _ _ (fun r hr => (h r hr).1), pow_two]

private theorem tangential_integral (z : Zdi) (h : NonnegOrders z) (hn : (z.map fun r => (r.l, r.m)).Nodup)
    (T : ℝ → ℝ) (hT : ∀ θ, OffAxis θ → T θ = (∫ φ in (0 : ℝ)..2 * Real.pi,
      (((polar z θ φ).toOption.getD 0) ^ 2 + ((azimuthal z θ φ).toOption.getD 0) ^ 2)) * Real.sin θ) :
    IntervalIntegrable T MeasureTheory.volume 0 Real.pi ∧
    ∫ θ in (0 : ℝ)..Real.pi, T θ = (z.map (energyOf .beta)).sum + (z.map (energyOf .gamma)).sum := by
  set m := fun i : Fin z.length => z[i.val].m.toNat with hm
  set l := fun i : Fin z.length => z[i.val].l.toNat with hl
  set u := fun i : Fin z.length => z[i.val].b * cLm z[i.val].l z[i.val].m / (z[i.val].l + 1) with hu
  set v := fun i : Fin z.length => z[i.val].g * cLm z[i.val].l z[i.val].m / (z[i.val].l + 1) with hv
  have e := tangential_int m l (inj_of_nodup h.2 hn)
    (fun i => by have := h.2 _ (List.getElem_mem i.isLt); simp only [hm, hl]; omega) u v
  have hsum : (∑ i, (A (m i) (u i) (u i) + A (m i) (v i) (v i)) * (l i * (l i + 1) * N (l i) (m i)))
      = (z.map (energyOf .beta)).sum + (z.map (energyOf .gamma)).sum := by
    rw [← sum_fin, ← sum_fin, ← Finset.sum_add_distrib]
    refine Finset.sum_congr rfl fun i _ => ?_
    rw [add_mul]
    have h' := h.2 _ (List.getElem_mem i.isLt)
    exact congrArg₂ (· + ·) (tangential_energy h' .beta (by simp)) (tangential_energy h' .gamma (by simp))
  have hEq : Set.EqOn T (fun θ =>
      (∑ i, ∑ j, if m i = m j then A (m i) (u i) (u j) * F2 (m i) (l i) (l j) θ else 0)
      + (∑ i, ∑ j, if m i = m j then A (m i) (v i) (v j) * F2 (m i) (l i) (l j) θ else 0)
      + ∑ i, ∑ j, if m i = m j then
          (-(2 * Real.pi * (u i * (starRingEnd ℂ) (v j)).im)) * F3 (m i) (l i) (l j) θ else 0)
      (Set.Ioo 0 Real.pi) := by
    intro θ hθ
    have hs := Real.sin_pos_of_pos_of_lt_pi hθ.1 hθ.2
    rw [hT θ hθ]
    dsimp only
    rw [← tangential_phi m l u v hs]
    congr 2
    ext φ
    have h0 : ∀ r ∈ z, 0 ≤ r.m := fun r hr => (h.2 r hr).1
    have hcast : ∀ i : Fin z.length, ((m i : ℕ) : ℤ) = z[i.val].m := fun i =>
      Int.toNat_of_nonneg (h0 _ (List.getElem_mem i.isLt))
    rw [polar, polarPoloidal_eq h hs, azimuthal, azimuthalToroidal_eq h hs, polarToroidal_eq h.2 hs.le,
      azimuthalPoloidal_eq h.2 hs.le]
    simp only [bind, Except.bind, pure, Except.pure, Except.toOption, Option.getD_some]
    rw [harm_Hs _ _ _ h0, harm_Hs _ _ _ h0, harm_Hs _ _ _ h0, harm_Hs _ _ _ h0]
    simp only [hcast, hu, hv]
    rfl
  constructor
  · refine IntervalIntegrable.congr_uIoo (f := _) ?_ (Set.uIoo_of_le Real.pi_pos.le ▸ hEq.symm)
    apply Continuous.intervalIntegrable
    exact ((theta_cont m l (fun i j => A (m i) (u i) (u j)) F2 F2_cont).add
      (theta_cont m l (fun i j => A (m i) (v i) (v j)) F2 F2_cont)).add
      (theta_cont m l (fun i j => -(2 * Real.pi * (u i * (starRingEnd ℂ) (v j)).im)) F3 F3_cont)
  · rw [integral_congr_Ioo_of_le Real.pi_pos.le hEq, e, hsum]

private theorem harm_cont (w : ZRow → ℂ) (p : ℕ → ℕ → ℝ → ℝ) (z : Zdi) (h : ∀ r ∈ z, 0 ≤ r.m) (θ : ℝ) :
    Continuous fun φ => (harm w p z θ φ).re := by
  simp only [harm_Hs w p z h θ]
  fun_prop

private theorem radial_integrable (z : Zdi) (h : ∀ r ∈ z, 0 ≤ r.m ∧ r.m ≤ r.l) :
    IntervalIntegrable (fun θ => (∫ φ in (0 : ℝ)..2 * Real.pi, radial z θ φ ^ 2) * Real.sin θ)
      MeasureTheory.volume 0 Real.pi := by
  set m := fun i : Fin z.length => z[i.val].m.toNat with hm
  set l := fun i : Fin z.length => z[i.val].l.toNat with hl
  set a := fun i : Fin z.length => z[i.val].a * cLm z[i.val].l z[i.val].m with ha
  have hc : Continuous fun θ => (∑ i, ∑ j, if m i = m j then A (m i) (a i) (a j) * F1 (m i) (l i) (l j) θ else 0) :=
    theta_cont m l (fun i j => A (m i) (a i) (a j)) F1 F1_cont
  refine IntervalIntegrable.congr_uIoo (hc.intervalIntegrable _ _) ?_
  rw [Set.uIoo_of_le Real.pi_pos.le]
  intro θ hθ
  have hs := Real.sin_pos_of_pos_of_lt_pi hθ.1 hθ.2
  dsimp only
  have e : ∀ φ, radial z θ φ ^ 2 = Hs m (fun i => a i * thP (l i) (m i) θ) φ
      * Hs m (fun i => a i * thP (l i) (m i) θ) φ := by
    intro φ
    rw [radial_eq h hs.le, harm_Hs _ _ _ (fun r hr => (h r hr).1), pow_two]
  simp only [e]
  rw [phi_sum, Finset.sum_mul]
  refine Finset.sum_congr rfl fun i _ => ?_
  rw [Finset.sum_mul]
  refine Finset.sum_congr rfl fun j _ => ?_
  split_ifs with hij
  · rw [A_real (m i) (a i) (a j), F1, ← hij]; ring
  · ring

/-- **C64.** For non-negative orders without repeated pairs, the integral of the squared field strength over the
unit sphere is the total energy. `S` is any function with the values `get_field_strength` returns away from the
two poles. -/
theorem C64_total (z : Zdi) (h : NonnegOrders z) (hn : (z.map fun r => (r.l, r.m)).Nodup) (S : ℝ → ℝ → ℝ)
    (hS : ∀ θ φ, OffAxis θ → strength z θ φ = .ok (S θ φ)) :
    ∫ θ in (0 : ℝ)..Real.pi, (∫ φ in (0 : ℝ)..2 * Real.pi, S θ φ ^ 2) * Real.sin θ = totalEnergy z := by
  have h0 : ∀ r ∈ z, 0 ≤ r.m := fun r hr => (h.2 r hr).1
  obtain ⟨hTi, hT⟩ := tangential_integral z h hn _ (fun θ _ => rfl)
  have hR := C64_radial z h.2 hn
  have hRi := radial_integrable z h.2
  rw [totalEnergy, add_assoc, ← hR, ← hT, ← integral_add hRi hTi]
  refine integral_congr_Ioo_of_le Real.pi_pos.le fun θ hθ => ?_
  have hs := Real.sin_pos_of_pos_of_lt_pi hθ.1 hθ.2
  rw [← add_mul, ← integral_add]
  · congr 2
    ext φ
    have hst := hS θ φ hθ
    rw [strength, polar, polarPoloidal_eq h hs, azimuthal, azimuthalToroidal_eq h hs] at hst
    simp only [bind, Except.bind, pure, Except.pure, Except.ok.injEq] at hst
    rw [← hst, Real.sq_sqrt (by positivity), polar, polarPoloidal_eq h hs, azimuthal, azimuthalToroidal_eq h hs]
    simp only [bind, Except.bind, pure, Except.pure, Except.toOption, Option.getD_some]
    ring
  · apply Continuous.intervalIntegrable
    simp only [radial_eq h.2 hs.le]
    exact (harm_cont _ _ z h0 θ).pow 2
  · apply Continuous.intervalIntegrable
    have e1 := fun φ => polarPoloidal_eq h hs φ
    have e2 := fun φ => azimuthalToroidal_eq h hs φ
    have e3 := fun φ => polarToroidal_eq h.2 hs.le φ
    have e4 := fun φ => azimuthalPoloidal_eq h.2 hs.le φ
    simp only [polar, azimuthal, e1, e2, e3, e4, bind, Except.bind, pure, Except.pure, Except.toOption,
      Option.getD_some]
    have c1 := fun w p => harm_cont w p z h0 θ
    exact ((((c1 _ _).neg.add ((c1 _ _).div_const _)).pow 2).add
      ((((c1 _ _).div_const _).neg.add (c1 _ _).neg).pow 2))

/-- Non-vacuity of C64: such an `S` exists for every magnetogram with non-negative orders, and a magnetogram with
two rows. -/
theorem C64_strength_defined (z : Zdi) (h : NonnegOrders z) :
    ∃ S : ℝ → ℝ → ℝ, ∀ θ φ, OffAxis θ → strength z θ φ = .ok (S θ φ) := by
  refine ⟨fun θ φ => (strength z θ φ).toOption.getD 0, fun θ φ hθ => ?_⟩
  have hs := Real.sin_pos_of_pos_of_lt_pi hθ.1 hθ.2
  have e : ∃ x, strength z θ φ = .ok x := by
    rw [strength, polar, polarPoloidal_eq h hs, azimuthal, azimuthalToroidal_eq h hs]
    exact ⟨_, rfl⟩
  obtain ⟨x, hx⟩ := e
  simp only [hx]; rfl

example : let z : Zdi := [⟨1, 0, 1, 0, 2⟩, ⟨2, 1, Complex.I, 3, 0⟩]
    NonnegOrders z ∧ (z.map fun r => (r.l, r.m)).Nodup := by
  simp [NonnegOrders]

/-- **C64.** The hypothesis on the signs of the orders is needed: the rows (1, -1) and (1, 1) can cancel, and then
the energy is positive although the radial field vanishes everywhere. -/
theorem C64_negative_orders_fail : ∃ z : Zdi, (∀ r ∈ z, |r.m| ≤ r.l) ∧ (z.map fun r => (r.l, r.m)).Nodup ∧
    (∀ θ φ, radial z θ φ = 0) ∧ 0 < (z.map (energyOf .alpha)).sum := by
  refine ⟨[⟨1, 1, 1, 0, 0⟩, ⟨1, -1, 1, 0, 0⟩], by simp, by simp, ?_, ?_⟩
  · intro θ φ
    have hP : lpmv (-1) 1 (Real.cos θ) = -(1 / 2) * lpmv 1 1 (Real.cos θ) := by
      simp [lpmv, legendrePZ, Nat.factorial]
      ring
    have hc : cLm 1 (-1) = 2 * cLm 1 1 := by
      have e : (2 * (1 : ℤ) + 1) / (4 * Real.pi) * spFactorial (1 - -1) / spFactorial (1 + -1)
          = 2 ^ 2 * ((2 * (1 : ℤ) + 1) / (4 * Real.pi) * spFactorial (1 - 1) / spFactorial (1 + 1)) := by
        simp [spFactorial, Nat.factorial]
        ring
      rw [cLm, cLm, e, Real.sqrt_mul (by norm_num), Real.sqrt_sq (by norm_num)]
    have hx : expi (-1) φ = (starRingEnd ℂ) (expi 1 φ) := by rw [conj_expi]
    simp only [radial, radialToroidal, radialPoloidal, List.map_cons, List.map_nil, List.sum_cons, List.sum_nil]
    rw [hP, hc, hx]
    generalize expi 1 φ = E
    simp
    ring
  · simp [C41_value, specEnergy, Comp.of]

end Verif
