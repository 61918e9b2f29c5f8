import Verif.Lemmas.DiscRow
import Verif.Lemmas.LegendreRec
import Verif.Props.Parseval

/-!
# C92: the longitudinal field in terms of the coefficients
-/

namespace Verif
open Geometry Filter Topology

namespace Spec

/-- How much of a degree shows in the disc, `2 ∫ μ² P_l(μ) dμ` over the visible half. -/
noncomputable def discFactor (l : ℕ) : ℝ := 2 * ∫ μ in (0 : ℝ)..1, μ ^ 2 * legendreP l 0 μ

/-- What is seen of a row: `alpha - l beta / 2`, times the factor of the degree. -/
noncomputable def seen (r : ZRow) : ℂ := discFactor r.l.toNat * (r.a - r.l / 2 * r.b)

/-- The rows with what is seen as the radial coefficient. -/
noncomputable def seenRow (r : ZRow) : ZRow := ⟨r.l, r.m, seen r, 0, 0⟩

end Spec

open Spec

namespace Disc
open Zdi Rotation SphereLimit Legendre Analysis

/-- One row of the poloidal field towards the observer. -/
noncomputable def rowL (r : ZRow) (t x θ φ : ℝ) : ℝ :=
  (wa r * (thP r.l.toNat r.m.toNat θ : ℝ) * expi r.m φ).re * kr t θ (φ - x)
    + -(wu r * (thD r.l.toNat r.m.toNat θ : ℝ) * expi r.m φ).re * kp t θ (φ - x)
    + -(Complex.I * r.m * wu r * (qP r.l.toNat r.m.toNat θ : ℝ) * expi r.m φ).re * ka t (φ - x)

theorem cLP_nil (t x θ φ : ℝ) : cLP [] t x θ φ = 0 := by
  simp [cLP, cR, cPP, cAP, harm]

theorem cLP_cons (r : ZRow) (z : Zdi) (t x θ φ : ℝ) : cLP (r :: z) t x θ φ = rowL r t x θ φ + cLP z t x θ φ := by
  simp only [cLP, cR, cPP, cAP, harm, List.map_cons, List.sum_cons, Complex.add_re, rowL]
  ring

theorem rowL_cont (r : ZRow) (t x : ℝ) : Continuous fun p : ℝ × ℝ => rowL r t x p.1 p.2 := by
  have h := cLP_cont [r] t x
  simpa only [cLP_cons, cLP_nil, add_zero] using h

theorem factor_eq (l : ℕ) : 2 * Real.pi * ∫ θ in (0 : ℝ)..Real.pi, thP l 0 θ * max 0 (Real.cos θ) ^ 2 * Real.sin θ
    = Real.pi * discFactor l := by
  rw [moment_polar, discFactor]
  simp only [lp_eval]
  ring

theorem row_int {r : ZRow} (h : 0 ≤ r.m ∧ r.m ≤ r.l) {t : ℝ} (ht : 0 ≤ Real.sin t) (x : ℝ) :
    sphereInt (fun θ φ => rowL r t x θ φ * max 0 (kr t θ (φ - x)))
      = Real.pi * ((seen r * cLm r.l r.m) * (thP r.l.toNat r.m.toNat t : ℝ) * expi r.m x).re := by
  obtain ⟨l, m, a, b, g⟩ := r
  obtain ⟨m, rfl⟩ := Int.eq_ofNat_of_zero_le h.1
  obtain ⟨l, rfl⟩ := Int.eq_ofNat_of_zero_le (h.1.trans h.2)
  have hm : m ≤ l := by simpa using h.2
  have e := row_disc hm (wa ⟨l, m, a, b, g⟩) (wu ⟨l, m, a, b, g⟩) ht x
  rw [factor_eq] at e
  simp only [rowL, Int.toNat_natCast, Int.cast_natCast] at e ⊢
  have hl : (l : ℂ) + 1 ≠ 0 := by exact_mod_cast Nat.succ_ne_zero l
  have e2 : seen ⟨l, m, a, b, g⟩ * cLm l m * (thP l m t : ℝ) * expi m x = (discFactor l : ℝ)
      * ((wa ⟨l, m, a, b, g⟩ - l * (l + 1) / 2 * wu ⟨l, m, a, b, g⟩) * (thP l m t : ℝ) * expi m x) := by
    simp only [wa, wu, seen, Int.toNat_natCast, Int.cast_natCast]
    field_simp
  rw [e, e2, Complex.re_ofReal_mul]
  ring

theorem rows_int {z : Zdi} (h : ∀ r ∈ z, 0 ≤ r.m ∧ r.m ≤ r.l) {t : ℝ} (ht : 0 ≤ Real.sin t) (x : ℝ) :
    sphereInt (fun θ φ => cLP z t x θ φ * max 0 (kr t θ (φ - x)))
      = Real.pi * (harm (fun r => r.a * cLm r.l r.m) thP (z.map seenRow) t x).re := by
  have hk : Continuous fun p : ℝ × ℝ => max 0 (kr t p.1 (p.2 - x)) := continuous_const.max (kr_cont t x)
  induction z with
  | nil => simp [cLP_nil, sphereInt, harm]
  | cons r z ih =>
    have e := sphereInt_add (f := fun θ φ => rowL r t x θ φ * max 0 (kr t θ (φ - x)))
      (g := fun θ φ => cLP z t x θ φ * max 0 (kr t θ (φ - x))) ((rowL_cont r t x).mul hk) ((cLP_cont z t x).mul hk)
    rw [row_int (h r List.mem_cons_self) ht, ih fun r hr => h r (List.mem_cons_of_mem _ hr)] at e
    simp only [cLP_cons, add_mul]
    rw [e, ← mul_add, ← Complex.add_re]
    rfl

theorem sum_re_zero {ys : List ℂ} (h : ∀ y ∈ ys, y.re = 0) : ys.sum.re = 0 := by
  induction ys with
  | nil => simp
  | cons y ys ih =>
    rw [List.sum_cons, Complex.add_re, h y List.mem_cons_self, ih fun y hy => h y (List.mem_cons_of_mem _ hy), add_zero]

end Disc

open Disc

/-- **C92.** The mean over the visible disc of the component towards the observer is the radial field, below the observer, of a
magnetogram with the coefficients `seen`. -/
theorem C92_formula (z : Zdi) (hz : NonnegOrders z) (t x : ℝ) (h0 : 0 ≤ t) (h1 : t ≤ Real.pi) (L : ℝ → ℝ → ℝ)
    (hL : LineOfSight z t x L) : discMean t x L = Zdi.radial (z.map seenRow) t x := by
  have ht := Real.sin_nonneg_of_nonneg_of_le_pi h0 h1
  rw [discMean_congr fun θ φ hθ => sight_unique hL (cL_sight hz t x) hθ φ, discMean_eq,
    sphereInt_poloidal (fun r hr => (hz.2 r hr).1), rows_int hz.2 ht, Zdi.radial_eq (fun r hr => ?_) ht,
    mul_div_cancel_left₀ _ Real.pi_ne_zero]
  obtain ⟨r', hr', rfl⟩ := List.mem_map.1 hr
  exact hz.2 r' hr'

/-- **C92.** On finer and finer full-sphere grids the longitudinal field tends to that value. -/
theorem C92_limit (z : Zdi) (hz : NonnegOrders z) (N K : ℕ → ℕ) (hN : Tendsto N atTop atTop) (hK : Tendsto K atTop atTop)
    (hN2 : ∀ n, 2 ≤ N n) (hK2 : ∀ n, 2 ≤ K n) (g : ℕ → Geom) (hg : ∀ n, Geom.init (.int (N n)) (.int (K n)) = .ok (g n))
    (t : ℝ) (h0 : 0 ≤ t) (h1 : t ≤ Real.pi) (xs : List ℝ) (c : ℕ → List ℝ)
    (hc : ∀ n, longitudinalCurve (g n) z t (.floats xs) = .ok (c n)) (x : ℝ) (y : ℕ → ℝ) (hy : ∀ n, (x, y n) ∈ xs.zip (c n)) :
    Tendsto y atTop (𝓝 (Zdi.radial (z.map seenRow) t x)) := by
  rw [← C92_formula z hz t x h0 h1 _ (cL_sight hz t x)]
  exact C91_limit z hz N K hN hK hN2 hK2 g hg t xs c hc x y hy _ (cL_sight hz t x)

/-- **C92.** The factors of all degrees. -/
theorem C92_factors : discFactor 0 = 2 / 3 ∧ discFactor 1 = 1 / 2 ∧
    ∀ l : ℕ, discFactor (l + 2) = (2 - l) / (l + 5) * discFactor l := by
  refine ⟨?_, ?_, fun l => ?_⟩
  · have := Legendre.moment_zero
    simp only [Legendre.lp_eval] at this
    rw [discFactor, this]
    norm_num
  · have := Legendre.moment_one
    simp only [Legendre.lp_eval] at this
    rw [discFactor, this]
    norm_num
  · have := Legendre.moment_step l
    simp only [Legendre.lp_eval] at this
    have hl : (l : ℝ) + 5 ≠ 0 := by positivity
    rw [discFactor, discFactor]
    field_simp
    linear_combination this

/-- **C92.** The degrees which show: 0, 2 and the odd ones. -/
theorem C92_degrees (l : ℕ) : discFactor l ≠ 0 ↔ l = 0 ∨ l = 2 ∨ Odd l := by
  obtain ⟨f0, f1, fs⟩ := C92_factors
  have odd : ∀ k : ℕ, discFactor (2 * k + 1) ≠ 0 := by
    intro k
    induction k with
    | zero => rw [mul_zero, zero_add, f1]; norm_num
    | succ k ih =>
      rw [show 2 * (k + 1) + 1 = 2 * k + 1 + 2 by ring, fs]
      refine mul_ne_zero (div_ne_zero ?_ (by positivity)) ih
      rw [sub_ne_zero]
      intro h
      have : (2 : ℕ) = 2 * k + 1 := by exact_mod_cast h
      omega
  have even : ∀ k : ℕ, discFactor (2 * k + 4) = 0 := by
    intro k
    induction k with
    | zero => rw [mul_zero, zero_add, show (4 : ℕ) = 2 + 2 from rfl, fs]; norm_num
    | succ k ih => rw [show 2 * (k + 1) + 4 = 2 * k + 4 + 2 by ring, fs, ih, mul_zero]
  rcases Nat.even_or_odd' l with ⟨k, rfl | rfl⟩
  · rcases k with _ | _ | k
    · rw [mul_zero, f0]; norm_num
    · rw [show 2 * (0 + 1) = 0 + 2 from rfl, fs, f0]; norm_num
    · rw [show 2 * (k + 1 + 1) = 2 * k + 4 by ring, even]
      simp only [ne_eq, not_true_eq_false, false_iff, not_or]
      refine ⟨by omega, by omega, ?_⟩
      rw [Nat.not_odd_iff_even]
      exact ⟨k + 2, by ring⟩
  · exact ⟨fun _ => .inr (.inr ⟨k, rfl⟩), fun _ => odd k⟩

/-- **C92.** What is not seen makes no difference: magnetograms whose rows have the same degrees and orders, and the same
`alpha - l beta / 2` for the degrees which show, look the same from every direction. In particular the toroidal field and the even
degrees from 4 on never show. -/
theorem C92_blind (z z' : Zdi) (hz : NonnegOrders z) (hz' : NonnegOrders z')
    (h : List.Forall₂ (fun r r' : ZRow => r.l = r'.l ∧ r.m = r'.m ∧
      ((r.l = 0 ∨ r.l = 2 ∨ Odd r.l) → r.a - r.l / 2 * r.b = r'.a - r'.l / 2 * r'.b)) z z')
    (t x : ℝ) (h0 : 0 ≤ t) (h1 : t ≤ Real.pi) (L L' : ℝ → ℝ → ℝ) (hL : LineOfSight z t x L) (hL' : LineOfSight z' t x L') :
    discMean t x L = discMean t x L' := by
  rw [C92_formula z hz t x h0 h1 L hL, C92_formula z' hz' t x h0 h1 L' hL']
  have hl : ∀ r ∈ z, 0 ≤ r.l := fun r hr => (hz.2 r hr).1.trans (hz.2 r hr).2
  have : z.map seenRow = z'.map seenRow := by
    clear hz hz' hL hL'
    induction h with
    | nil => rfl
    | @cons r r' z z' hr _ ih =>
      have e : seenRow r = seenRow r' := by
        obtain ⟨e1, e2, e3⟩ := hr
        rw [seenRow, seenRow, seen, seen, ← e1, ← e2]
        congr 1
        by_cases hd : discFactor r.l.toNat = 0
        · rw [hd]; simp
        · have hr0 := hl r List.mem_cons_self
          have := (C92_degrees r.l.toNat).1 hd
          rw [e3 ?_, ← e1]
          rcases this with k | k | k
          · exact .inl (by omega)
          · exact .inr (.inl (by omega))
          · refine .inr (.inr ?_)
            rw [← Int.toNat_of_nonneg hr0]
            exact_mod_cast k
      rw [List.map_cons, List.map_cons, e, ih fun r hr => hl r (List.mem_cons_of_mem _ hr)]
  rw [this]

/-- **C92.** The square of the longitudinal field integrated over the directions of all observers, for rows without repeated
pairs. -/
theorem C92_power (z : Zdi) (hz : NonnegOrders z) (hn : (z.map fun r => (r.l, r.m)).Nodup) (L : ℝ → ℝ → ℝ → ℝ → ℝ)
    (hL : ∀ t x, LineOfSight z t x (L t x)) :
    ∫ t in (0 : ℝ)..Real.pi, (∫ x in (0 : ℝ)..2 * Real.pi, discMean t x (L t x) ^ 2) * Real.sin t
      = (z.map fun r => if r.m = 0 then (seen r).re ^ 2 else ‖seen r‖ ^ 2 / 2).sum := by
  have h := C64_radial (z.map seenRow) (fun r hr => by
    obtain ⟨r', hr', rfl⟩ := List.mem_map.1 hr
    exact hz.2 r' hr') (by rw [List.map_map]; exact hn)
  rw [List.map_map] at h
  have e : ∀ r ∈ z, (Zdi.energyOf .alpha ∘ seenRow) r = if r.m = 0 then (seen r).re ^ 2 else ‖seen r‖ ^ 2 / 2 := by
    intro r _
    rw [Function.comp, C41_value, Complex.sq_norm, Complex.normSq_apply]
    simp [specEnergy, seenRow, Zdi.Comp.of, sq]
  rw [← List.map_congr_left e, ← h]
  refine intervalIntegral.integral_congr fun t ht => ?_
  rw [Set.uIcc_of_le Real.pi_pos.le] at ht
  simp only [C92_formula z hz t _ ht.1 ht.2 _ (hL t _)]

/-- **C92.** A magnetogram shows no longitudinal field from any direction exactly if nothing of any row is seen. -/
theorem C92_silent (z : Zdi) (hz : NonnegOrders z) (hn : (z.map fun r => (r.l, r.m)).Nodup) (L : ℝ → ℝ → ℝ → ℝ → ℝ)
    (hL : ∀ t x, LineOfSight z t x (L t x)) :
    (∀ t x, 0 ≤ t → t ≤ Real.pi → discMean t x (L t x) = 0) ↔
      ∀ r ∈ z, if r.m = 0 then (seen r).re = 0 else seen r = 0 := by
  constructor
  · intro h r hr
    have p := C92_power z hz hn L hL
    have hz0 : ∫ t in (0 : ℝ)..Real.pi, (∫ x in (0 : ℝ)..2 * Real.pi, discMean t x (L t x) ^ 2) * Real.sin t = 0 := by
      refine (intervalIntegral.integral_congr (g := fun _ => (0 : ℝ)) fun t ht => ?_).trans intervalIntegral.integral_zero
      rw [Set.uIcc_of_le Real.pi_pos.le] at ht
      simp [fun x => h t x ht.1 ht.2]
    rw [hz0] at p
    have hpos : ∀ y ∈ z.map fun r => if r.m = 0 then (seen r).re ^ 2 else ‖seen r‖ ^ 2 / 2, 0 ≤ y := by
      intro y hy
      obtain ⟨r, _, rfl⟩ := List.mem_map.1 hy
      split_ifs <;> positivity
    have := le_antisymm ((List.single_le_sum hpos _ (List.mem_map_of_mem hr)).trans_eq p.symm) (hpos _ (List.mem_map_of_mem hr))
    split_ifs at this ⊢ with hm
    · exact pow_eq_zero_iff two_ne_zero |>.1 this
    · have : ‖seen r‖ ^ 2 = 0 := by linarith
      exact norm_eq_zero.1 (pow_eq_zero_iff two_ne_zero |>.1 this)
  · intro h t x h0 h1
    rw [C92_formula z hz t x h0 h1 _ (hL t x), Zdi.radial_eq (fun r hr => by
      obtain ⟨r', hr', rfl⟩ := List.mem_map.1 hr
      exact hz.2 r' hr') (Real.sin_nonneg_of_nonneg_of_le_pi h0 h1), Zdi.harm]
    refine sum_re_zero fun y hy => ?_
    obtain ⟨r', hr', rfl⟩ := List.mem_map.1 hy
    obtain ⟨r, hr, rfl⟩ := List.mem_map.1 hr'
    have := h r hr
    simp only [seenRow]
    split_ifs at this with hm
    · rw [hm, Zdi.expi, Int.cast_zero, mul_zero, zero_mul, Complex.exp_zero, mul_one, Complex.re_mul_ofReal,
        Complex.re_mul_ofReal, this, zero_mul, zero_mul]
    · rw [this, zero_mul, zero_mul, zero_mul, Complex.zero_re]

/-- A case meeting the hypotheses of all of these: a dipole with tangential and toroidal field and a tilted octupole. -/
example : ∃ z : Zdi, NonnegOrders z ∧ (z.map fun r => (r.l, r.m)).Nodup ∧ (∀ t x, LineOfSight z t x (cL z t x)) ∧
    (z.map seenRow).map (fun r => r.a) = [1 / 2 * (2 - 1 / 2 * 3), 1 / 12 * (Complex.I - 3 / 2)] := by
  have hz : NonnegOrders [⟨1, 0, 2, 3, 5⟩, ⟨3, 1, Complex.I, 1, 0⟩] := by simp [NonnegOrders]
  refine ⟨_, hz, by simp, cL_sight hz, ?_⟩
  obtain ⟨_, f1, fs⟩ := C92_factors
  have f3 : discFactor 3 = 1 / 12 := by rw [show (3 : ℕ) = 1 + 2 from rfl, fs, f1]; norm_num
  simp [seenRow, seen, f1, f3]

end Verif
