import Verif.Props.AnalysisLimit

/-!
# C68: an image of a coefficient set gives the set back in the limit of fine grids
-/

namespace Verif
open Spec Geometry Image Coefs Legendre Zdi Parseval Riemann Filter Topology intervalIntegral

namespace Spec

/-- `scipy.special.sph_harm(m, l, azimuth, polar)` by its documentation. -/
noncomputable def scipyY : SphHarm := fun m l azimuth polar => sphY l m polar azimuth

end Spec

namespace ImageLimit

/-- The sign of the harmonics of negative order. -/
noncomputable def sgn (m : ℤ) : ℝ := if m < 0 then (-1) ^ m.natAbs else 1

theorem sgn_sq (m : ℤ) : sgn m * sgn m = 1 := by
  rw [sgn]; split_ifs
  · rw [← mul_pow]; simp
  · simp

theorem sphY_thP {l m : ℤ} (h : |m| ≤ l) {θ : ℝ} (hs : 0 ≤ Real.sin θ) (φ : ℝ) :
    sphY l m θ φ = ((sgn m * cLm l |m| * thP l.toNat m.natAbs θ : ℝ) : ℂ) * expi m φ := by
  have pos : ∀ n : ℤ, 0 ≤ n → n ≤ l → sphY l n θ φ = ((cLm l n * thP l.toNat n.natAbs θ : ℝ) : ℂ) * expi n φ := by
    intro n h0 h1
    rw [sphY_eq (by rw [abs_of_nonneg h0]; exact h1), lpmv_nonneg h0 h1, legendreP_cos _ _ hs,
      show n.natAbs = n.toNat by omega]
    push_cast; ring
  by_cases hm : m < 0
  · have e := sphY_neg (l := l) (m := -m) (by omega) (by have := abs_le.1 h; omega) θ φ
    rw [neg_neg, pos (-m) (by omega) (by have := abs_le.1 h; omega)] at e
    rw [e, sgn, if_pos hm, abs_of_neg hm, map_mul, Complex.conj_ofReal, conj_expi, neg_neg, Int.natAbs_neg,
      show ((-1 : ℂ)) ^ (-m) = (-1) ^ m.natAbs by rw [← zpow_natCast]; congr 1; omega]
    push_cast; ring
  · rw [pos m (by omega) (by rw [abs_of_nonneg (by omega)] at h; exact h), sgn, if_neg hm, abs_of_nonneg (by omega), one_mul]

theorem midOf_lin (b : ℝ) (n i : ℕ) (hi : i < n) : midOf (lin b (n + 1)) i = node b n i := by
  have := Analysis.lin_mid b n i hi
  rwa [mid] at this

theorem gapOf_lin (b : ℝ) (n i : ℕ) (hi : i < n) : gapOf (lin b (n + 1)) i = b / n := by
  have h1 : i < (lin b (n + 1)).length := by rw [lin_length]; omega
  have h2 : i + 1 < (lin b (n + 1)).length := by rw [lin_length]; omega
  rw [gapOf, List.getD_eq_getElem?_getD, List.getD_eq_getElem?_getD, List.getElem?_eq_getElem h1,
    List.getElem?_eq_getElem h2]
  simp only [Option.getD_some, lin_get]
  push_cast
  rw [add_sub_cancel_right]
  ring

/-- The discrete inner product of two harmonics. -/
theorem inner {N K : ℕ} {l m l' m' : ℤ} (h : |m| ≤ l) (h' : |m'| ≤ l') (hK : |m' - m| < K) :
    ∑ j ∈ Finset.range K, ∑ i ∈ Finset.range N,
      (starRingEnd ℂ) (sphY l m (node Real.pi N i) (node (2 * Real.pi) K j))
        * sphY l' m' (node Real.pi N i) (node (2 * Real.pi) K j)
        * ((Real.sin (node Real.pi N i) * (2 * Real.pi / K) * (Real.pi / N) : ℝ) : ℂ)
    = if m' = m then ((2 * Real.pi * (cLm l |m| * cLm l' |m| * midSum Real.pi N (F1 m.natAbs l.toNat l'.toNat)) : ℝ) : ℂ)
      else 0 := by
  have e1 : ∀ j ∈ Finset.range K, ∑ i ∈ Finset.range N,
      (starRingEnd ℂ) (sphY l m (node Real.pi N i) (node (2 * Real.pi) K j))
        * sphY l' m' (node Real.pi N i) (node (2 * Real.pi) K j)
        * ((Real.sin (node Real.pi N i) * (2 * Real.pi / K) * (Real.pi / N) : ℝ) : ℂ)
      = expi (m' - m) (node (2 * Real.pi) K j) * ((2 * Real.pi / K : ℂ)
        * ((sgn m * sgn m' * (cLm l |m| * cLm l' |m'|) * (Real.pi / N * ∑ i ∈ Finset.range N,
          thP l.toNat m.natAbs (node Real.pi N i) * thP l'.toNat m'.natAbs (node Real.pi N i)
            * Real.sin (node Real.pi N i)) : ℝ) : ℂ)) := by
    intro j _
    push_cast
    simp only [Finset.mul_sum]
    refine Finset.sum_congr rfl fun i hi => ?_
    have hs := (Analysis.node_sin (Finset.mem_range.1 hi)).le
    rw [sphY_thP h hs, sphY_thP h' hs, map_mul, Complex.conj_ofReal, conj_expi, sub_eq_neg_add m' m, ← expi_add]
    push_cast
    ring
  rw [Finset.sum_congr rfl e1, ← Finset.sum_mul]
  have e2 := sum_expi hK
  rw [show ∀ a b c : ℂ, a * (b * c) = (b * a) * c from fun a b c => by ring, e2]
  by_cases hm : m' = m
  · subst hm
    rw [if_pos (sub_self _), if_pos rfl, sgn_sq, midSum]
    simp only [F1]
    push_cast
    ring
  · rw [if_neg (sub_ne_zero.2 hm), if_neg hm, zero_mul]

theorem limit {l m l' : ℤ} (h : |m| ≤ l) (h' : |m| ≤ l') :
    Tendsto (fun n => 2 * Real.pi * (cLm l |m| * cLm l' |m| * midSum Real.pi n (F1 m.natAbs l.toNat l'.toNat))) atTop
      (𝓝 (if l' = l then 1 else 0)) := by
  have h1 := ((midSum_tendsto Real.pi_pos (F1_cont m.natAbs l.toNat l'.toNat)).const_mul
    (cLm l |m| * cLm l' |m|)).const_mul (2 * Real.pi)
  convert h1 using 2
  have ha : |m| = m.natAbs := (Int.natCast_natAbs m).symm
  have h0 := abs_nonneg m
  rw [Analysis.intF1 (by omega)]
  by_cases e : l' = l
  · subst e
    rw [if_pos rfl, if_pos rfl]
    have e := cLm_sq h0 h
    rw [show |m|.toNat = m.natAbs by rw [ha]; rfl] at e
    have hp := Real.pi_ne_zero
    rw [← pow_two, e]
    field_simp
  · rw [if_neg e, if_neg (by omega)]; ring

end ImageLimit

/-- **C68.** Make the image of a coefficient set on a full-sphere grid and analyse it: both steps succeed, and as the
polar resolution grows (and the number of azimuths is large enough to tell the orders apart) the coefficients tend to
those of the set; coefficients the set does not store tend to zero. -/
theorem C68_roundtrip (s : Coefs ℂ) (hw : WellFormed s) (h1 : s.dflt.length = 1) (L : ℕ)
    (hL : ∀ l m, stores s l m → l < L) (κ : ℕ → ℕ) (hκ : ∀ n, 2 * L ≤ κ n) (hκ1 : ∀ n, 1 ≤ κ n) :
    ∃ S : ℕ → Coefs ℂ,
      (∀ n : ℕ, 1 ≤ n → ∃ g x, Geom.init (.int (n + 1)) (.int (κ n + 1)) = .ok g ∧ toImage scipyY s g = .ok x ∧
        fromImage scipyY x none L = .ok (S n, g) ∧ fromImage scipyY x (some g) L = .ok (S n, g) ∧ WellFormed (S n) ∧
        ∀ l m : ℤ, stores (S n) l m ↔ |m| ≤ l ∧ l < L) ∧
      ∀ l m : ℤ, |m| ≤ l → l < L →
        Tendsto (fun n => coef (S n) l m) atTop (𝓝 (if (l, m) ∈ pairs s then coef s l m else 0)) := by
  have valid : ∀ k ∈ pairs s, |k.2| ≤ k.1 ∧ k.1 < L := fun k hk =>
    ⟨(WF_of_wellFormed hw).valid k (by rw [pairs_eq] at hk; exact List.mem_toFinset.1 hk), hL _ _ ((mem_pairs s k).1 hk)⟩
  have one : ∀ n : ℕ, ∃ S : Coefs ℂ, 1 ≤ n →
      (∃ g x, Geom.init (.int (n + 1)) (.int (κ n + 1)) = .ok g ∧ toImage scipyY s g = .ok x ∧
        fromImage scipyY x none L = .ok (S, g) ∧ fromImage scipyY x (some g) L = .ok (S, g) ∧ WellFormed S ∧
        ∀ l m : ℤ, stores S l m ↔ |m| ≤ l ∧ l < L) ∧
      ∀ l m : ℤ, |m| ≤ l → l < L → coef S l m = ∑ k ∈ pairs s, coef s k.1 k.2 * if k.2 = m then
        ((2 * Real.pi * (cLm l |m| * cLm k.1 |m| * midSum Real.pi n (F1 m.natAbs l.toNat k.1.toNat)) : ℝ) : ℂ) else 0 := by
    intro n
    by_cases hn : 1 ≤ n
    · have hg : Geom.init (.int (n + 1)) (.int (κ n + 1))
          = .ok (meshgrid (lin Real.pi (n + 1)) (lin (2 * Real.pi) (κ n + 1))) := by
        have := (init_ints (n := n + 1) (k := κ n + 1)).trans (init_lin (by omega) (by have := hκ1 n; omega))
        exact_mod_cast this
      have hP : 2 ≤ (lin Real.pi (n + 1)).length := by rw [lin_length]; omega
      have hA : 2 ≤ (lin (2 * Real.pi) (κ n + 1)).length := by rw [lin_length]; have := hκ1 n; omega
      obtain ⟨x, x1, x2, x3⟩ := C57_to_image scipyY _ _ hP hA s hw h1
      obtain ⟨S, s1, s2, s3, s4⟩ := C57_from_image scipyY _ _ hP hA x x2 L
      simp only [lin_length, Nat.add_sub_cancel] at x2 x3
      obtain ⟨g', g1, g2⟩ := C57_default_geometry scipyY x (κ n) n (hκ1 n) hn x2 L
      have : g' = _ := Except.ok.inj (g1.symm.trans hg)
      subst this
      refine ⟨S, fun _ => ⟨⟨_, x, hg, x1, g2.trans s1, s1, s2, s3⟩, fun l m hm hl => ?_⟩⟩
      rw [s4, if_pos ⟨hm, hl⟩, quadrature]
      simp only [lin_length, Nat.add_sub_cancel]
      have e : ∀ j ∈ Finset.range (κ n), ∀ i ∈ Finset.range n,
          (starRingEnd ℂ) (scipyY m l (midOf (lin (2 * Real.pi) (κ n + 1)) j) (midOf (lin Real.pi (n + 1)) i)) * pixel x j i
            * (facetWeight (lin Real.pi (n + 1)) (lin (2 * Real.pi) (κ n + 1)) j i : ℝ)
          = ∑ k ∈ pairs s, coef s k.1 k.2 *
            ((starRingEnd ℂ) (sphY l m (node Real.pi n i) (node (2 * Real.pi) (κ n) j))
              * sphY k.1 k.2 (node Real.pi n i) (node (2 * Real.pi) (κ n) j)
              * ((Real.sin (node Real.pi n i) * (2 * Real.pi / κ n) * (Real.pi / n) : ℝ) : ℂ)) := by
        intro j hj i hi
        rw [Finset.mem_range] at hj hi
        rw [x3 j hj i hi, facetWeight, ImageLimit.midOf_lin _ _ _ hj, ImageLimit.midOf_lin _ _ _ hi,
          ImageLimit.gapOf_lin _ _ _ hj, ImageLimit.gapOf_lin _ _ _ hi, Finset.mul_sum, Finset.sum_mul]
        refine Finset.sum_congr rfl fun k _ => ?_
        simp only [scipyY]
        ring
      rw [Finset.sum_congr rfl fun j hj => Finset.sum_congr rfl (e j hj),
        Finset.sum_congr rfl fun j _ => Finset.sum_comm, Finset.sum_comm]
      refine Finset.sum_congr rfl fun k hk => ?_
      simp only [← Finset.mul_sum]
      congr 1
      have hk := valid k hk
      have hK := hκ n
      exact ImageLimit.inner hm hk.1 (by
        have a1 := abs_le.1 hm
        have a2 := abs_le.1 hk.1
        rw [abs_lt]; omega)
    · exact ⟨s, fun h => absurd h hn⟩
  choose S hS using one
  refine ⟨S, fun n hn => (hS n hn).1, fun l m hm hl => ?_⟩
  have lim : Tendsto (fun n => ∑ k ∈ pairs s, coef s k.1 k.2 * if k.2 = m then
        ((2 * Real.pi * (cLm l |m| * cLm k.1 |m| * midSum Real.pi n (F1 m.natAbs l.toNat k.1.toNat)) : ℝ) : ℂ) else 0) atTop
      (𝓝 (∑ k ∈ pairs s, coef s k.1 k.2 * if k = (l, m) then 1 else 0)) := by
    refine tendsto_finset_sum _ fun k hk => Tendsto.const_mul _ ?_
    by_cases e : k.2 = m
    · simp only [if_pos e]
      have := (Complex.continuous_ofReal.tendsto _).comp
        (ImageLimit.limit (l := l) (m := m) (l' := k.1) hm (by rw [← e]; exact (valid k hk).1))
      have e3 : (if k = (l, m) then (1 : ℂ) else 0) = ((if k.1 = l then 1 else 0 : ℝ) : ℂ) := by
        by_cases e2 : k.1 = l
        · rw [if_pos (Prod.ext e2 e), if_pos e2]; simp
        · rw [if_neg (fun h => e2 (by rw [h])), if_neg e2]; simp
      rw [e3]
      exact this
    · simp only [if_neg e]
      rw [if_neg (fun h => e (by rw [h]))]
      exact tendsto_const_nhds
  have e : (∑ k ∈ pairs s, coef s k.1 k.2 * if k = (l, m) then 1 else 0)
      = if (l, m) ∈ pairs s then coef s l m else 0 := by simp
  rw [e] at lim
  refine lim.congr' ?_
  filter_upwards [eventually_ge_atTop 1] with n hn
  exact ((hS n hn).2 l m hm hl).symm

namespace ImageLimit

theorem legendreP_cont (l m : ℕ) : Continuous fun θ : ℝ => legendreP l m (Real.cos θ) := by
  have h : ∀ p : Polynomial ℝ, Continuous fun θ : ℝ => p.eval (Real.cos θ) := fun p =>
    p.continuous.comp Real.continuous_cos
  unfold legendreP
  exact (continuous_const.mul ((Real.continuous_sqrt.comp
    (continuous_const.sub (Real.continuous_cos.pow 2))).pow m)).mul (h _)

theorem sphY_cont (l m : ℤ) : Continuous fun p : ℝ × ℝ => sphY l m p.1 p.2 := by
  have h : Continuous fun θ : ℝ => legendrePZ l m (Real.cos θ) := by
    unfold legendrePZ
    split_ifs
    · exact continuous_const
    · exact legendreP_cont _ _
    · exact continuous_const.mul (legendreP_cont _ _)
  unfold sphY
  refine Continuous.mul ?_ ?_
  · exact Complex.continuous_ofReal.comp (continuous_const.mul (h.comp continuous_fst))
  · exact Complex.continuous_exp.comp (continuous_const.mul (Complex.continuous_ofReal.comp continuous_snd))

/-- A double midpoint sum of a complex function. -/
theorem midSum2_complex {H : ℝ → ℝ → ℂ} (hc : Continuous fun p : ℝ × ℝ => H p.1 p.2) {N K : ℕ → ℕ}
    (hN : Tendsto N atTop atTop) (hK : Tendsto K atTop atTop) {a b : ℝ} (ha : 0 < a) (hb : 0 < b) :
    Tendsto (fun n => ∑ j ∈ Finset.range (K n), ∑ i ∈ Finset.range (N n),
        H (node a (N n) i) (node b (K n) j) * ((b / K n * (a / N n) : ℝ) : ℂ)) atTop
      (𝓝 (∫ φ in (0 : ℝ)..b, ∫ θ in (0 : ℝ)..a, H θ φ)) := by
  have hin : ∀ φ, Continuous fun θ => H θ φ := fun φ => hc.comp (continuous_id.prodMk continuous_const)
  have hH : Continuous fun φ => ∫ θ in (0 : ℝ)..a, H θ φ :=
    continuous_parametric_intervalIntegral_of_continuous' (f := fun φ θ => H θ φ) (hc.comp continuous_swap) 0 a
  have part : ∀ L : ℂ →L[ℝ] ℝ, Tendsto (fun n => L (∑ j ∈ Finset.range (K n), ∑ i ∈ Finset.range (N n),
        H (node a (N n) i) (node b (K n) j) * ((b / K n * (a / N n) : ℝ) : ℂ))) atTop
      (𝓝 (L (∫ φ in (0 : ℝ)..b, ∫ θ in (0 : ℝ)..a, H θ φ))) := by
    intro L
    have e : L (∫ φ in (0 : ℝ)..b, ∫ θ in (0 : ℝ)..a, H θ φ) = ∫ φ in (0 : ℝ)..b, ∫ θ in (0 : ℝ)..a, L (H θ φ) := by
      rw [← L.intervalIntegral_comp_comm (hH.intervalIntegrable _ _)]
      congr 1
      ext φ
      rw [L.intervalIntegral_comp_comm ((hin φ).intervalIntegrable _ _)]
    rw [e]
    refine (midSum2_tendsto ha hb (h := fun θ φ => L (H θ φ)) (L.continuous.comp hc) hN hK).congr fun n => ?_
    simp only [midSum, map_sum, Finset.mul_sum]
    refine Finset.sum_congr rfl fun j _ => Finset.sum_congr rfl fun i _ => ?_
    rw [mul_comm (H _ _), ← Complex.real_smul, map_smul, smul_eq_mul]
    ring
  have h1 := part Complex.reCLM
  have h2 := part Complex.imCLM
  simp only [Complex.reCLM_apply, Complex.imCLM_apply] at h1 h2
  have h3 := ((Complex.continuous_ofReal.tendsto _).comp h1).add
    (((Complex.continuous_ofReal.tendsto _).comp h2).mul_const Complex.I)
  simp only [Function.comp_def, Complex.re_add_im] at h3
  exact h3

end ImageLimit

/-- **C68.** The coefficients of finer and finer samplings of a continuous function on the sphere converge to its
harmonic coefficients, the integrals of the function against the conjugate harmonics. -/
theorem C68_projection (f : ℝ → ℝ → ℂ) (hf : Continuous fun p : ℝ × ℝ => f p.1 p.2) (N K : ℕ → ℕ)
    (hN : Tendsto N atTop atTop) (hK : Tendsto K atTop atTop) (hN1 : ∀ n, 1 ≤ N n) (hK1 : ∀ n, 1 ≤ K n) (L : ℕ)
    (x : ℕ → List (List ℂ)) (hx : ∀ n, HasShape (x n) (K n) (N n))
    (hp : ∀ n, ∀ j < K n, ∀ i < N n,
      pixel (x n) j i = f ((i + 1 / 2) * (Real.pi / N n)) ((j + 1 / 2) * (2 * Real.pi / K n))) :
    ∃ (S : ℕ → Coefs ℂ) (g : ℕ → Geom), (∀ n, fromImage scipyY (x n) none L = .ok (S n, g n)) ∧
      ∀ l m : ℤ, |m| ≤ l → l < L → Tendsto (fun n => coef (S n) l m) atTop
        (𝓝 (∫ φ in (0 : ℝ)..2 * Real.pi, ∫ θ in (0 : ℝ)..Real.pi,
          (starRingEnd ℂ) (sphY l m θ φ) * f θ φ * Real.sin θ)) := by
  have one : ∀ n, ∃ S : Coefs ℂ,
      fromImage scipyY (x n) none L = .ok (S, meshgrid (lin Real.pi (N n + 1)) (lin (2 * Real.pi) (K n + 1))) ∧
      ∀ l m : ℤ, |m| ≤ l → l < L → coef S l m = ∑ j ∈ Finset.range (K n), ∑ i ∈ Finset.range (N n),
        (starRingEnd ℂ) (sphY l m (node Real.pi (N n) i) (node (2 * Real.pi) (K n) j))
          * f (node Real.pi (N n) i) (node (2 * Real.pi) (K n) j) * (Real.sin (node Real.pi (N n) i) : ℂ)
          * ((2 * Real.pi / K n * (Real.pi / N n) : ℝ) : ℂ) := by
    intro n
    have hg : Geom.init (.int (N n + 1)) (.int (K n + 1))
        = .ok (meshgrid (lin Real.pi (N n + 1)) (lin (2 * Real.pi) (K n + 1))) := by
      have := (init_ints (n := N n + 1) (k := K n + 1)).trans
        (init_lin (by have := hN1 n; omega) (by have := hK1 n; omega))
      exact_mod_cast this
    have hP : 2 ≤ (lin Real.pi (N n + 1)).length := by rw [lin_length]; have := hN1 n; omega
    have hA : 2 ≤ (lin (2 * Real.pi) (K n + 1)).length := by rw [lin_length]; have := hK1 n; omega
    obtain ⟨S, s1, s2, s3, s4⟩ := C57_from_image scipyY _ _ hP hA (x n)
      (by simp only [lin_length, Nat.add_sub_cancel]; exact hx n) L
    obtain ⟨g', g1, g2⟩ := C57_default_geometry scipyY (x n) (K n) (N n) (hK1 n) (hN1 n) (hx n) L
    have : g' = _ := Except.ok.inj (g1.symm.trans hg)
    subst this
    refine ⟨S, g2.trans s1, fun l m hm hl => ?_⟩
    rw [s4, if_pos ⟨hm, hl⟩, quadrature]
    simp only [lin_length, Nat.add_sub_cancel]
    refine Finset.sum_congr rfl fun j hj => Finset.sum_congr rfl fun i hi => ?_
    rw [Finset.mem_range] at hj hi
    rw [hp n j hj i hi, facetWeight, ImageLimit.midOf_lin _ _ _ hj, ImageLimit.midOf_lin _ _ _ hi,
      ImageLimit.gapOf_lin _ _ _ hj, ImageLimit.gapOf_lin _ _ _ hi]
    simp only [scipyY, node]
    push_cast
    ring
  choose S hS using one
  refine ⟨S, _, fun n => (hS n).1, fun l m hm hl => ?_⟩
  have hc : Continuous fun p : ℝ × ℝ => (starRingEnd ℂ) (sphY l m p.1 p.2) * f p.1 p.2 * (Real.sin p.1 : ℂ) :=
    ((Complex.continuous_conj.comp (ImageLimit.sphY_cont l m)).mul hf).mul
      (Complex.continuous_ofReal.comp (Real.continuous_sin.comp continuous_fst))
  refine (ImageLimit.midSum2_complex
    (H := fun θ φ => (starRingEnd ℂ) (sphY l m θ φ) * f θ φ * (Real.sin θ : ℂ)) hc hN hK Real.pi_pos
    (by have := Real.pi_pos; linarith)).congr fun n => ?_
  exact ((hS n).2 l m hm hl).symm

/-- A set with a coefficient of negative order. -/
example : ∃ s : Coefs ℂ, WellFormed s ∧ s.dflt.length = 1 ∧ (∀ l m, stores s l m → l < (3 : ℕ)) ∧ (2, -1) ∈ pairs s ∧
    coef s 2 (-1) = 5 := by
  obtain ⟨s, h1, h2, h3, h4, h5, h6⟩ := build_ok ([0] : List ℂ) .cplx (by simp) [((2 : ℤ), (-1 : ℤ))] (fun _ => [5])
    (by simp) (by simp) (by simp)
  refine ⟨s, wellFormed_of_WF h2, by rw [h4]; rfl, fun l m h => ?_, ?_, ?_⟩
  · rw [stores, has_int, h3] at h
    simp at h; omega
  · rw [mem_pairs, stores, has_int, h3]; simp
  · rw [coef, valueAt_eq, h6]; simp

end Verif
