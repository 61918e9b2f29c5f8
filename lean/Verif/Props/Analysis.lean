import Verif.Model.Analysis
import Verif.Lemmas.Riemann
import Verif.Props.Image
import Verif.Props.Converter
import Verif.Props.ContainerArrays
import Mathlib.Analysis.Real.Pi.Bounds

/-!
# C66: analysis of a sampled vector field
-/

namespace Verif
open Spec Geometry Image Coefs Legendre Zdi Parseval

namespace Spec

/-- Entry `[j, i]` of a real array. -/
def entry (x : List (List ℝ)) (j i : ℕ) : ℝ := (x.getD j []).getD i 0

/-- The conjugate harmonic and its two derivatives. -/
noncomputable def conjY (l m : ℤ) (θ φ : ℝ) : ℂ := (starRingEnd ℂ) (sphY l m θ φ)
noncomputable def conjYpolar (l m : ℤ) (θ φ : ℝ) : ℂ := deriv (fun t => conjY l m t φ) θ
noncomputable def conjYazim (l m : ℤ) (θ φ : ℝ) : ℂ := deriv (fun t => conjY l m θ t) φ

/-- Sum over the grid. -/
noncomputable def gridSum (n k : ℕ) (f : ℕ → ℕ → ℂ) : ℂ := ∑ j ∈ Finset.range n, ∑ i ∈ Finset.range k, f j i

/-- A field sampled on a grid of `n` by `k` points away from the poles: the arguments of the analysis. -/
structure Sampled (n k : ℕ) (pl az fr fp fa : List (List ℝ)) : Prop where
  hpl : HasShape pl n k
  haz : HasShape az n k
  hfr : HasShape fr n k
  hfp : HasShape fp n k
  hfa : HasShape fa n k
  rows : 0 < n
  cols : 0 < k
  off : ∀ j < n, ∀ i < k, OffAxis (entry pl j i)

/-- Harmonics of negative orders are conjugates of others, so each other order counts twice. -/
noncomputable def twice (m : ℤ) : ℂ := if m = 0 then 1 else 2

end Spec

namespace Analysis

theorem eq_arrOf {x : Arr2 ℝ} {n k : ℕ} (h : HasShape x n k) : x = arrOf n k (entry x) := by
  obtain ⟨rfl, h2⟩ := h
  conv_lhs => rw [list_eq_range x []]
  refine List.map_congr_left fun j hj => ?_
  have hj := List.mem_range.1 hj
  have hk : (x.getD j []).length = k := by
    rw [List.getD_eq_getElem?_getD, List.getElem?_eq_getElem hj]
    exact h2 _ (List.getElem_mem hj)
  conv_lhs => rw [list_eq_range (x.getD j []) 0, hk]
  rfl

theorem arrOf_shape {α : Type} (n k : ℕ) (f : ℕ → ℕ → α) : HasShape (arrOf n k f) n k := by
  refine ⟨by simp [arrOf], fun r hr => ?_⟩
  obtain ⟨j, _, rfl⟩ := List.mem_map.1 hr
  simp

theorem entry_arrOf {n k : ℕ} (f : ℕ → ℕ → ℝ) {j i : ℕ} (hj : j < n) (hi : i < k) : entry (arrOf n k f) j i = f j i := by
  simp [entry, arrOf, List.getD_eq_getElem?_getD, hj, hi]

theorem sum_flat {α M : Type} [AddCommMonoid M] (n k : ℕ) (f : ℕ → ℕ → α) (g : α → M) :
    ((arrOf n k f).flatten.map g).sum = ∑ j ∈ Finset.range n, ∑ i ∈ Finset.range k, g (f j i) := by
  have h : ∀ (g : ℕ → M) (n : ℕ), ((List.range n).map g).sum = ∑ j ∈ Finset.range n, g j := by
    intro g n
    induction n with
    | zero => rfl
    | succ n ih => rw [List.range_succ, List.map_append, List.sum_append, ih, Finset.sum_range_succ]; simp
  rw [List.map_flatten, List.sum_flatten, arrOf, List.map_map, List.map_map, ← h]
  refine congrArg List.sum (List.map_congr_left fun j _ => ?_)
  simp only [Function.comp, List.map_map]
  exact h _ _

theorem comb (n k : ℕ) (f g : ℕ → ℕ → ℝ) :
    ((∑ j ∈ Finset.range n, ∑ i ∈ Finset.range k, f j i : ℝ) : ℂ)
      + Complex.I * ((-∑ j ∈ Finset.range n, ∑ i ∈ Finset.range k, g j i : ℝ) : ℂ)
      = gridSum n k fun j i => (f j i : ℂ) - Complex.I * g j i := by
  simp only [gridSum, Finset.sum_sub_distrib, ← Finset.mul_sum]
  push_cast
  ring

theorem comb' (n k : ℕ) (f g : ℕ → ℕ → ℝ) :
    ((-∑ j ∈ Finset.range n, ∑ i ∈ Finset.range k, f j i : ℝ) : ℂ)
      + Complex.I * ((-∑ j ∈ Finset.range n, ∑ i ∈ Finset.range k, g j i : ℝ) : ℂ)
      = gridSum n k fun j i => -(f j i : ℂ) - Complex.I * g j i := by
  simp only [gridSum, Finset.sum_sub_distrib, ← Finset.mul_sum, Finset.sum_neg_distrib]
  push_cast
  ring

theorem gridSum_congr {n k : ℕ} {f g : ℕ → ℕ → ℂ} (h : ∀ j < n, ∀ i < k, f j i = g j i) : gridSum n k f = gridSum n k g :=
  Finset.sum_congr rfl fun j hj => Finset.sum_congr rfl fun i hi => h j (Finset.mem_range.1 hj) i (Finset.mem_range.1 hi)

theorem gridSum_mul (n k : ℕ) (c : ℂ) (f : ℕ → ℕ → ℂ) : gridSum n k (fun j i => c * f j i) = c * gridSum n k f := by
  simp only [gridSum, Finset.mul_sum]

theorem gridSum_add (n k : ℕ) (f g : ℕ → ℕ → ℂ) :
    gridSum n k (fun j i => f j i + g j i) = gridSum n k f + gridSum n k g := by
  simp only [gridSum, Finset.sum_add_distrib]

theorem expi_neg (m : ℤ) (φ : ℝ) :
    expi (-m) φ = ((Real.cos (m * φ) : ℝ) : ℂ) - Complex.I * ((Real.sin (m * φ) : ℝ) : ℂ) := by
  have : Complex.I * ((-m : ℤ) : ℂ) * φ = ((-(m * φ) : ℝ) : ℂ) * Complex.I := by push_cast; ring
  rw [expi, this, Complex.exp_mul_I, ← Complex.ofReal_cos, ← Complex.ofReal_sin, Real.cos_neg, Real.sin_neg]
  push_cast; ring

/-- The weight `1/W`. -/
noncomputable def wt (l m : ℤ) : ℝ := (2 - if m = 0 then 1 else 0) * cLm l m

theorem wt_eq (l m : ℤ) : ((wt l m : ℝ) : ℂ) = twice m * cLm l m := by
  rw [wt, twice]; split_ifs <;> push_cast <;> ring

/-- The coefficients of one pair, written with complex exponentials. -/
noncomputable def alphaSum (n k : ℕ) (θ φ fr : ℕ → ℕ → ℝ) (l m : ℤ) : ℂ :=
  wt l m * gridSum n k fun j i => fr j i * thP l.toNat m.toNat (θ j i) * Real.sin (θ j i) * expi (-m) (φ j i)
noncomputable def betaSum (n k : ℕ) (θ φ fp fa : ℕ → ℕ → ℝ) (l m : ℤ) : ℂ :=
  wt l m / l * gridSum n k fun j i => (-fp j i * thD l.toNat m.toNat (θ j i) * Real.sin (θ j i)
    + Complex.I * m * fa j i * thP l.toNat m.toNat (θ j i)) * expi (-m) (φ j i)
noncomputable def gammaSum (n k : ℕ) (θ φ fp fa : ℕ → ℕ → ℝ) (l m : ℤ) : ℂ :=
  wt l m / l * gridSum n k fun j i => (-(Complex.I * m * fp j i * thP l.toNat m.toNat (θ j i))
    - fa j i * thD l.toNat m.toNat (θ j i) * Real.sin (θ j i)) * expi (-m) (φ j i)

theorem thD_zero (θ : ℝ) : thD 0 0 θ = 0 := by
  rw [thD, show rod 0 (0 + 0 + 1) = 0 from rod_eq_zero (by omega)]; simp

theorem analyse_eq {n k : ℕ} (θ φ fr fp fa : ℕ → ℕ → ℝ) {l m : ℤ} (h0 : 0 ≤ m) (h1 : m ≤ l) (area : ℝ) :
    analyse l m area ((arrOf n k fun j i => (⟨θ j i, φ j i, fr j i, fp j i, fa j i⟩ : Pt)).flatten.map fun q =>
        (q, thP l.toNat m.toNat q.θ, thD l.toNat m.toNat q.θ))
      = [alphaSum n k θ φ fr l m * area, betaSum n k θ φ fp fa l m * area, gammaSum n k θ φ fp fa l m * area] := by
  have hl0 : ∀ x : ℝ, x / ((2 - if m = 0 then 1 else 0) * cLm l m)⁻¹ = x * wt l m := by
    intro x; rw [wt, div_inv_eq_mul]
  rw [analyse]
  simp only [List.map_map, Function.comp_def, sum_flat, hl0]
  rw [comb, comb, comb']
  simp only [List.cons.injEq, and_true]
  refine ⟨?_, ?_, ?_⟩
  · congr 1
    rw [alphaSum, ← gridSum_mul]
    refine gridSum_congr fun j _ i _ => ?_
    rw [expi_neg]; push_cast; ring
  · congr 1
    rw [betaSum, ← gridSum_mul]
    refine gridSum_congr fun j _ i _ => ?_
    by_cases hl : l = 0
    · have hm : m = 0 := by omega
      subst hl hm
      simp [thD_zero]
    · rw [if_neg hl, expi_neg]; push_cast; linear_combination (fa j i * Complex.sin (m * φ j i) * m
        * thP l.toNat m.toNat (θ j i) * wt l m * (l : ℂ)⁻¹) * Complex.I_sq
  · rw [mul_neg, mul_one, ← neg_mul]
    congr 1
    rw [gammaSum, ← gridSum_mul, neg_eq_neg_one_mul, ← gridSum_mul]
    refine gridSum_congr fun j _ i _ => ?_
    by_cases hl : l = 0
    · have hm : m = 0 := by omega
      subst hl hm
      simp [thD_zero]
    · rw [if_neg hl, expi_neg]; push_cast; linear_combination -(fp j i * Complex.sin (m * φ j i) * m
        * thP l.toNat m.toNat (θ j i) * wt l m * (l : ℂ)⁻¹) * Complex.I_sq

/-- The analysis of a sampled field, in terms of the sums above. -/
theorem zdiCoeffs_ok {n k : ℕ} {pl az fr fp fa : Arr2 ℝ} (h : Sampled n k pl az fr fp fa) (lm : List Key) (hne : lm ≠ [])
    (hnd : lm.Nodup) (hv : ∀ q ∈ lm, 0 ≤ q.2 ∧ q.2 ≤ q.1) (area : Option ℝ) :
    ∃ s, zdiCoeffs pl az (lm.map Prod.fst) (lm.map Prod.snd) fr fp fa area = .ok s ∧ WellFormed s ∧
      s.dflt = [0, 0, 0] ∧ (∀ l m, stores s l m ↔ (l, m) ∈ lm) ∧
      ∀ l m, valueAt s l m = if (l, m) ∈ lm then
        [alphaSum n k (entry pl) (entry az) (entry fr) l m * (area.getD (pseudoArea pl az) : ℝ),
          betaSum n k (entry pl) (entry az) (entry fp) (entry fa) l m * (area.getD (pseudoArea pl az) : ℝ),
          gammaSum n k (entry pl) (entry az) (entry fp) (entry fa) l m * (area.getD (pseudoArea pl az) : ℝ)]
        else [0, 0, 0] := by
  set ar := area.getD (pseudoArea pl az)
  set row : Key → List ℂ := fun q =>
    [alphaSum n k (entry pl) (entry az) (entry fr) q.1 q.2 * (ar : ℝ),
      betaSum n k (entry pl) (entry az) (entry fp) (entry fa) q.1 q.2 * (ar : ℝ),
      gammaSum n k (entry pl) (entry az) (entry fp) (entry fa) q.1 q.2 * (ar : ℝ)] with hrow
  have hshape : ∀ x : Arr2 ℝ, HasShape x n k → x.map List.length = List.replicate n k := by
    intro x hx
    rw [List.eq_replicate_iff]
    exact ⟨by simp [hx.1], fun b hb => by obtain ⟨r, hr, rfl⟩ := List.mem_map.1 hb; exact hx.2 r hr⟩
  have hsame : ∀ x y : Arr2 ℝ, HasShape x n k → HasShape y n k → sameShape x y = true := by
    intro x y hx hy
    rw [sameShape, decide_eq_true_eq, hshape x hx, hshape y hy]
  have hzip : (lm.map Prod.fst).zip (lm.map Prod.snd) = lm := by
    rw [List.zip_map']; simp
  have hpts : points pl az fr fp fa = (arrOf n k fun j i =>
      (⟨entry pl j i, entry az j i, entry fr j i, entry fp j i, entry fa j i⟩ : Pt)).flatten := by
    rw [points]
    conv_lhs => rw [eq_arrOf h.hpl, eq_arrOf h.haz, eq_arrOf h.hfr, eq_arrOf h.hfp, eq_arrOf h.hfa]
    simp only [map2_mk]
  have hmemp : ∀ q ∈ points pl az fr fp fa, 0 < Real.sin q.θ := by
    intro q hq
    rw [hpts, List.mem_flatten] at hq
    obtain ⟨r, hr, hq⟩ := hq
    obtain ⟨j, hj, rfl⟩ := List.mem_map.1 hr
    obtain ⟨i, hi, rfl⟩ := List.mem_map.1 hq
    have := h.off j (List.mem_range.1 hj) i (List.mem_range.1 hi)
    exact Real.sin_pos_of_pos_of_lt_pi this.1 this.2
  have hlen : (points pl az fr fp fa).length ≠ 0 := by
    have hc := h.cols
    have hr := h.rows
    rw [hpts, List.length_flatten, arrOf, List.map_map]
    simp [Function.comp_def]
    omega
  have htab : (points pl az fr fp fa).mapM (fun q => calcLpmn lm q.θ)
      = .ok ((points pl az fr fp fa).map fun q => lm.map fun p => (thP p.1.toNat p.2.toNat q.θ, thD p.1.toNat p.2.toNat q.θ)) :=
    mapM_pure_ok _ _ _ fun q hq => calcLpmn_ok' hne hv (hmemp q hq)
  have hrows : (lm.zipIdx.map fun p => analyse p.1.1 p.1.2 ar
      (List.zipWith (fun q (t : List (ℝ × ℝ)) => (q, t.getD p.2 (0, 0))) (points pl az fr fp fa)
        ((points pl az fr fp fa).map fun q => lm.map fun p => (thP p.1.toNat p.2.toNat q.θ, thD p.1.toNat p.2.toNat q.θ))))
      = lm.map row := by
    have e : lm.map row = lm.zipIdx.map fun p => row p.1 := by
      conv_lhs => rw [← List.zipIdx_map_fst 0 lm, List.map_map]
      rfl
    rw [e]
    refine List.map_congr_left fun p hp => ?_
    obtain ⟨⟨l, m⟩, i⟩ := p
    have hi : lm[i]? = some (l, m) := List.mem_zipIdx_iff_getElem?.1 hp
    have hmem : (l, m) ∈ lm := List.mem_of_getElem? hi
    rw [zipWith_map_self]
    have e2 : ((points pl az fr fp fa).map fun q => (q, (lm.map fun p => (thP p.1.toNat p.2.toNat q.θ,
        thD p.1.toNat p.2.toNat q.θ)).getD i (0, 0)))
        = (points pl az fr fp fa).map fun q => (q, thP l.toNat m.toNat q.θ, thD l.toNat m.toNat q.θ) := by
      refine List.map_congr_left fun q _ => ?_
      simp [List.getD_eq_getElem?_getD, hi]
    simp only
    rw [e2, hpts, analyse_eq _ _ _ _ _ (hv _ hmem).1 (hv _ hmem).2]
  obtain ⟨s, hs, hs2⟩ := C07_fromArrays_table .cplx lm row 3 hne hnd
    (fun q hq => by rw [abs_of_nonneg (hv q hq).1]; exact (hv q hq).2) (fun q _ => rfl)
  have hwf : s.WF := (Reach.fromArrays _ _ _ _ hs).WF
  have hsd : s.dflt = [0, 0, 0] := by
    have := (hs2 (-1) 0).2
    rw [get_int, getI_of_not_mem, if_neg] at this
    · exact Except.ok.inj this
    · intro hm; have := hv _ hm; simp at this
    · intro hm
      have := (hs2 (-1) 0).1
      rw [(has_int s _ _).2 hm] at this
      have := hv _ (of_decide_eq_true this.symm)
      simp at this
  refine ⟨s, ?_, wellFormed_of_WF hwf, hsd, fun l m => ?_, fun l m => ?_⟩
  · rw [zdiCoeffs, if_neg]
    · simp only [bind, Except.bind, pure, Except.pure, hzip, hlen, if_false, htab]
      rw [List.map_map, List.map_map]
      exact (congrArg _ hrows).trans hs
    · rw [not_or, not_not, not_not]
      exact ⟨by simp, hsame _ _ h.hpl h.haz, hsame _ _ h.hpl h.hfr, hsame _ _ h.hpl h.hfp, hsame _ _ h.hpl h.hfa⟩
  · rw [stores, (hs2 l m).1, decide_eq_true_iff]
  · have := (hs2 l m).2
    rw [get_int] at this
    rw [valueAt_eq, Except.ok.inj this]
    split_ifs
    · simp [hrow, Elem.cast, castC]
    · rfl

theorem conjY_eq {l m : ℤ} (h0 : 0 ≤ m) (h1 : m ≤ l) {θ : ℝ} (hs : 0 ≤ Real.sin θ) (φ : ℝ) :
    conjY l m θ φ = cLm l m * thP l.toNat m.toNat θ * expi (-m) φ := by
  rw [conjY, sphY_eq (by rw [abs_of_nonneg h0]; exact h1), map_mul, map_mul, conj_expi, Complex.conj_ofReal,
    Complex.conj_ofReal, lpmv_nonneg h0 h1, legendreP_cos _ _ hs]

theorem conjYpolar_eq {l m : ℤ} (h0 : 0 ≤ m) (h1 : m ≤ l) {θ : ℝ} (hs : 0 < Real.sin θ) (φ : ℝ) :
    conjYpolar l m θ φ = cLm l m * thD l.toNat m.toNat θ * expi (-m) φ := by
  have e : (fun t => conjY l m t φ) = fun t => cLm l m * ((legendreP l.toNat m.toNat (Real.cos t) : ℝ) : ℂ) * expi (-m) φ := by
    funext t
    rw [conjY, sphY_eq (by rw [abs_of_nonneg h0]; exact h1), map_mul, map_mul, conj_expi, Complex.conj_ofReal,
      Complex.conj_ofReal, lpmv_nonneg h0 h1]
  rw [conjYpolar, e]
  exact ((((hasDerivAt_legendreP_cos l.toNat m.toNat hs).ofReal_comp).const_mul _).mul_const _).deriv

theorem conjYazim_eq {l m : ℤ} (h0 : 0 ≤ m) (h1 : m ≤ l) {θ : ℝ} (hs : 0 ≤ Real.sin θ) (φ : ℝ) :
    conjYazim l m θ φ = -(Complex.I * m) * (cLm l m * thP l.toNat m.toNat θ * expi (-m) φ) := by
  have e : (fun t => conjY l m θ t) = fun t => cLm l m * (thP l.toNat m.toNat θ : ℝ) * expi (-m) t :=
    funext fun t => conjY_eq h0 h1 hs t
  rw [conjYazim, e, ((hasDerivAt_expi (-m) φ).const_mul _).deriv]
  push_cast
  ring

end Analysis

/-! ## C66 -/

open Analysis

/-- **C66.** The coefficients are the discrete inner products of the sampled field with the harmonics and their surface
gradients; orders other than 0 count twice. Exactly the requested pairs are stored. -/
theorem C66_value {n k : ℕ} {pl az fr fp fa : List (List ℝ)} (h : Sampled n k pl az fr fp fa) (lm : List (ℤ × ℤ))
    (hne : lm ≠ []) (hnd : lm.Nodup) (hv : ∀ q ∈ lm, 0 ≤ q.2 ∧ q.2 ≤ q.1) (area : ℝ) :
    ∃ s, zdiCoeffs pl az (lm.map Prod.fst) (lm.map Prod.snd) fr fp fa (some area) = .ok s ∧ WellFormed s ∧
      s.dflt.length = 3 ∧ ZeroDefault s ∧ (∀ l m, stores s l m ↔ (l, m) ∈ lm) ∧
      ∀ l m, (l, m) ∈ lm →
        coefCol 0 s l m = area * twice m * gridSum n k (fun j i =>
          entry fr j i * conjY l m (entry pl j i) (entry az j i) * Real.sin (entry pl j i)) ∧
        coefCol 1 s l m = -(area * twice m / l) * gridSum n k (fun j i =>
          entry fp j i * conjYpolar l m (entry pl j i) (entry az j i) * Real.sin (entry pl j i)
            + entry fa j i * conjYazim l m (entry pl j i) (entry az j i)) ∧
        coefCol 2 s l m = area * twice m / l * gridSum n k (fun j i =>
          entry fp j i * conjYazim l m (entry pl j i) (entry az j i)
            - entry fa j i * conjYpolar l m (entry pl j i) (entry az j i) * Real.sin (entry pl j i)) := by
  obtain ⟨s, h1, h2, h3, h4, h5⟩ := zdiCoeffs_ok h lm hne hnd hv (some area)
  refine ⟨s, h1, h2, by rw [h3]; rfl, by rw [ZeroDefault, h3]; simp, h4, fun l m hm => ?_⟩
  have hs : ∀ j < n, ∀ i < k, 0 < Real.sin (entry pl j i) := fun j hj i hi =>
    Real.sin_pos_of_pos_of_lt_pi (h.off j hj i hi).1 (h.off j hj i hi).2
  obtain ⟨m0, m1⟩ := hv _ hm
  simp only at m0 m1
  simp only [coefCol, h5, if_pos hm, Option.getD_some]
  refine ⟨?_, ?_, ?_⟩
  · simp only [List.getD_cons_zero]
    rw [alphaSum, wt_eq, ← gridSum_mul, ← gridSum_mul, mul_comm, ← gridSum_mul]
    refine gridSum_congr fun j hj i hi => ?_
    rw [conjY_eq m0 m1 (hs j hj i hi).le]
    ring
  · simp only [List.getD_cons_succ, List.getD_cons_zero]
    rw [betaSum, wt_eq, ← gridSum_mul, ← gridSum_mul, mul_comm, ← gridSum_mul]
    refine gridSum_congr fun j hj i hi => ?_
    rw [conjYpolar_eq m0 m1 (hs j hj i hi), conjYazim_eq m0 m1 (hs j hj i hi).le]
    ring
  · simp only [List.getD_cons_succ, List.getD_cons_zero]
    rw [gammaSum, wt_eq, ← gridSum_mul, ← gridSum_mul, mul_comm, ← gridSum_mul]
    refine gridSum_congr fun j hj i hi => ?_
    rw [conjYpolar_eq m0 m1 (hs j hj i hi), conjYazim_eq m0 m1 (hs j hj i hi).le]
    ring

/-- **C66.** Without an explicit area, the product of the mean spacings is used. -/
theorem C66_default_area (pl az fr fp fa : List (List ℝ)) (ls ms : List ℤ) :
    zdiCoeffs pl az ls ms fr fp fa none = zdiCoeffs pl az ls ms fr fp fa (some (pseudoArea pl az)) := rfl

/-- **C66.** The analysis is linear in the field. -/
theorem C66_linear {n k : ℕ} {pl az fr fp fa gr gp ga hr hp ha : List (List ℝ)} (hf : Sampled n k pl az fr fp fa)
    (hg : Sampled n k pl az gr gp ga) (hh : Sampled n k pl az hr hp ha) (c d : ℝ)
    (er : ∀ j < n, ∀ i < k, entry hr j i = c * entry fr j i + d * entry gr j i)
    (ep : ∀ j < n, ∀ i < k, entry hp j i = c * entry fp j i + d * entry gp j i)
    (ea : ∀ j < n, ∀ i < k, entry ha j i = c * entry fa j i + d * entry ga j i) (lm : List (ℤ × ℤ))
    (hne : lm ≠ []) (hnd : lm.Nodup) (hv : ∀ q ∈ lm, 0 ≤ q.2 ∧ q.2 ≤ q.1) (area : Option ℝ) :
    ∃ sf sg sh, zdiCoeffs pl az (lm.map Prod.fst) (lm.map Prod.snd) fr fp fa area = .ok sf ∧
      zdiCoeffs pl az (lm.map Prod.fst) (lm.map Prod.snd) gr gp ga area = .ok sg ∧
      zdiCoeffs pl az (lm.map Prod.fst) (lm.map Prod.snd) hr hp ha area = .ok sh ∧
      ∀ c' l m, coefCol c' sh l m = c * coefCol c' sf l m + d * coefCol c' sg l m := by
  obtain ⟨sf, f1, _, _, _, f5⟩ := zdiCoeffs_ok hf lm hne hnd hv area
  obtain ⟨sg, g1, _, _, _, g5⟩ := zdiCoeffs_ok hg lm hne hnd hv area
  obtain ⟨sh, h1, _, _, _, h5⟩ := zdiCoeffs_ok hh lm hne hnd hv area
  refine ⟨sf, sg, sh, f1, g1, h1, fun c' l m => ?_⟩
  set ar := area.getD (pseudoArea pl az)
  have ha' : alphaSum n k (entry pl) (entry az) (entry hr) l m = c * alphaSum n k (entry pl) (entry az) (entry fr) l m
      + d * alphaSum n k (entry pl) (entry az) (entry gr) l m := by
    simp only [alphaSum, ← gridSum_mul, ← gridSum_add]
    refine gridSum_congr fun j hj i hi => ?_
    rw [er j hj i hi]; push_cast; ring
  have hb' : betaSum n k (entry pl) (entry az) (entry hp) (entry ha) l m
      = c * betaSum n k (entry pl) (entry az) (entry fp) (entry fa) l m
      + d * betaSum n k (entry pl) (entry az) (entry gp) (entry ga) l m := by
    simp only [betaSum, ← gridSum_mul, ← gridSum_add]
    refine gridSum_congr fun j hj i hi => ?_
    rw [ep j hj i hi, ea j hj i hi]; push_cast; ring
  have hg' : gammaSum n k (entry pl) (entry az) (entry hp) (entry ha) l m
      = c * gammaSum n k (entry pl) (entry az) (entry fp) (entry fa) l m
      + d * gammaSum n k (entry pl) (entry az) (entry gp) (entry ga) l m := by
    simp only [gammaSum, ← gridSum_mul, ← gridSum_add]
    refine gridSum_congr fun j hj i hi => ?_
    rw [ep j hj i hi, ea j hj i hi]; push_cast; ring
  simp only [coefCol, f5, g5, h5, ha', hb', hg']
  split_ifs
  · rcases c' with _ | _ | _ | c' <;> simp <;> ring
  · rcases c' with _ | _ | _ | c' <;> simp

/-- **C66.** Moving the grid by an angle in azimuth (with the same field values) turns the phase of the coefficients. -/
theorem C66_shift {n k : ℕ} {pl az az' fr fp fa : List (List ℝ)} (hf : Sampled n k pl az fr fp fa)
    (hf' : Sampled n k pl az' fr fp fa) (δ : ℝ) (ea : ∀ j < n, ∀ i < k, entry az' j i = entry az j i + δ)
    (lm : List (ℤ × ℤ)) (hne : lm ≠ []) (hnd : lm.Nodup) (hv : ∀ q ∈ lm, 0 ≤ q.2 ∧ q.2 ≤ q.1) (area : ℝ) :
    ∃ s s', zdiCoeffs pl az (lm.map Prod.fst) (lm.map Prod.snd) fr fp fa (some area) = .ok s ∧
      zdiCoeffs pl az' (lm.map Prod.fst) (lm.map Prod.snd) fr fp fa (some area) = .ok s' ∧
      ∀ c l m, coefCol c s' l m = Complex.exp (-(Complex.I * m * δ)) * coefCol c s l m := by
  obtain ⟨s, f1, _, _, _, f5⟩ := zdiCoeffs_ok hf lm hne hnd hv (some area)
  obtain ⟨s', g1, _, _, _, g5⟩ := zdiCoeffs_ok hf' lm hne hnd hv (some area)
  refine ⟨s, s', f1, g1, fun c l m => ?_⟩
  have he : ∀ j < n, ∀ i < k, expi (-m) (entry az' j i) = Complex.exp (-(Complex.I * m * δ)) * expi (-m) (entry az j i) := by
    intro j hj i hi
    rw [ea j hj i hi, expi, expi, ← Complex.exp_add]
    congr 1; push_cast; ring
  have ha' : alphaSum n k (entry pl) (entry az') (entry fr) l m
      = Complex.exp (-(Complex.I * m * δ)) * alphaSum n k (entry pl) (entry az) (entry fr) l m := by
    simp only [alphaSum, ← gridSum_mul]
    refine gridSum_congr fun j hj i hi => ?_
    rw [he j hj i hi]; ring
  have hb' : betaSum n k (entry pl) (entry az') (entry fp) (entry fa) l m
      = Complex.exp (-(Complex.I * m * δ)) * betaSum n k (entry pl) (entry az) (entry fp) (entry fa) l m := by
    simp only [betaSum, ← gridSum_mul]
    refine gridSum_congr fun j hj i hi => ?_
    rw [he j hj i hi]; ring
  have hg' : gammaSum n k (entry pl) (entry az') (entry fp) (entry fa) l m
      = Complex.exp (-(Complex.I * m * δ)) * gammaSum n k (entry pl) (entry az) (entry fp) (entry fa) l m := by
    simp only [gammaSum, ← gridSum_mul]
    refine gridSum_congr fun j hj i hi => ?_
    rw [he j hj i hi]; ring
  simp only [coefCol, f5, g5, ha', hb', hg', Option.getD_some]
  split_ifs
  · rcases c with _ | _ | _ | c <;> simp <;> ring
  · rcases c with _ | _ | _ | c <;> simp

/-- **C66.** A negative maximum degree is refused. -/
theorem C66_no_pairs (pl az fr fp fa : List (List ℝ)) (area : Option ℝ) {L : ℤ} (h : L < 0) :
    latlonCoeffs pl az fr fp fa area L = .error .value ∧ latlonToZdi pl az fr fp fa area L = .error .value := by
  have e : positiveLm L = [] := by
    rw [positiveLm, pyRange, show (L + 1 - 0).toNat = 0 by omega]; rfl
  have h1 : latlonCoeffs pl az fr fp fa area L = .error .value := by rw [latlonCoeffs, e]; rfl
  exact ⟨h1, by rw [latlonToZdi, h1]; rfl⟩

/-- **C66.** Analysing a sampled field up to a degree stores exactly the pairs of nonnegative order up to that degree. -/
theorem C66_pairs {n k : ℕ} {pl az fr fp fa : List (List ℝ)} (h : Sampled n k pl az fr fp fa) (area : Option ℝ) (L : ℕ) :
    ∃ s, latlonCoeffs pl az fr fp fa area L = .ok s ∧ WellFormed s ∧ ZeroDefault s ∧
      ∀ l m : ℤ, stores s l m ↔ 0 ≤ m ∧ m ≤ l ∧ l ≤ L := by
  obtain ⟨hn, -, hm⟩ := C57_positive_lm L
  have hne : positiveLm (L : ℤ) ≠ [] := List.ne_nil_of_mem ((hm 0 0).2 ⟨le_rfl, le_rfl, by omega⟩)
  obtain ⟨s, h1, h2, h3, h4, -⟩ := zdiCoeffs_ok h _ hne hn (fun q hq => ⟨((hm q.1 q.2).1 hq).1, ((hm q.1 q.2).1 hq).2.1⟩) area
  refine ⟨s, ?_, h2, by rw [ZeroDefault, h3]; simp, fun l m => (h4 l m).trans (hm l m)⟩
  rw [latlonCoeffs, ← h1]
  simp [bind, Except.bind, hne]

/-- **C66.** Without an explicit degree, the pairs up to degree 5 are stored. -/
theorem C66_default_degree {n k : ℕ} {pl az fr fp fa : List (List ℝ)} (h : Sampled n k pl az fr fp fa) (area : Option ℝ) :
    ∃ s, latlonCoeffs pl az fr fp fa area = .ok s ∧ ∀ l m : ℤ, stores s l m ↔ 0 ≤ m ∧ m ≤ l ∧ l ≤ 5 := by
  obtain ⟨s, h1, -, -, h4⟩ := C66_pairs h area 5
  exact ⟨s, h1, h4⟩

/-- **C66.** The magnetogram made of a sampled field has one row for each of these pairs; without an explicit degree, up to
degree 5. -/
theorem C66_magnetogram {n k : ℕ} {pl az fr fp fa : List (List ℝ)} (h : Sampled n k pl az fr fp fa) (area : Option ℝ) (L : ℕ) :
    ∃ s z, latlonCoeffs pl az fr fp fa area L = .ok s ∧ latlonToZdi pl az fr fp fa area L = .ok z ∧
      (z.map fun r => (r.l, r.m)).Nodup ∧ (∀ l m : ℤ, (∃ r ∈ z, r.l = l ∧ r.m = m) ↔ 0 ≤ m ∧ m ≤ l ∧ l ≤ L) ∧
      ∀ r ∈ z, r.a = coefCol 0 s r.l r.m ∧ r.b = coefCol 1 s r.l r.m ∧ r.g = coefCol 2 s r.l r.m := by
  obtain ⟨hn, -, hm⟩ := C57_positive_lm L
  have hne : positiveLm (L : ℤ) ≠ [] := List.ne_nil_of_mem ((hm 0 0).2 ⟨le_rfl, le_rfl, by omega⟩)
  obtain ⟨s, h1, h2, h3, h4, -⟩ := zdiCoeffs_ok h _ hne hn (fun q hq => ⟨((hm q.1 q.2).1 hq).1, ((hm q.1 q.2).1 hq).2.1⟩) area
  have hs : latlonCoeffs pl az fr fp fa area L = .ok s := by
    rw [latlonCoeffs, ← h1]
    simp [bind, Except.bind, hne]
  have hz : ZdiSet s := ⟨h2, .inr (.inr (by rw [h3]; rfl)), 0, 0, (h4 0 0).2 ((hm 0 0).2 ⟨le_rfl, le_rfl, by omega⟩)⟩
  refine ⟨s, s.rowKeys.map (zrow s), hs, by rw [latlonToZdi, hs]; exact hz.fromCoefficients, ?_, fun l m => ?_, ?_⟩
  · rw [List.map_map]
    exact (List.map_congr_left fun k _ => rfl : _ = s.rowKeys.map id) ▸ by simpa using Coefs.rowKeys_nodup s
  · rw [← hm, ← h4, stores, has_int]
    constructor
    · rintro ⟨r, hr, rfl, rfl⟩
      obtain ⟨k, hk, rfl⟩ := List.mem_map.1 hr
      exact (mem_rowKeys hz.WF k).1 hk
    · intro hk
      exact ⟨_, List.mem_map.2 ⟨_, (mem_rowKeys hz.WF _).2 hk, rfl⟩, rfl, rfl⟩
  · intro r hr
    obtain ⟨k, hk, rfl⟩ := List.mem_map.1 hr
    exact ⟨rfl, rfl, rfl⟩

/-- **C66.** The same with the default degree. -/
theorem C66_default_magnetogram {n k : ℕ} {pl az fr fp fa : List (List ℝ)} (h : Sampled n k pl az fr fp fa) (area : Option ℝ) :
    ∃ z, latlonToZdi pl az fr fp fa area = .ok z ∧ ∀ l m : ℤ, (∃ r ∈ z, r.l = l ∧ r.m = m) ↔ 0 ≤ m ∧ m ≤ l ∧ l ≤ 5 := by
  obtain ⟨s, z, -, h1, -, h4, -⟩ := C66_magnetogram h area 5
  exact ⟨z, h1, h4⟩

/-- Non-vacuity of C66: a grid of two points. -/
example : Sampled 2 1 [[1], [1]] [[0], [3]] [[1], [2]] [[0], [1]] [[5], [-1]] :=
  ⟨by simp [HasShape], by simp [HasShape], by simp [HasShape], by simp [HasShape], by simp [HasShape], by omega, by omega,
    fun j hj i hi => by
      have : i = 0 := by omega
      subst this
      have h := Real.pi_gt_three
      have : j = 0 ∨ j = 1 := by omega
      rcases this with rfl | rfl <;> (simp [entry, OffAxis]; linarith)⟩

end Verif
