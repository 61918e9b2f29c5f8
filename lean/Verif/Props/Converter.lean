import Verif.Props.Linear
import Verif.Props.ContainerMore

/-!
# Properties C25 - C29: conversions between the ZDI and PFSS conventions
-/

namespace Verif
open Spec Legendre Coefs Converter

/-! ## C26 -/

private theorem polar_cos (x y : ℝ) : Real.sqrt (x ^ 2 + y ^ 2) * Real.cos (arctan2 y x) = x := by
  have := Complex.norm_mul_cos_arg ⟨x, y⟩
  rw [Complex.norm_eq_sqrt_sq_add_sq] at this
  exact this

private theorem polar_sin (x y : ℝ) : Real.sqrt (x ^ 2 + y ^ 2) * Real.sin (arctan2 y x) = y := by
  have := Complex.norm_mul_sin_arg ⟨x, y⟩
  rw [Complex.norm_eq_sqrt_sq_add_sq] at this
  exact this

/-- **C26.** `collect_cosines(r, α, s, β)` returns amplitude and phase of `r cos(x + α) + s cos(-x + β)`: the
amplitude is not negative and the phase is in (-π, π]. -/
theorem C26_cosines (r α s β : ℝ) :
    (∀ x, r * Real.cos (x + α) + s * Real.cos (-x + β)
      = (collectCosines r α s β).1 * Real.cos (x + (collectCosines r α s β).2)) ∧
    0 ≤ (collectCosines r α s β).1 ∧ (collectCosines r α s β).2 ∈ Set.Ioc (-Real.pi) Real.pi := by
  refine ⟨fun x => ?_, Real.sqrt_nonneg _, Complex.arg_mem_Ioc _⟩
  simp only [collectCosines]
  have h1 := polar_cos (r * Real.cos α + s * Real.cos β) (r * Real.sin α - s * Real.sin β)
  have h2 := polar_sin (r * Real.cos α + s * Real.cos β) (r * Real.sin α - s * Real.sin β)
  rw [Real.cos_add, Real.cos_add, Real.cos_add, Real.cos_neg, Real.sin_neg]
  linear_combination -Real.cos x * h1 + Real.sin x * h2

/-- **C26.** `collect_sines` likewise for `r sin(x + α) + s sin(-x + β)`. -/
theorem C26_sines (r α s β : ℝ) :
    (∀ x, r * Real.sin (x + α) + s * Real.sin (-x + β)
      = (collectSines r α s β).1 * Real.sin (x + (collectSines r α s β).2)) ∧
    0 ≤ (collectSines r α s β).1 ∧ (collectSines r α s β).2 ∈ Set.Ioc (-Real.pi) Real.pi := by
  refine ⟨fun x => ?_, Real.sqrt_nonneg _, Complex.arg_mem_Ioc _⟩
  simp only [collectSines]
  have h1 := polar_cos (r * Real.cos α - s * Real.cos β) (r * Real.sin α + s * Real.sin β)
  have h2 := polar_sin (r * Real.cos α - s * Real.cos β) (r * Real.sin α + s * Real.sin β)
  rw [Real.sin_add, Real.sin_add, Real.sin_add, Real.cos_neg, Real.sin_neg]
  linear_combination -Real.sin x * h1 - Real.cos x * h2

/-- Non-vacuity of C26: two unequal amplitudes. -/
example : (collectCosines 3 0 1 0).1 = 4 ∧ (collectSines 3 0 1 0).1 = 2 := by
  constructor
  · simp only [collectCosines, Real.cos_zero, Real.sin_zero]
    rw [show ((3 : ℝ) * 1 + 1 * 1) ^ 2 + (3 * 0 - 1 * 0) ^ 2 = 4 ^ 2 by norm_num, Real.sqrt_sq (by norm_num)]
  · simp only [collectSines, Real.cos_zero, Real.sin_zero]
    rw [show ((3 : ℝ) * 1 - 1 * 1) ^ 2 + (3 * 0 + 1 * 0) ^ 2 = 2 ^ 2 by norm_num, Real.sqrt_sq (by norm_num)]

/-! ## C25 -/

private theorem foldPair_eq (m : ℤ) (cp cn : ℂ) : foldPair m cp cn = cp + (-1) ^ m * (starRingEnd ℂ) cn := by
  have h1 := polar_cos (‖cp‖ * Real.cos cp.arg + (-1) ^ m * ‖cn‖ * Real.cos cn.arg)
    (‖cp‖ * Real.sin cp.arg - (-1) ^ m * ‖cn‖ * Real.sin cn.arg)
  have h2 := polar_sin (‖cp‖ * Real.cos cp.arg + (-1) ^ m * ‖cn‖ * Real.cos cn.arg)
    (‖cp‖ * Real.sin cp.arg - (-1) ^ m * ‖cn‖ * Real.sin cn.arg)
  have e : ((-1 : ℂ)) ^ m = (((-1 : ℝ) ^ m : ℝ) : ℂ) := by push_cast; rfl
  rw [e]
  apply Complex.ext
  · simp only [foldPair, cRect, collectCosines]
    rw [h1, mul_assoc, Complex.norm_mul_cos_arg, Complex.norm_mul_cos_arg, Complex.add_re, Complex.re_ofReal_mul,
      Complex.conj_re]
  · simp only [foldPair, cRect, collectCosines]
    rw [h2, mul_assoc, Complex.norm_mul_sin_arg, Complex.norm_mul_sin_arg, Complex.add_im, Complex.im_ofReal_mul,
      Complex.conj_im]
    ring

theorem sphY_eq {l m : ℤ} (h : |m| ≤ l) (θ φ : ℝ) :
    sphY l m θ φ = cLm l m * lpmv m l (Real.cos θ) * Zdi.expi m φ := by
  have := abs_le.1 h
  have f1 : spFactorial (l - m) = ((l - m).toNat.factorial : ℝ) := by rw [spFactorial, if_neg (by omega)]
  have f2 : spFactorial (l + m) = ((l + m).toNat.factorial : ℝ) := by rw [spFactorial, if_neg (by omega)]
  rw [sphY, cLm, f1, f2, lpmv, Zdi.expi, mul_div_assoc]
  push_cast
  ring

/-- **C25.** The radial field computed from a coefficient set is the textbook field
`Re Σ α_lm Y_lm`, for all orders. -/
theorem C25_radial_is_surfaceField (s : Coefs ℂ) (h : ZdiSet s) (z : Zdi) (hz : Zdi.fromCoefficients s = .ok z)
    (θ φ : ℝ) : Zdi.radial z θ φ = surfaceField s θ φ := by
  rw [h.eq_rows hz, Zdi.radial, Zdi.radialToroidal, Complex.zero_re, add_zero, Zdi.radialPoloidal, Zdi.sum_rows h,
    surfaceField]
  congr 1
  refine Finset.sum_congr rfl fun k hk => ?_
  have hb : |k.2| ≤ k.1 := h.WF.valid k (by rw [pairs_eq] at hk; exact List.mem_toFinset.1 hk)
  simp only [zrow]
  rw [sphY_eq hb, coef_eq_coefCol]
  ring

private theorem conj_expi' (m : ℤ) (φ : ℝ) : (starRingEnd ℂ) (Complex.exp (Complex.I * m * φ))
    = Complex.exp (Complex.I * ((-m : ℤ) : ℂ) * φ) := by
  rw [← Complex.exp_conj]
  congr 1
  simp

theorem sphY_neg {l m : ℤ} (h0 : 0 < m) (h1 : m ≤ l) (θ φ : ℝ) :
    sphY l (-m) θ φ = (-1) ^ m * (starRingEnd ℂ) (sphY l m θ φ) := by
  obtain ⟨n, rfl⟩ := Int.eq_ofNat_of_zero_le h0.le
  obtain ⟨k, rfl⟩ := Int.eq_ofNat_of_zero_le (h0.le.trans h1)
  have hnk : n ≤ k := by omega
  rw [sphY, sphY, map_mul, Complex.conj_ofReal, conj_expi', ← mul_assoc]
  congr 1
  have e : ((-1 : ℂ)) ^ (n : ℤ) = (((-1 : ℝ) ^ n : ℝ) : ℂ) := by push_cast; rw [zpow_natCast]
  rw [e, ← Complex.ofReal_mul]
  congr 1
  have t1 : ((k : ℤ) - -(n : ℤ)).toNat = k + n := by omega
  have t2 : ((k : ℤ) + -(n : ℤ)).toNat = k - n := by omega
  have t3 : ((k : ℤ) - (n : ℤ)).toNat = k - n := by omega
  have t4 : ((k : ℤ) + (n : ℤ)).toNat = k + n := by omega
  have t5 : ¬ ((k : ℤ) < |-(n : ℤ)|) := by rw [abs_neg, abs_of_nonneg (by omega)]; omega
  have t6 : ¬ ((k : ℤ) < |(n : ℤ)|) := by rw [abs_of_nonneg (by omega)]; omega
  rw [legendrePZ, legendrePZ, if_neg t5, if_neg t6, if_neg (by omega), if_pos (by omega), t1, t2, t3, t4]
  simp only [Int.toNat_natCast, Int.natAbs_neg, Int.natAbs_natCast]
  set P := legendreP k n (Real.cos θ)
  have hq : (0 : ℝ) < (k - n).factorial / (k + n).factorial := by positivity
  have e1 : ((k + n).factorial : ℝ) / (k - n).factorial = (((k - n).factorial : ℝ) / (k + n).factorial)⁻¹ := by
    rw [inv_div]
  rw [e1, mul_div_assoc]
  set q : ℝ := ((k - n).factorial : ℝ) / (k + n).factorial
  have hA : (0 : ℝ) ≤ (2 * ((k : ℤ) : ℝ) + 1) / (4 * Real.pi) := by positivity
  rw [Real.sqrt_mul hA, Real.sqrt_mul hA, Real.sqrt_inv]
  have hs : Real.sqrt q * Real.sqrt q = q := Real.mul_self_sqrt hq.le
  have hs0 : Real.sqrt q ≠ 0 := (Real.sqrt_pos.2 hq).ne'
  have : (Real.sqrt q)⁻¹ * q = Real.sqrt q := by
    field_simp; linarith [sq (Real.sqrt q)]
  linear_combination (Real.sqrt ((2 * ((k : ℤ) : ℝ) + 1) / (4 * Real.pi)) * (-1) ^ n * P) * this

/-- All pairs up to degree `L`. -/
private noncomputable def allPairs (L : ℤ) : Finset (ℤ × ℤ) :=
  ((Finset.Icc 0 L) ×ˢ (Finset.Icc (-L) L)).filter fun k => |k.2| ≤ k.1

private theorem mem_allPairs {L : ℤ} {k : ℤ × ℤ} : k ∈ allPairs L ↔ |k.2| ≤ k.1 ∧ k.1 ≤ L := by
  rw [allPairs, Finset.mem_filter, Finset.mem_product, Finset.mem_Icc, Finset.mem_Icc]
  constructor
  · rintro ⟨⟨h1, _⟩, h2⟩; exact ⟨h2, h1.2⟩
  · rintro ⟨h1, h2⟩
    have h3 := abs_le.1 h1
    have h4 := abs_nonneg k.2
    refine ⟨⟨⟨by omega, h2⟩, by omega, by omega⟩, h1⟩

private theorem sum_fold (L : ℤ) (F : ℤ × ℤ → ℝ) :
    ∑ k ∈ allPairs L, F k = ∑ k ∈ (allPairs L).filter (fun k => 0 ≤ k.2),
      (F k + if k.2 = 0 then 0 else F (k.1, -k.2)) := by
  rw [← Finset.sum_filter_add_sum_filter_not (allPairs L) (fun k => 0 ≤ k.2), Finset.sum_add_distrib]
  congr 1
  have e : ∀ k : ℤ × ℤ, (if k.2 = 0 then 0 else F (k.1, -k.2)) = if ¬ k.2 = 0 then F (k.1, -k.2) else 0 := by
    intro k; split_ifs <;> rfl
  rw [Finset.sum_congr rfl fun k _ => e k, ← Finset.sum_filter]
  refine Finset.sum_nbij' (fun k => (k.1, -k.2)) (fun k => (k.1, -k.2)) ?_ ?_ ?_ ?_ ?_
  · intro k hk
    simp only [Finset.mem_filter, mem_allPairs, abs_neg] at hk ⊢
    refine ⟨⟨hk.1, by omega⟩, by omega⟩
  · intro k hk
    simp only [Finset.mem_filter, mem_allPairs, abs_neg] at hk ⊢
    refine ⟨hk.1.1, by omega⟩
  · intro k _; simp
  · intro k _; simp
  · intro k _; simp

private theorem mem_foldKeys {L : ℤ} {k : Key} : k ∈ foldKeys L ↔ 0 ≤ k.2 ∧ k.2 ≤ k.1 ∧ k.1 ≤ L := by
  obtain ⟨l, m⟩ := k
  simp only [foldKeys, List.mem_flatMap, mem_pyRange, List.mem_cons, List.mem_map, Prod.mk.injEq]
  constructor
  · rintro ⟨l', h, (⟨rfl, rfl⟩ | ⟨m', hm, rfl, rfl⟩)⟩ <;> omega
  · rintro ⟨h1, h2, h3⟩
    refine ⟨l, ⟨by omega, by omega⟩, ?_⟩
    by_cases h : m = 0
    · exact Or.inl ⟨rfl, h⟩
    · exact Or.inr ⟨m, ⟨by omega, by omega⟩, rfl, rfl⟩

private theorem foldKeys_nodup (L : ℤ) : (foldKeys L).Nodup := by
  rw [foldKeys, List.nodup_flatMap]
  refine ⟨fun l _ => ?_, ?_⟩
  · rw [List.nodup_cons]
    refine ⟨?_, (pyRange_nodup _ _).map fun a b h => by simpa using h⟩
    simp only [List.mem_map, mem_pyRange, Prod.mk.injEq]
    rintro ⟨m, h, _, rfl⟩; omega
  · refine (pyRange_nodup 0 (L + 1)).imp fun {a b} h => ?_
    rw [Function.onFun, List.disjoint_left]
    intro k h1 h2
    have e1 : k.1 = a := by
      simp only [List.mem_cons, List.mem_map] at h1
      rcases h1 with rfl | ⟨m, _, rfl⟩ <;> rfl
    have e2 : k.1 = b := by
      simp only [List.mem_cons, List.mem_map] at h2
      rcases h2 with rfl | ⟨m, _, rfl⟩ <;> rfl
    exact h (e1.symm.trans e2)

/-- The folded value. -/
private noncomputable def folded (s : Coefs ℂ) (k : Key) : ℂ :=
  if k.2 = 0 then coef s k.1 k.2 else coef s k.1 k.2 + (-1) ^ k.2 * (starRingEnd ℂ) (coef s k.1 (-k.2))

private theorem getI_single {s : Coefs ℂ} (hw : s.WF) (h1 : s.dflt.length = 1) (k : Key) :
    s.getI k = [coef s k.1 k.2] := by
  have hl := hw.getI_length k
  rw [h1] at hl
  obtain ⟨c, hc⟩ := List.length_eq_one_iff.1 hl
  rw [coef, valueAt_eq, hc]; rfl

private theorem cast_conj {d : DType} (hd : d = .real ∨ d = .cplx) {x : ℂ} (hx : Elem.cast d x = x) :
    Elem.cast d ((starRingEnd ℂ) x) = (starRingEnd ℂ) x := by
  rcases hd with rfl | rfl
  · obtain ⟨r, rfl⟩ := (castC_real_iff x).1 hx
    rw [Complex.conj_ofReal]; exact cast_real_complex r
  · rfl

private theorem cast_sign {d : DType} (hd : d = .real ∨ d = .cplx) (m : ℤ) :
    Elem.cast d ((-1 : ℂ) ^ m) = (-1) ^ m := by
  rcases hd with rfl | rfl
  · rw [show ((-1 : ℂ)) ^ m = (((-1 : ℝ) ^ m : ℝ) : ℂ) by push_cast; rfl]; exact cast_real_complex _
  · rfl

private theorem reach_appendAll {s t : Coefs ℂ} (rows : List (Idx × Idx × List ℂ)) (hs : Reach s)
    (h : appendAll s rows = .ok t) : Reach t := by
  induction rows generalizing s with
  | nil => simp only [appendAll, Except.ok.injEq] at h; exact h ▸ hs
  | cons r rows ih =>
    obtain ⟨l, m, v⟩ := r
    rw [appendAll] at h
    rcases ha : append l m v s with ⟨⟨⟩, s'⟩ | ⟨e, s'⟩
    · rw [ha] at h; exact ih (Reach.append l m v hs ha) h
    · rw [ha] at h; exact absurd h (by simp)

/-- What folding returns. -/
theorem Converter.fold_spec {d : DType} (hd : d = .real ∨ d = .cplx) {s : Coefs ℂ} (h : Operand d 1 s) :
    ∃ t, mapToPositiveOrders s = .ok t ∧ Operand d 1 t ∧
      (∀ l m, stores t l m ↔ 0 ≤ m ∧ m ≤ l ∧ l ≤ s.degreeMax) ∧
      ∀ l m : ℤ, 0 ≤ m → m ≤ l → l ≤ s.degreeMax → coef t l m = if m = 0 then coef s l m
        else coef s l m + (-1) ^ m * (starRingEnd ℂ) (coef s l (-m)) := by
  have hw := h.reach.WF
  have hI := getI_single hw h.cols
  have hrows : (foldKeys s.degreeMax).mapM (foldRow s)
      = .ok ((foldKeys s.degreeMax).map fun k => intRow k [folded s k]) := by
    apply mapM_pure_ok
    intro k _
    rw [foldRow, folded]
    by_cases h0 : k.2 = 0
    · rw [if_pos h0, if_pos h0, hI]
    · rw [if_neg h0, if_neg h0, hI, hI]
      simp only [foldPair_eq]
  obtain ⟨t, e, w, k, df, dt, g⟩ := build_ok s.dflt s.dtype hw.dfltTyped (foldKeys s.degreeMax)
    (fun k => [folded s k]) (foldKeys_nodup _)
    (fun k hk => by
      have := mem_foldKeys.1 hk
      rw [abs_of_nonneg this.1]; exact this.2.1)
    (fun k _ => by rw [h.cols]; rfl)
  have em : mapToPositiveOrders s = .ok t := by
    rw [mapToPositiveOrders, hrows]; exact e
  have hst : ∀ l m, stores t l m ↔ 0 ≤ m ∧ m ≤ l ∧ l ≤ s.degreeMax := by
    intro l m; rw [stores, has_int, k, mem_foldKeys]
  have ot : Operand d 1 t := ⟨reach_appendAll _ (Reach.emptyLike h.reach) e, fun x hx => h.zero x (df ▸ hx),
    dt.trans h.dtype, by rw [df, h.cols]⟩
  have hcast : ∀ l m, Elem.cast d (coef s l m) = coef s l m := by
    intro l m
    refine h.typed l m _ ?_
    rw [show valueAt s l m = [coef s l m] from hI (l, m)]; simp
  have hval : ∀ k ∈ foldKeys s.degreeMax, coef t k.1 k.2 = folded s k := by
    intro k hk
    rw [coef, valueAt_eq, g, if_pos hk, h.dtype]
    simp only [List.map_cons, List.map_nil, List.headD_cons, folded]
    split_ifs
    · exact hcast _ _
    · have hb : d ≠ .bool := by rcases hd with rfl | rfl <;> decide
      exact ElemRing.cast_add d _ _ hb (hcast _ _)
        (ElemRing.cast_mul d _ _ (cast_sign hd _) (cast_conj hd (hcast _ _)))
  exact ⟨t, em, ot, hst, fun l m h0 h1 h2 => hval (l, m) (mem_foldKeys.2 ⟨h0, h1, h2⟩)⟩

/-- **C25.** `map_to_positive_orders` stores exactly the pairs `0 ≤ m ≤ l ≤ degree_max`; the radial field does not
change. -/
theorem C25_fold (d : DType) (hd : d = .real ∨ d = .cplx) (s : Coefs ℂ) (h : Operand d 1 s) :
    ∃ t, mapToPositiveOrders s = .ok t ∧ Operand d 1 t ∧
      (∀ l m, stores t l m ↔ 0 ≤ m ∧ m ≤ l ∧ l ≤ s.degreeMax) ∧
      ∀ θ φ, surfaceField t θ φ = surfaceField s θ φ := by
  obtain ⟨t, em, ot, hst, hv⟩ := fold_spec hd h
  have hw := h.reach.WF
  refine ⟨t, em, ot, hst, fun θ φ => ?_⟩
  have hval : ∀ k ∈ foldKeys s.degreeMax, coef t k.1 k.2 = folded s k := by
    intro k hk
    have := mem_foldKeys.1 hk
    exact hv _ _ this.1 this.2.1 this.2.2
  have hpt : pairs t = (allPairs s.degreeMax).filter (fun k => 0 ≤ k.2) := by
    ext k
    rw [mem_pairs, hst, Finset.mem_filter, mem_allPairs]
    constructor
    · rintro ⟨h1, h2, h3⟩; exact ⟨⟨by rw [abs_of_nonneg h1]; exact h2, h3⟩, h1⟩
    · rintro ⟨⟨h1, h2⟩, h3⟩; rw [abs_of_nonneg h3] at h1; exact ⟨h3, h1, h2⟩
  have hps : pairs s ⊆ allPairs s.degreeMax := by
    intro k hk
    rw [pairs_eq, List.mem_toFinset] at hk
    exact mem_allPairs.2 ⟨hw.valid k hk, hw.degUpper k hk⟩
  rw [surfaceField, surfaceField, Complex.re_sum, Complex.re_sum]
  have e2 := sum_pairs_extend hw h.zero 0 hps (fun k c => (c * sphY k.1 k.2 θ φ).re) (by simp)
  simp only [← coef_eq_coefCol] at e2
  rw [e2, sum_fold, hpt]
  refine Finset.sum_congr rfl fun k hk => ?_
  have hk' := hk
  rw [Finset.mem_filter, mem_allPairs] at hk'
  have hkl : k.2 ≤ k.1 := by have := hk'.1.1; rwa [abs_of_nonneg hk'.2] at this
  rw [hval k (mem_foldKeys.2 ⟨hk'.2, hkl, hk'.1.2⟩), folded]
  split_ifs with h0
  · rw [add_zero]
  · rw [sphY_neg (by omega) hkl, add_mul, Complex.add_re]
    congr 1
    have ez : ((-1 : ℂ)) ^ k.2 = (((-1 : ℝ) ^ k.2 : ℝ) : ℂ) := by push_cast; rfl
    rw [ez]
    simp only [Complex.mul_re, Complex.mul_im, Complex.conj_re, Complex.conj_im, Complex.ofReal_re,
      Complex.ofReal_im]
    ring

end Verif
