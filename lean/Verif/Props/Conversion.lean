import Verif.Props.Converter
import Verif.Props.Pfss

/-!
# Properties C27 - C29: conversion between the ZDI and PFSS conventions
-/

namespace Verif
open Spec Legendre Coefs Converter

/-! ## The conversion factor -/

private theorem sign_emod (m : ℤ) : ((-1 : ℝ)) ^ (m % 2) = (-1) ^ m := by
  conv_rhs => rw [← Int.emod_add_mul_ediv m 2]
  rw [zpow_add₀ (by norm_num), zpow_mul]
  norm_num

private theorem two_delta_pos (m : ℤ) : (0 : ℝ) < 2 - if m = 0 then 1 else 0 := by split_ifs <;> norm_num

theorem forwardFactor_ne {l : ℤ} (h : 0 ≤ l) (m : ℤ) : forwardFactor l m ≠ 0 := by
  have : (0 : ℝ) ≤ l := by exact_mod_cast h
  have h1 : (0 : ℝ) < Real.sqrt (2 * l + 1) := Real.sqrt_pos.2 (by linarith)
  have h2 : (0 : ℝ) < Real.sqrt (4 * Real.pi) := Real.sqrt_pos.2 (by positivity)
  have h3 : (0 : ℝ) < Real.sqrt (-(if m = 0 then 1 else 0) + 2) :=
    Real.sqrt_pos.2 (by have := two_delta_pos m; linarith)
  have h4 : ((-1 : ℝ)) ^ (m % 2) ≠ 0 := zpow_ne_zero _ (by norm_num)
  rw [forwardFactor]
  exact div_ne_zero h1.ne' (mul_ne_zero (mul_ne_zero h4 h3.ne') h2.ne')

/-- The factor relates the two normalisations. -/
private theorem cLm_eq {l m : ℤ} (h0 : 0 ≤ m) (h1 : m ≤ l) : cLm l m = forwardFactor l m * Pfss.thetaScale l m := by
  have hl : (0 : ℝ) ≤ l := by exact_mod_cast h0.trans h1
  have h2 : (0 : ℝ) < Real.sqrt (4 * Real.pi) := Real.sqrt_pos.2 (by positivity)
  have h3 := Real.sqrt_pos.2 (two_delta_pos m)
  have h4 : ((-1 : ℝ)) ^ m ≠ 0 := zpow_ne_zero _ (by norm_num)
  rw [cLm, forwardFactor, Pfss.thetaScale, sign_emod, mul_div_assoc, Real.sqrt_mul (by positivity),
    Real.sqrt_div (by positivity), show (-(if m = 0 then (1 : ℝ) else 0) + 2) = 2 - if m = 0 then 1 else 0 by ring]
  field_simp

private theorem cast_ofReal {d : DType} (hd : d = .real ∨ d = .cplx) (x : ℝ) : Elem.cast d (x : ℂ) = x := by
  rcases hd with rfl | rfl
  · exact cast_real_complex x
  · rfl

private theorem promote_real {d : DType} (hd : d = .real ∨ d = .cplx) : DType.promote .real d = d := by
  rcases hd with rfl | rfl <;> rfl

private theorem stores_nonneg {d : DType} {n : ℕ} {s : Coefs ℂ} (h : Operand d n s) {l m : ℤ} (hk : stores s l m) :
    0 ≤ l := le_trans (abs_nonneg m) (h.reach.WF.valid (l, m) ((has_int s l m).1 hk))

private theorem valueAt_single {d : DType} {s : Coefs ℂ} (h : Operand d 1 s) (l m : ℤ) :
    valueAt s l m = [coef s l m] := by
  obtain ⟨c, hc⟩ := List.length_eq_one_iff.1 (h.len l m)
  rw [coef, hc]; rfl

private theorem scale_real {d : DType} (hd : d = .real ∨ d = .cplx) {n : ℕ} {s : Coefs ℂ} (h : Operand d n s)
    (f : ℤ → ℤ → ℝ) (p : ℤ) : ∃ t, s.scale (fun l m => (f l m : ℂ)) p = .ok t ∧ Operand d n t ∧
      Holds t (stores s) (fun l m => (valueAt s l m).map (· * (f l m : ℂ) ^ p)) :=
  C12_scale_pointwise h _ p .real (promote_real hd) fun l m _ => by
    rw [← Complex.ofReal_zpow]; exact cast_ofReal hd _

private theorem zdiToPfss_spec {d : DType} (hd : d = .real ∨ d = .cplx) {n : ℕ} {s : Coefs ℂ} (h : Operand d n s) :
    ∃ t, zdiToPfss s = .ok t ∧ Operand d n t ∧
      Holds t (stores s) (fun l m => (valueAt s l m).map (· * (forwardFactor l m : ℂ) ^ (1 : ℤ))) :=
  scale_real hd h forwardFactor 1

/-- The columns of the converted set. -/
private theorem pfssToZdi_spec {d : DType} (hd : d = .real ∨ d = .cplx) {s : Coefs ℂ} (h : Operand d 1 s)
    {ks : List Key} (hk : IsSetIter ks s.keys) :
    ∃ u, Operand d 3 u ∧ pfssToZdi ks s = .ok u ∧
      Holds u (stores s) (fun l m => [coef s l m * (forwardFactor l m : ℂ) ^ (-1 : ℤ),
        coef s l m * (forwardFactor l m : ℂ) ^ (-1 : ℤ) * betaFactor l m, 0]) := by
  obtain ⟨α, e1, o1, h1⟩ := scale_real hd h forwardFactor (-1)
  obtain ⟨β, e2, o2, h2⟩ := scale_real hd o1 betaFactor 1
  obtain ⟨γ, e3, w3, k3, d3, t3, g3⟩ := zerosLike_spec o1.reach.WF
  have o3 : Operand d 1 γ := ⟨Reach.zerosLike o1.reach e3, fun x hx => o1.zero x (d3 ▸ hx), t3.trans o1.dtype,
    by rw [d3, o1.cols]⟩
  have ha : Holds α (stores s) (fun l m => [coef s l m * (forwardFactor l m : ℂ) ^ (-1 : ℤ)]) :=
    ⟨h1.has, fun l m => by rw [h1.val, valueAt_single h]; rfl⟩
  have hb : Holds β (stores s) (fun l m => [coef s l m * (forwardFactor l m : ℂ) ^ (-1 : ℤ) * betaFactor l m]) :=
    ⟨fun l m => (h2.has l m).trans (ha.has l m), fun l m => by rw [h2.val, ha.val]; simp⟩
  have hg : Holds γ (stores s) (fun _ _ => [0]) :=
    ⟨fun l m => by
      rw [← ha.has, stores, stores, has_int, has_int, k3, mem_sortKeys],
     fun l m => by rw [valueAt_eq, g3, o1.dflt_eq]; rfl⟩
  have hmem : ∀ t : Coefs ℂ, Holds t (stores s) (fun l m => valueAt t l m) → ∀ k, k ∈ t.keys ↔ k ∈ s.keys := by
    intro t ht k
    have := ht.has k.1 k.2
    rwa [stores, stores, has_int, has_int] at this
  have ma := hmem α ⟨ha.has, fun _ _ => rfl⟩
  have mb := hmem β ⟨hb.has, fun _ _ => rfl⟩
  have mg := hmem γ ⟨hg.has, fun _ _ => rfl⟩
  have hk' : IsSetIter ks ([α, β, γ].flatMap Coefs.keys) := by
    refine ⟨hk.1, fun k => ?_⟩
    rw [hk.2]
    simp [ma, mb, mg]
  have hw : ∀ t ∈ [α, β, γ], t.WF := by
    intro t ht
    simp only [List.mem_cons, List.not_mem_nil, or_false] at ht
    rcases ht with rfl | rfl | rfl
    exacts [o1.reach.WF, o2.reach.WF, o3.reach.WF]
  obtain ⟨u, eu, wu, ku, du, tu, gu⟩ := hstack_spec hw hk'
  have ou : Operand d 3 u := by
    refine ⟨Reach.hstack ks [α, β, γ] ?_ hk' eu, ?_, ?_, ?_⟩
    · intro t ht
      simp only [List.mem_cons, List.not_mem_nil, or_false] at ht
      rcases ht with rfl | rfl | rfl
      exacts [o1.reach, o2.reach, o3.reach]
    · intro x hx
      rw [du] at hx
      simp only [List.flatMap_cons, List.flatMap_nil, List.append_nil, List.mem_append] at hx
      rcases hx with hx | hx | hx
      exacts [o1.zero x hx, o2.zero x hx, o3.zero x hx]
    · rw [tu]
      simp only [List.foldl_cons, List.foldl_nil, o1.dtype, o2.dtype, o3.dtype]
      rcases hd with rfl | rfl <;> rfl
    · rw [du]; simp [o1.cols, o2.cols, o3.cols]
  refine ⟨u, ou, ?_, ?_, ?_⟩
  · rw [pfssToZdi, e1]
    simp only [bind, Except.bind]
    rw [e2]
    simp only [e3, eu]
  · intro l m
    rw [stores, has_int, ku, hk.2, stores, has_int]
  · intro l m
    have := gu (l, m)
    rw [← valueAt_eq] at this
    rw [this]
    simp only [List.flatMap_cons, List.flatMap_nil, List.append_nil, ← valueAt_eq, ha.val, hb.val, hg.val]
    rfl

/-- Splitting a set of three columns. -/
theorem Converter.split3 {d : DType} {u : Coefs ℂ} (h : Operand d 3 u) {P : ℤ → ℤ → Prop} {x y z : ℤ → ℤ → ℂ}
    (hu : Holds u P (fun l m => [x l m, y l m, z l m])) :
    ∃ a b g, hsplit u = .ok [a, b, g] ∧ Operand d 1 a ∧ Operand d 1 b ∧ Operand d 1 g ∧
      Holds a P (fun l m => [x l m]) ∧ Holds b P (fun l m => [y l m]) ∧ Holds g P (fun l m => [z l m]) := by
  obtain ⟨T, e, hT⟩ := hsplit_spec h.reach.WF 3 (by norm_num) (by rw [h.cols])
  have e' : hsplit u = .ok [T 0, T 1, T 2] := by
    rw [hsplit, Option.getD_none, h.cols]
    exact e
  have op : ∀ i < 3, Operand d 1 (T i) := by
    intro i hi
    obtain ⟨w, k, df, dt, g⟩ := hT i hi
    refine ⟨Reach.hsplit _ _ h.reach e (List.mem_map.2 ⟨i, List.mem_range.2 hi, rfl⟩), ?_, dt.trans h.dtype, ?_⟩
    · intro v hv
      rw [df, sect] at hv
      exact h.zero v (List.mem_of_mem_drop (List.mem_of_mem_take hv))
    · rw [df, sect, h.cols, List.length_take, List.length_drop, h.cols]; omega
  have hs : ∀ i < 3, ∀ l m, stores (T i) l m ↔ P l m := by
    intro i hi l m
    obtain ⟨w, k, df, dt, g⟩ := hT i hi
    rw [← hu.has, stores, stores, has_int, has_int, k, mem_sortKeys]
  have hv : ∀ i < 3, ∀ l m, valueAt (T i) l m = sect [x l m, y l m, z l m] 3 i := by
    intro i hi l m
    obtain ⟨w, k, df, dt, g⟩ := hT i hi
    rw [valueAt_eq, g, ← valueAt_eq, hu.val]
  exact ⟨T 0, T 1, T 2, e', op 0 (by norm_num), op 1 (by norm_num), op 2 (by norm_num),
    ⟨hs 0 (by norm_num), fun l m => (hv 0 (by norm_num) l m).trans (by simp [sect])⟩, ⟨hs 1 (by norm_num), fun l m => (hv 1 (by norm_num) l m).trans (by simp [sect])⟩,
    ⟨hs 2 (by norm_num), fun l m => (hv 2 (by norm_num) l m).trans (by simp [sect])⟩⟩

/-! ## C27 -/

/-- **C27.** `convert_pfss_to_zdi` gives three columns on the same pairs, the third zero; converting the first
column back with `convert_zdi_to_pfss` gives the original set. -/
theorem C27_pfss_zdi_pfss (d : DType) (hd : d = .real ∨ d = .cplx) (t : Coefs ℂ) (h : Operand d 1 t) (ks : List Key)
    (hk : IsSetIter ks t.keys) :
    ∃ u a b g t', pfssToZdi ks t = .ok u ∧ hsplit u = .ok [a, b, g] ∧ (∀ l m, stores u l m ↔ stores t l m) ∧
      (∀ l m, valueAt g l m = [0]) ∧ zdiToPfss a = .ok t' ∧ Same t' t := by
  obtain ⟨u, ou, eu, hu⟩ := pfssToZdi_spec hd h hk
  obtain ⟨a, b, g, es, oa, ob, og, ha, hb, hg⟩ := split3 ou hu
  obtain ⟨t', et, ot, ht⟩ := zdiToPfss_spec hd oa
  refine ⟨u, a, b, g, t', eu, es, hu.has, hg.val, et, ot.same (n := 1) h (P := stores t) (v := valueAt t) ⟨?_, ?_⟩
    ⟨fun _ _ => Iff.rfl, fun _ _ => rfl⟩⟩
  · intro l m; rw [ht.has, ha.has]
  · intro l m
    rw [ht.val, ha.val, valueAt_single h]
    by_cases hs : stores t l m
    · have : (forwardFactor l m : ℂ) ≠ 0 := by
        exact_mod_cast forwardFactor_ne (stores_nonneg h hs) m
      simp [this]
    · have := h.unset hs
      rw [valueAt_single h, List.replicate_one, List.cons.injEq] at this
      simp [this.1]

/-- **C27.** `convert_zdi_to_pfss` keeps the pairs; converting back with `convert_pfss_to_zdi` gives the original
set as first column. -/
theorem C27_zdi_pfss_zdi (d : DType) (hd : d = .real ∨ d = .cplx) (s : Coefs ℂ) (h : Operand d 1 s) :
    ∃ t, zdiToPfss s = .ok t ∧ (∀ l m, stores t l m ↔ stores s l m) ∧ ∀ ks, IsSetIter ks t.keys →
      ∃ u a b g, pfssToZdi ks t = .ok u ∧ hsplit u = .ok [a, b, g] ∧ Same a s ∧ ∀ l m, valueAt g l m = [0] := by
  obtain ⟨t, et, ot, ht⟩ := zdiToPfss_spec hd h
  refine ⟨t, et, ht.has, fun ks hk => ?_⟩
  obtain ⟨u, ou, eu, hu⟩ := pfssToZdi_spec hd ot hk
  obtain ⟨a, b, g, es, oa, ob, og, ha, hb, hg⟩ := split3 ou hu
  refine ⟨u, a, b, g, eu, es, oa.same (n := 1) h (P := stores s) (v := valueAt s) ⟨?_, ?_⟩
    ⟨fun _ _ => Iff.rfl, fun _ _ => rfl⟩, hg.val⟩
  · intro l m; rw [ha.has, ht.has]
  · intro l m
    have hc : coef t l m = coef s l m * (forwardFactor l m : ℂ) := by
      rw [coef, ht.val, valueAt_single h]; simp
    rw [ha.val, hc, valueAt_single h]
    by_cases hs : stores s l m
    · have : (forwardFactor l m : ℂ) ≠ 0 := by
        exact_mod_cast forwardFactor_ne (stores_nonneg h hs) m
      simp [this]
    · have := h.unset hs
      rw [valueAt_single h, List.replicate_one, List.cons.injEq] at this
      simp [this.1]

/-! ## C28 -/

private theorem radialSet_of {d : DType} {s t : Coefs ℂ} (h : RadialSet s) (ot : Operand d 1 t)
    (hs : ∀ l m, stores t l m ↔ stores s l m) : RadialSet t := by
  obtain ⟨l, m, hlm⟩ := h.nonempty
  exact ⟨wellFormed_of_WF ot.reach.WF, ot.cols, ⟨l, m, (hs l m).2 hlm⟩, fun l m hm => h.orders l m ((hs l m).1 hm)⟩

private theorem pairs_congr {s t : Coefs ℂ} (hs : ∀ l m, stores t l m ↔ stores s l m) : pairs t = pairs s := by
  ext k; rw [mem_pairs, mem_pairs, hs]

private theorem RadialSet.zdiSet {s : Coefs ℂ} (h : RadialSet s) : ZdiSet s := ⟨h.wf, Or.inl h.single, h.nonempty⟩

/-- Real part of a coefficient times the mirrored exponential. -/
private theorem re_expi (c : ℂ) (m : ℤ) (φ : ℝ) :
    (c * Zdi.expi m (-φ)).re = (Pfss.phiLm m c.re c.im φ).1 ∧
    (Complex.I * m * c * Zdi.expi m (-φ)).re = -(Pfss.phiLm m c.re c.im φ).2 := by
  have e : Zdi.expi m (-φ) = ⟨Real.cos (m * φ), -Real.sin (m * φ)⟩ := by
    rw [Zdi.expi, show Complex.I * (m : ℂ) * ((-φ : ℝ) : ℂ) = ((-(m * φ) : ℝ) : ℂ) * Complex.I by push_cast; ring]
    apply Complex.ext
    · rw [Complex.exp_ofReal_mul_I_re, Real.cos_neg]
    · rw [Complex.exp_ofReal_mul_I_im, Real.sin_neg]
  rw [e]
  constructor
  · simp only [Complex.mul_re, Pfss.phiLm]; ring
  · simp only [Complex.mul_re, Complex.mul_im, Complex.I_re, Complex.I_im, Complex.intCast_re, Complex.intCast_im,
      Pfss.phiLm]
    ring

/-- **C28.** At the stellar surface the PFSS radial field of `convert_zdi_to_pfss(s)` at (polar, azimuth) is the ZDI
radial field of `s` at (polar, -azimuth), for every stellar and source surface radius. -/
theorem C28_surface (d : DType) (hd : d = .real ∨ d = .cplx) (s : Coefs ℂ) (h : Operand d 1 s) (hr : RadialSet s)
    (r0 rss : ℝ) (h0 : 0 < r0) (h1 : r0 < rss) (θ φ : ℝ) :
    ∃ t z bp ba, zdiToPfss s = .ok t ∧ Zdi.fromCoefficients s = .ok z ∧
      Pfss.evalSpherical t r0 θ φ r0 rss = .ok (Zdi.radial z θ (-φ), bp, ba) := by
  obtain ⟨t, et, ot, ht⟩ := zdiToPfss_spec hd h
  have hz := RadialSet.zdiSet hr
  obtain ⟨bp, ba, e⟩ := C30_surface t (radialSet_of hr ot ht.has) r0 rss h0 h1 θ φ
  refine ⟨t, _, bp, ba, et, hz.fromCoefficients, ?_⟩
  rw [e]
  congr 2
  rw [Zdi.radial, Zdi.radialToroidal, Complex.zero_re, add_zero, Zdi.radialPoloidal, Zdi.sum_rows hz, Complex.re_sum,
    pairs_congr ht.has]
  refine Finset.sum_congr rfl fun k hk => ?_
  have hb := hr.bounds (k := k) (by rw [pairs_eq] at hk; exact List.mem_toFinset.1 hk)
  have hc : coef t k.1 k.2 = coef s k.1 k.2 * (forwardFactor k.1 k.2 : ℂ) := by
    rw [coef, ht.val, valueAt_single h]; simp
  simp only [zrow, ← coef_eq_coefCol]
  rw [Pfss.schmidt_eq hb.1 hb.2, Pfss.tv, ← lpmv_nonneg hb.1 hb.2, cLm_eq hb.1 hb.2, hc,
    show coef s k.1 k.2 * ((forwardFactor k.1 k.2 * Pfss.thetaScale k.1 k.2 : ℝ) : ℂ)
      * (lpmv k.2 k.1 (Real.cos θ) : ℂ) * Zdi.expi k.2 (-φ)
      = ((forwardFactor k.1 k.2 * Pfss.thetaScale k.1 k.2 * lpmv k.2 k.1 (Real.cos θ) : ℝ) : ℂ)
        * (coef s k.1 k.2 * Zdi.expi k.2 (-φ)) by push_cast; ring,
    Complex.re_ofReal_mul, (re_expi _ _ _).1, Complex.re_mul_ofReal, Complex.im_mul_ofReal, Pfss.phiLm]
  ring

/-- The converted set, pair by pair: each angular function is that of the original at the mirrored azimuth. -/
theorem Converter.converted {d : DType} (hd : d = .real ∨ d = .cplx) {s : Coefs ℂ} (h : Operand d 1 s)
    (hr : RadialSet s) : ∃ t, zdiToPfss s = .ok t ∧ Operand d 1 t ∧ RadialSet t ∧ pairs t = pairs s ∧
      ∀ k ∈ pairs s, ∀ θ φ, Pfss.tv θ k * (Pfss.phiLm k.2 (coef t k.1 k.2).re (coef t k.1 k.2).im φ).1
        = (coef s k.1 k.2 * sphY k.1 k.2 θ (-φ)).re := by
  obtain ⟨t, et, ot, ht⟩ := zdiToPfss_spec hd h
  refine ⟨t, et, ot, radialSet_of hr ot ht.has, pairs_congr ht.has, fun k hk θ φ => ?_⟩
  have hb := hr.bounds (k := k) (by rw [pairs_eq] at hk; exact List.mem_toFinset.1 hk)
  have hc : coef t k.1 k.2 = coef s k.1 k.2 * (forwardFactor k.1 k.2 : ℂ) := by
    rw [coef, ht.val, valueAt_single h]; simp
  rw [sphY_eq (by rw [abs_of_nonneg hb.1]; exact hb.2), Pfss.tv, ← lpmv_nonneg hb.1 hb.2, cLm_eq hb.1 hb.2, hc,
    show coef s k.1 k.2 * (((forwardFactor k.1 k.2 * Pfss.thetaScale k.1 k.2 : ℝ) : ℂ)
      * (lpmv k.2 k.1 (Real.cos θ) : ℂ) * Zdi.expi k.2 (-φ))
      = ((forwardFactor k.1 k.2 * Pfss.thetaScale k.1 k.2 * lpmv k.2 k.1 (Real.cos θ) : ℝ) : ℂ)
        * (coef s k.1 k.2 * Zdi.expi k.2 (-φ)) by push_cast; ring,
    Complex.re_ofReal_mul, (re_expi _ _ _).1, Complex.re_mul_ofReal, Complex.im_mul_ofReal]
  simp only [Pfss.phiLm]
  ring

/-! ## C29 -/

private theorem rL_three (l : ℤ) {r0 : ℝ} (h0 : 0 < r0) : (Pfss.rL l r0 r0 (3 * r0)).1 = r0 * (Pfss.rL l 1 1 3).1 := by
  have e : r0 / (3 * r0) = 1 / 3 := by field_simp
  simp only [Pfss.rL]
  rw [e, div_self h0.ne', div_one]; ring

/-- The tangential components of the converted magnetogram. -/
private theorem tangential {d : DType} (hd : d = .real ∨ d = .cplx) {s : Coefs ℂ} (h : Operand d 1 s)
    (hr : RadialSet s) {ks : List Key} (hk : IsSetIter ks s.keys) {θ : ℝ} (hs : 0 < Real.sin θ) (φ : ℝ) :
    ∃ u z, pfssToZdi ks s = .ok u ∧ Zdi.fromCoefficients u = .ok z ∧
      Zdi.radial z θ (-φ) = ∑ k ∈ pairs s, schmidt k.1 k.2 θ
        * ((coef s k.1 k.2).re * Real.cos (k.2 * φ) + (coef s k.1 k.2).im * Real.sin (k.2 * φ)) ∧
      Zdi.polar z θ (-φ) = .ok (∑ k ∈ pairs s, -((Pfss.rL k.1 1 1 3).1 * Pfss.td θ k
        * (Pfss.phiLm k.2 (coef s k.1 k.2).re (coef s k.1 k.2).im φ).1)) ∧
      Zdi.azimuthal z θ (-φ) = .ok (∑ k ∈ pairs s, ((Pfss.rL k.1 1 1 3).1 * Pfss.tv θ k
        * (Pfss.phiLm k.2 (coef s k.1 k.2).re (coef s k.1 k.2).im φ).2 / Real.sin θ)) := by
  obtain ⟨u, ou, eu, hu⟩ := pfssToZdi_spec hd h hk
  have hzu : ZdiSet u := by
    obtain ⟨l, m, hlm⟩ := hr.nonempty
    exact ⟨wellFormed_of_WF ou.reach.WF, Or.inr (Or.inr ou.cols), l, m, (hu.has l m).2 hlm⟩
  have hn := hzu.nonnegOrders fun l m hm => hr.orders l m ((hu.has l m).1 hm)
  have hb : ∀ k ∈ pairs s, 0 ≤ k.2 ∧ k.2 ≤ k.1 := fun k hk =>
    hr.bounds (k := k) (by rw [pairs_eq] at hk; exact List.mem_toFinset.1 hk)
  have c0 : ∀ l m, coefCol 0 u l m = coef s l m * (forwardFactor l m : ℂ)⁻¹ := by
    intro l m; rw [coefCol, hu.val]; simp
  have c1 : ∀ l m, coefCol 1 u l m = coef s l m * (forwardFactor l m : ℂ)⁻¹ * betaFactor l m := by
    intro l m; rw [coefCol, hu.val]; simp
  have c2 : ∀ l m, coefCol 2 u l m = 0 := by
    intro l m; rw [coefCol, hu.val]; simp
  have hf : ∀ k ∈ pairs s, (forwardFactor k.1 k.2 : ℂ) ≠ 0 := fun k hk => by
    exact_mod_cast forwardFactor_ne ((hb k hk).1.trans (hb k hk).2) k.2
  have hl1 : ∀ k ∈ pairs s, ((k.1 : ℂ) + 1) ≠ 0 := fun k hk => by
    have := (hb k hk).1.trans (hb k hk).2
    have : k.1 + 1 ≠ 0 := by omega
    exact_mod_cast this
  have hsum : ∀ (w : ZRow → ℂ) (p : ℕ → ℕ → ℝ → ℝ), Zdi.harm w p (u.rowKeys.map (zrow u)) θ (-φ)
      = ∑ k ∈ pairs s, w (zrow u k) * (p k.1.toNat k.2.toNat θ : ℝ) * Zdi.expi k.2 (-φ) := by
    intro w p; rw [Zdi.harm, Zdi.sum_rows hzu, pairs_congr hu.has]; rfl
  have htv : ∀ k : ℤ × ℤ, Pfss.tv θ k = thP k.1.toNat k.2.toNat θ * Pfss.thetaScale k.1 k.2 := by
    intro k; rw [Pfss.tv, legendreP_cos _ _ hs.le]
  refine ⟨u, _, eu, hzu.fromCoefficients, ?_, ?_, ?_⟩
  · rw [Zdi.radial_eq hn.2 hs.le, hsum, Complex.re_sum]
    refine Finset.sum_congr rfl fun k hk => ?_
    have := hf k hk
    rw [Pfss.schmidt_eq (hb k hk).1 (hb k hk).2, htv]
    simp only [zrow, c0, cLm_eq (hb k hk).1 (hb k hk).2]
    rw [show coef s k.1 k.2 * (forwardFactor k.1 k.2 : ℂ)⁻¹ * ((forwardFactor k.1 k.2 * Pfss.thetaScale k.1 k.2 : ℝ) : ℂ)
        * (thP k.1.toNat k.2.toNat θ : ℝ) * Zdi.expi k.2 (-φ)
        = ((thP k.1.toNat k.2.toNat θ * Pfss.thetaScale k.1 k.2 : ℝ) : ℂ) * (coef s k.1 k.2 * Zdi.expi k.2 (-φ)) by
      push_cast; field_simp, Complex.re_ofReal_mul, (re_expi _ _ _).1, Pfss.phiLm]
  · rw [Zdi.polar, Zdi.polarPoloidal_eq hn hs, Zdi.polarToroidal_eq hn.2 hs.le, hsum, hsum]
    show Except.ok _ = _
    congr 1
    have z : (∑ k ∈ pairs s, Complex.I * (zrow u k).m * ((zrow u k).g * cLm (zrow u k).l (zrow u k).m
        / ((zrow u k).l + 1)) * (thP k.1.toNat k.2.toNat θ : ℝ) * Zdi.expi k.2 (-φ)) = 0 := by
      refine Finset.sum_eq_zero fun k _ => ?_
      simp only [zrow, c2]; ring
    rw [z, Complex.zero_re, zero_div, add_zero, Complex.re_sum, ← Finset.sum_neg_distrib]
    refine Finset.sum_congr rfl fun k hk => ?_
    have h1 := hf k hk
    have h2 := hl1 k hk
    congr 1
    simp only [zrow, c1, cLm_eq (hb k hk).1 (hb k hk).2, betaFactor]
    rw [show coef s k.1 k.2 * (forwardFactor k.1 k.2 : ℂ)⁻¹ * (((Pfss.rL k.1 1 1 3).1 * ((k.1 : ℝ) + 1) : ℝ) : ℂ)
        * ((forwardFactor k.1 k.2 * Pfss.thetaScale k.1 k.2 : ℝ) : ℂ) / ((k.1 : ℂ) + 1)
        * (thD k.1.toNat k.2.toNat θ : ℝ) * Zdi.expi k.2 (-φ)
        = (((Pfss.rL k.1 1 1 3).1 * (thD k.1.toNat k.2.toNat θ * Pfss.thetaScale k.1 k.2) : ℝ) : ℂ)
          * (coef s k.1 k.2 * Zdi.expi k.2 (-φ)) by
      push_cast; field_simp, Complex.re_ofReal_mul, (re_expi _ _ _).1, Pfss.td_eq k hs]
  · rw [Zdi.azimuthal, Zdi.azimuthalToroidal_eq hn hs, Zdi.azimuthalPoloidal_eq hn.2 hs.le, hsum, hsum]
    show Except.ok _ = _
    congr 1
    have z : (∑ k ∈ pairs s, (zrow u k).g * cLm (zrow u k).l (zrow u k).m
        / ((zrow u k).l + 1) * (thD k.1.toNat k.2.toNat θ : ℝ) * Zdi.expi k.2 (-φ)) = 0 := by
      refine Finset.sum_eq_zero fun k _ => ?_
      simp only [zrow, c2]; ring
    rw [z, Complex.zero_re, neg_zero, add_zero, Complex.re_sum, Finset.sum_div, ← Finset.sum_neg_distrib]
    refine Finset.sum_congr rfl fun k hk => ?_
    have h1 := hf k hk
    have h2 := hl1 k hk
    simp only [zrow, c1, cLm_eq (hb k hk).1 (hb k hk).2, betaFactor]
    rw [show Complex.I * (k.2 : ℂ) * (coef s k.1 k.2 * (forwardFactor k.1 k.2 : ℂ)⁻¹
        * (((Pfss.rL k.1 1 1 3).1 * ((k.1 : ℝ) + 1) : ℝ) : ℂ)
        * ((forwardFactor k.1 k.2 * Pfss.thetaScale k.1 k.2 : ℝ) : ℂ) / ((k.1 : ℂ) + 1))
        * (thP k.1.toNat k.2.toNat θ : ℝ) * Zdi.expi k.2 (-φ)
        = (((Pfss.rL k.1 1 1 3).1 * (thP k.1.toNat k.2.toNat θ * Pfss.thetaScale k.1 k.2) : ℝ) : ℂ)
          * (Complex.I * k.2 * coef s k.1 k.2 * Zdi.expi k.2 (-φ)) by
      push_cast; field_simp, Complex.re_ofReal_mul, (re_expi _ _ _).2, htv]
    ring

/-- **C29.** With the source surface at three stellar radii, the ZDI magnetogram made by `convert_pfss_to_zdi` has
at (polar, -azimuth) the radial and polar components of the PFSS surface field at (polar, azimuth), and minus its
azimuthal component. -/
theorem C29_three_radii (d : DType) (hd : d = .real ∨ d = .cplx) (s : Coefs ℂ) (h : Operand d 1 s) (hr : RadialSet s)
    (ks : List Key) (hk : IsSetIter ks s.keys) (r0 : ℝ) (h0 : 0 < r0) (θ φ : ℝ) (hθ : OffAxis θ) :
    ∃ u z br bp ba, pfssToZdi ks s = .ok u ∧ Zdi.fromCoefficients u = .ok z ∧
      Pfss.evalSpherical s r0 θ φ r0 (3 * r0) = .ok (br, bp, ba) ∧
      Zdi.radial z θ (-φ) = br ∧ Zdi.polar z θ (-φ) = .ok bp ∧ Zdi.azimuthal z θ (-φ) = .ok (-ba) := by
  have hs : 0 < Real.sin θ := Real.sin_pos_of_pos_of_lt_pi hθ.1 hθ.2
  obtain ⟨u, z, eu, ez, e1, e2, e3⟩ := tangential hd h hr hk hs φ
  have hlt : r0 < 3 * r0 := by linarith
  obtain ⟨bp, ba, e⟩ := C30_surface s hr r0 (3 * r0) h0 hlt θ φ
  refine ⟨u, z, _, bp, ba, eu, ez, e, e1, ?_, ?_⟩ <;>
  · rw [Pfss.evalSpherical_eq hr hlt, if_neg (lt_irrefl _), if_neg (not_lt.2 hlt.le)] at e
    simp only [Except.ok.injEq, Prod.mk.injEq] at e
    first
      | rw [e2, ← e.2.1]
        congr 1
        rw [Pfss.fP]
        refine Finset.sum_congr rfl fun k _ => ?_
        rw [rL_three k.1 h0]
        field_simp
      | rw [e3, ← e.2.2]
        congr 1
        rw [Pfss.fA, ← Finset.sum_neg_distrib]
        refine Finset.sum_congr rfl fun k _ => ?_
        rw [rL_three k.1 h0]
        field_simp

/-- A dipole of strength 1. -/
private noncomputable def exDip : Coefs ℂ := ⟨[0], .cplx, [((1, 0), [1])], 1, 0⟩

private theorem exDip_operand : Operand .cplx 1 exDip := by
  refine ⟨?_, by simp [exDip, ZeroDefault], rfl, rfl⟩
  refine Reach.append (s := Coefs.new [0] .cplx) (.int 1) (.int 0) [1] ?_ rfl
  exact Reach.new _ _ (by simp)

private theorem exDip_radial : RadialSet exDip := by
  refine ⟨wellFormed_of_WF exDip_operand.reach.WF, rfl, ⟨1, 0, rfl⟩, fun l m hm => ?_⟩
  have := (has_int exDip l m).1 hm
  simp only [Coefs.keys, exDip, List.map_cons, List.map_nil, List.mem_singleton, Prod.mk.injEq] at this
  omega

/-- Non-vacuity of C25 and C27 - C34: sets meeting the hypotheses exist. -/
example : Operand .cplx 1 exDip ∧ RadialSet exDip ∧ IsSetIter exDip.keys exDip.keys ∧ OffAxis 1 :=
  ⟨exDip_operand, exDip_radial, ⟨by simp [Coefs.keys, exDip], fun _ => Iff.rfl⟩, one_pos, by linarith [Real.pi_gt_three]⟩

/-- **C29.** The agreement holds for no other source surface radius, in particular not for the default 2.5: the polar
field of a dipole differs. -/
theorem C29_other_radii (r0 rss : ℝ) (h0 : 0 < r0) (h1 : r0 < rss) (h3 : rss ≠ 3 * r0) :
    ∃ (s : Coefs ℂ) (ks : List Key) (u : Coefs ℂ) (z : Zdi) (θ φ br bp ba p : ℝ),
      Operand .cplx 1 s ∧ RadialSet s ∧ IsSetIter ks s.keys ∧ OffAxis θ ∧ pfssToZdi ks s = .ok u ∧
      Zdi.fromCoefficients u = .ok z ∧ Pfss.evalSpherical s r0 θ φ r0 rss = .ok (br, bp, ba) ∧
      Zdi.polar z θ (-φ) = .ok p ∧ p ≠ bp := by
  have hk : IsSetIter exDip.keys exDip.keys := ⟨by simp [Coefs.keys, exDip], fun _ => Iff.rfl⟩
  have hs : 0 < Real.sin (Real.pi / 2) := by simp
  obtain ⟨u, z, eu, ez, _, e2, _⟩ := tangential (Or.inr rfl) exDip_operand exDip_radial hk hs 0
  refine ⟨exDip, _, u, z, Real.pi / 2, 0, Pfss.fR exDip r0 rss r0 (Real.pi / 2) 0,
    Pfss.fP exDip r0 rss r0 (Real.pi / 2) 0, Pfss.fA exDip r0 rss r0 (Real.pi / 2) 0, _, exDip_operand, exDip_radial, hk,
    ⟨by positivity, by linarith [Real.pi_pos]⟩, eu, ez, ?_, e2, ?_⟩
  · rw [Pfss.evalSpherical_eq exDip_radial h1, if_neg (lt_irrefl _), if_neg (not_lt.2 h1.le)]
  · have hp : pairs exDip = {(1, 0)} := by rw [pairs_eq]; simp [Coefs.keys, exDip]
    have hc : coef exDip 1 0 = 1 := rfl
    have htd : Pfss.td (Real.pi / 2) (1, 0) = -1 := by
      rw [Pfss.td_eq _ hs]
      simp [thD, rodNorm, rod, rodBase, Pfss.thetaScale, spFactorial]
      norm_num
    rw [Pfss.fP, hp, Finset.sum_singleton, Finset.sum_singleton, htd, hc]
    have hss : 0 < rss := lt_trans h0 h1
    have e : ∀ x : ℝ, x ^ (2 * (1 : ℤ) + 1) = x ^ 3 := fun x => by
      rw [show (2 * (1 : ℤ) + 1) = ((3 : ℕ) : ℤ) by norm_num, zpow_natCast]
    have hy : 0 < r0 / rss := div_pos h0 hss
    simp only [Pfss.phiLm, Pfss.rL, Complex.one_re, Complex.one_im, e, div_self h0.ne', one_zpow, div_one]
    intro hc
    have h4 : (0 : ℝ) < 2 + (r0 / rss) ^ 3 := by positivity
    have h5 : (1 - (1 / 3 : ℝ) ^ 3) / (2 + (1 / 3) ^ 3) = (1 - (r0 / rss) ^ 3) / (2 + (r0 / rss) ^ 3) := by
      field_simp at hc ⊢
      norm_num at hc ⊢
      linarith
    rw [div_eq_div_iff (by norm_num) h4.ne'] at h5
    have h6 : (r0 / rss) ^ 3 = (1 / 3) ^ 3 := by nlinarith
    have h7 : r0 / rss = 1 / 3 := (pow_left_inj₀ hy.le (by norm_num) (by norm_num)).1 h6
    apply h3
    field_simp at h7
    linarith

end Verif
