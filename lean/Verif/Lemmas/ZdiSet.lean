import Verif.Lemmas.Pfss

/-!
# ZDI magnetograms made from coefficient sets, as finite sums over the stored pairs
-/

namespace Verif
open Spec Legendre Coefs

/-- The row made of the stored columns; missing columns are zero. -/
noncomputable def zrow (s : Coefs ℂ) (k : Key) : ZRow :=
  ⟨k.1, k.2, coefCol 0 s k.1 k.2, coefCol 1 s k.1 k.2, coefCol 2 s k.1 k.2⟩

namespace Spec.ZdiSet

theorem WF {s : Coefs ℂ} (h : ZdiSet s) : s.WF := WF_of_wellFormed h.wf

theorem rowKeys_ne {s : Coefs ℂ} (h : ZdiSet s) : s.rowKeys ≠ [] := by
  obtain ⟨l, m, hk⟩ := h.nonempty
  exact List.ne_nil_of_mem ((mem_rowKeys h.WF (l, m)).2 ((has_int s l m).1 hk))

theorem fromCoefficients {s : Coefs ℂ} (h : ZdiSet s) : Zdi.fromCoefficients s = .ok (s.rowKeys.map (zrow s)) := by
  rw [Zdi.fromCoefficients, asArrays_rows h.WF]
  simp only [bind, Except.bind, pure, Except.pure]
  rw [if_neg (by simpa using h.rowKeys_ne)]
  simp only [zip_rows]
  rw [List.mapM_map]
  apply mapM_pure_ok
  intro k _
  have hl : (s.getI k).length = 1 ∨ (s.getI k).length = 2 ∨ (s.getI k).length = 3 := by
    rw [h.WF.getI_length k]; exact h.cols
  simp only [Function.comp, zrow, coefCol, valueAt_eq, Prod.mk.eta]
  generalize s.getI k = v at hl
  rcases hl with hl | hl | hl
  · obtain ⟨a, rfl⟩ := List.length_eq_one_iff.1 hl; simp [Zdi.ofRow]
  · obtain ⟨a, b, rfl⟩ := List.length_eq_two.1 hl; simp [Zdi.ofRow]
  · obtain ⟨a, b, c, rfl⟩ := List.length_eq_three.1 hl; simp [Zdi.ofRow]

theorem eq_rows {s : Coefs ℂ} (h : ZdiSet s) {z : Zdi} (hz : Zdi.fromCoefficients s = .ok z) :
    z = s.rowKeys.map (zrow s) := by
  rw [h.fromCoefficients] at hz; exact (Except.ok.inj hz).symm

theorem nonnegOrders {s : Coefs ℂ} (h : ZdiSet s) (ho : ∀ l m : ℤ, stores s l m → 0 ≤ m) :
    NonnegOrders (s.rowKeys.map (zrow s)) := by
  refine ⟨by simpa using h.rowKeys_ne, fun r hr => ?_⟩
  obtain ⟨k, hk, rfl⟩ := List.mem_map.1 hr
  have hk := (mem_rowKeys h.WF k).1 hk
  have h1 := h.WF.valid k hk
  have h2 := ho k.1 k.2 ((has_int s k.1 k.2).2 hk)
  have := abs_le.1 h1
  simp only [zrow]
  omega

end Spec.ZdiSet

namespace Zdi

theorem sum_rows {s : Coefs ℂ} (h : ZdiSet s) (f : ZRow → ℂ) :
    ((s.rowKeys.map (zrow s)).map f).sum = ∑ k ∈ pairs s, f (zrow s k) := by
  rw [List.map_map, sum_rowKeys h.WF, pairs_eq]; rfl

end Zdi

/-- With a zero default, a sum over the stored pairs may be extended to more pairs. -/
theorem sum_pairs_extend {β : Type} [AddCommMonoid β] {s : Coefs ℂ} (hw : s.WF) (hz : ZeroDefault s) (i : ℕ)
    {T : Finset (ℤ × ℤ)} (hT : pairs s ⊆ T) (g : ℤ × ℤ → ℂ → β) (hg : ∀ k, g k 0 = 0) :
    ∑ k ∈ pairs s, g k (coefCol i s k.1 k.2) = ∑ k ∈ T, g k (coefCol i s k.1 k.2) := by
  refine Finset.sum_subset hT fun k _ hk => ?_
  have hk' : k ∉ s.keys := by rwa [pairs_eq, List.mem_toFinset] at hk
  have e : coefCol i s k.1 k.2 = 0 := by
    rw [coefCol, valueAt_eq, getI_of_not_mem s k hk', List.getD_eq_getElem?_getD]
    rcases h : s.dflt[i]? with _ | c
    · rfl
    · exact hz c (List.mem_of_getElem? h)
  rw [e, hg]

theorem coef_eq_coefCol (s : Coefs ℂ) (l m : ℤ) : coef s l m = coefCol 0 s l m := by
  rw [coef, coefCol]; cases valueAt s l m <;> rfl

end Verif
