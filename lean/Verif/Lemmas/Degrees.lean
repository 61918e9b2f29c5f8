import Verif.Lemmas.Transport
import Verif.Props.Conversion

/-!
# Sets of coefficients degree by degree

Rotation mixes the orders within a degree, folding joins the two signs of an order. Both act on the part of a field
that belongs to one degree.
-/

namespace Verif
open Spec Coefs Converter Wigner Rotate

namespace Spec

/-- The part of the real field of column `i` that belongs to degree `l`. -/
noncomputable def degField (i : ℕ) (s : Coefs ℂ) (l : ℤ) (θ φ : ℝ) : ℝ :=
  (∑ m ∈ Finset.Icc (-l) l, coefCol i s l m * sphY l m θ φ).re

end Spec

namespace Degrees

theorem coefCol_zero {d : DType} {n : ℕ} {s : Coefs ℂ} (h : Operand d n s) (i : ℕ) {l m : ℤ} (hk : ¬ stores s l m) :
    coefCol i s l m = 0 := by
  rw [stores, has_int] at hk
  rw [coefCol, valueAt_eq, getI_of_not_mem s (l, m) hk, List.getD_eq_getElem?_getD]
  rcases e : s.dflt[i]? with _ | c
  · rfl
  · exact h.zero c (List.mem_of_getElem? e)

theorem degree_le {d : DType} {n : ℕ} {s : Coefs ℂ} (h : Operand d n s) {l m : ℤ} (hk : stores s l m) :
    l ≤ s.degreeMax := by
  rw [stores, has_int] at hk
  exact h.reach.WF.degUpper _ hk

/-- Degree by degree, the rotated set is the original one at the rotated point. -/
theorem rotate_deg {n : ℕ} (R : unitary (Quaternion ℝ)) {s t : Coefs ℂ} (hs : Operand .cplx n s)
    (ht : rotate (wignerD R) s = .ok t) (i : ℕ) (l : ℤ) {θ φ θ' φ' : ℝ} (hθ : 0 ≤ Real.sin θ) (hθ' : 0 ≤ Real.sin θ')
    (hM : Moves (R : Quaternion ℝ) θ φ θ' φ') : degField i t l θ φ = degField i s l θ' φ' := by
  obtain ⟨_, _, _, _, _, v⟩ := values_zero hs ht
  rw [degField, degField]
  congr 1
  have e1 : ∀ m ∈ Finset.Icc (-l) l, coefCol i t l m * sphY l m θ φ
      = ∑ k ∈ Finset.Icc (-l) l, coefCol i s l k * (wignerD R l k m * sphY l m θ φ) := by
    intro m hm
    rw [v i l m (abs_le.2 (Finset.mem_Icc.1 hm)), Finset.sum_mul]
    exact Finset.sum_congr rfl fun k _ => by ring
  rw [Finset.sum_congr rfl e1, Finset.sum_comm]
  refine Finset.sum_congr rfl fun k hk => ?_
  rw [← Finset.mul_sum, C69_harmonics R hM hθ hθ' l k (abs_le.2 (Finset.mem_Icc.1 hk))]

private theorem sum_signs (l : ℤ) (F : ℤ → ℝ) :
    ∑ m ∈ Finset.Icc (-l) l, F m = ∑ m ∈ Finset.Icc 0 l, (F m + if m = 0 then 0 else F (-m)) := by
  have e1 : Finset.Icc (-l) l = (Finset.Icc 0 l) ∪ (Finset.Icc 1 l).image (fun m => -m) := by
    ext m
    simp only [Finset.mem_Icc, Finset.mem_union, Finset.mem_image]
    constructor
    · intro h
      rcases le_or_gt 0 m with h0 | h0
      · left; omega
      · right; exact ⟨-m, by omega, by omega⟩
    · rintro (h | ⟨k, h, rfl⟩) <;> omega
  have e2 : Disjoint (Finset.Icc 0 l) ((Finset.Icc 1 l).image (fun m => -m)) := by
    rw [Finset.disjoint_left]
    intro m h1 h2
    rw [Finset.mem_image] at h2
    obtain ⟨k, hk, rfl⟩ := h2
    rw [Finset.mem_Icc] at h1 hk
    omega
  rw [e1, Finset.sum_union e2, Finset.sum_image (fun a _ b _ h => by simpa using h), Finset.sum_add_distrib]
  congr 1
  have e3 : Finset.Icc 1 l ⊆ Finset.Icc 0 l := fun m h => by rw [Finset.mem_Icc] at h ⊢; omega
  rw [← Finset.sum_subset e3 (f := fun m => if m = 0 then 0 else F (-m))]
  · refine Finset.sum_congr rfl fun m h => ?_
    rw [Finset.mem_Icc] at h
    rw [if_neg (by omega)]
  · intro m h1 h2
    rw [Finset.mem_Icc] at h1 h2
    rw [if_pos (by omega)]

/-- Folding leaves the field of every degree alone. -/
theorem fold_deg {d : DType} (hd : d = .real ∨ d = .cplx) {t u : Coefs ℂ} (h : Operand d 1 t)
    (hu : mapToPositiveOrders t = .ok u) (l : ℤ) (θ φ : ℝ) : degField 0 u l θ φ = degField 0 t l θ φ := by
  obtain ⟨u', hu', ou, su, v⟩ := Converter.fold_spec hd h
  rw [hu] at hu'; cases hu'
  rw [degField, degField, Complex.re_sum, Complex.re_sum, sum_signs, sum_signs]
  refine Finset.sum_congr rfl fun m hm => ?_
  rw [Finset.mem_Icc] at hm
  by_cases hl : l ≤ t.degreeMax
  · have c0 : coefCol 0 u l m = _ := (coef_eq_coefCol u l m) ▸ v l m hm.1 hm.2 hl
    rw [c0]
    simp only [coef_eq_coefCol]
    by_cases h0 : m = 0
    · simp [h0]
    · rw [if_neg h0, if_neg h0, if_neg h0, coefCol_zero ou 0 (m := -m) (fun hk => by have := (su _ _).1 hk; omega), zero_mul,
        Complex.zero_re, add_zero, sphY_neg (by omega) hm.2, add_mul, Complex.add_re]
      congr 1
      have ez : ((-1 : ℂ)) ^ m = (((-1 : ℝ) ^ m : ℝ) : ℂ) := by push_cast; rfl
      rw [ez]
      simp only [Complex.mul_re, Complex.mul_im, Complex.conj_re, Complex.conj_im, Complex.ofReal_re,
        Complex.ofReal_im]
      ring
  · have z1 : ∀ k, coefCol 0 u l k = 0 := fun k => coefCol_zero ou 0 fun hk => hl ((su _ _).1 hk).2.2
    have z2 : ∀ k, coefCol 0 t l k = 0 := fun k => coefCol_zero h 0 fun hk => hl (degree_le h hk)
    simp [z1, z2]

/-- A sum over the stored pairs with weights that depend on the degree only. -/
theorem sum_degrees {d : DType} {n : ℕ} {s : Coefs ℂ} (h : Operand d n s) (i : ℕ) {L : ℤ} (hL : s.degreeMax ≤ L)
    (w : ℤ → ℝ) (θ φ : ℝ) : ∑ k ∈ pairs s, w k.1 * (coefCol i s k.1 k.2 * sphY k.1 k.2 θ φ).re
      = ∑ l ∈ Finset.Icc 0 L, w l * degField i s l θ φ := by
  set T : Finset (ℤ × ℤ) := ((Finset.Icc 0 L) ×ˢ (Finset.Icc (-L) L)).filter fun k => |k.2| ≤ k.1 with hT
  have hp : pairs s ⊆ T := by
    intro k hk
    rw [pairs_eq, List.mem_toFinset] at hk
    have h1 := h.reach.WF.valid k hk
    have h2 := h.reach.WF.degUpper k hk
    have h3 := abs_le.1 h1
    have h4 := (abs_nonneg _).trans h1
    rw [hT, Finset.mem_filter, Finset.mem_product, Finset.mem_Icc, Finset.mem_Icc]
    exact ⟨⟨by omega, by omega⟩, h1⟩
  rw [sum_pairs_extend h.reach.WF h.zero i hp (fun k c => w k.1 * (c * sphY k.1 k.2 θ φ).re) (by simp), hT,
    Finset.sum_filter, Finset.sum_product]
  refine Finset.sum_congr rfl fun l hl => ?_
  rw [Finset.mem_Icc] at hl
  rw [degField, Complex.re_sum, Finset.mul_sum, ← Finset.sum_filter]
  refine Finset.sum_congr ?_ fun _ _ => rfl
  ext m
  rw [Finset.mem_filter, Finset.mem_Icc, Finset.mem_Icc, abs_le]
  omega

end Degrees
end Verif
