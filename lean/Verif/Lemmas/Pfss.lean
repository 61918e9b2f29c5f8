import Verif.Lemmas.Rows
import Verif.Spec.Harmonics

/-!
# Evaluation of PFSS coefficient sets as finite sums
-/

namespace Verif
open Spec Legendre Coefs

theorem pairs_eq {α : Type} (s : Coefs α) : pairs s = s.keys.toFinset := by
  ext k
  simp [pairs, Coefs.contents, Function.comp_def]

theorem mem_pairs {α : Type} (s : Coefs α) (k : ℤ × ℤ) : k ∈ pairs s ↔ stores s k.1 k.2 := by
  rw [pairs_eq, List.mem_toFinset, stores, has_int]

theorem valueAt_eq {α : Type} (s : Coefs α) (l m : ℤ) : valueAt s l m = s.getI (l, m) := rfl

namespace Spec.RadialSet

theorem getI {s : Coefs ℂ} (h : RadialSet s) (k : Key) : s.getI k = [coef s k.1 k.2] := by
  have hl := (WF_of_wellFormed h.wf).getI_length k
  rw [h.single] at hl
  obtain ⟨c, hc⟩ := List.length_eq_one_iff.1 hl
  rw [coef, valueAt_eq, hc]; rfl

theorem bounds {s : Coefs ℂ} (h : RadialSet s) {k : Key} (hk : k ∈ s.keys) : 0 ≤ k.2 ∧ k.2 ≤ k.1 := by
  have h1 := (WF_of_wellFormed h.wf).valid k hk
  have h2 := h.orders k.1 k.2 ((has_int s k.1 k.2).2 hk)
  have := abs_le.1 h1
  omega

theorem rowKeys_ne {s : Coefs ℂ} (h : RadialSet s) : s.rowKeys ≠ [] := by
  obtain ⟨l, m, hk⟩ := h.nonempty
  exact List.ne_nil_of_mem ((mem_rowKeys (WF_of_wellFormed h.wf) (l, m)).2 ((has_int s l m).1 hk))

end Spec.RadialSet

namespace Pfss

theorem sumRows_map (f : ℤ → ℤ → ℂ → ℝ → ℝ → ℝ) (ks : List Key) (c : Key → ℂ) (th : Key → ℝ × ℝ) :
    sumRows f (ks.map fun k => (k.1, k.2, c k)) (ks.map th)
      = (ks.map fun k => f k.1 k.2 (c k) (th k).1 (th k).2).sum := by
  induction ks with
  | nil => rfl
  | cons k ks ih => simp only [List.map_cons, sumRows, ih, List.sum_cons]

/-- The theta tables. -/
noncomputable def tv (θ : ℝ) (k : Key) : ℝ := legendreP k.1.toNat k.2.toNat (Real.cos θ) * thetaScale k.1 k.2
noncomputable def td (θ : ℝ) (k : Key) : ℝ :=
  deriv (legendreP k.1.toNat k.2.toNat) (Real.cos θ) * -Real.sin θ * thetaScale k.1 k.2

theorem calcAllTheta_ok {ks : List Key} (hne : ks ≠ []) (h : ∀ k ∈ ks, 0 ≤ k.2 ∧ k.2 ≤ k.1) (θ : ℝ) :
    calcAllTheta ks θ = .ok (ks.map fun k => (tv θ k, td θ k)) := by
  rw [calcAllTheta, calcLpmn_ok hne h]
  simp only [bind, Except.bind, Zdi.zipWith_map_self]
  rw [resAssert, if_pos]
  · rfl
  · intro q hq
    have e : (List.map (fun k : Key => (legendreP k.1.toNat k.2.toNat (Real.cos θ) * thetaScale k.1 k.2,
        deriv (legendreP k.1.toNat k.2.toNat) (Real.cos θ) * -Real.sin θ * thetaScale k.1 k.2)) ks).zip
        (List.map (fun k => thetaLm k.1 k.2 θ) ks)
        = ks.map fun k => ((tv θ k, td θ k), thetaLm k.1 k.2 θ) := by
      clear hq hne h
      induction ks with
      | nil => rfl
      | cons k ks ih => simp only [List.map_cons, List.zip_cons_cons, ih]; rfl
    rw [e] at hq
    obtain ⟨k, hk, rfl⟩ := List.mem_map.1 hq
    have : tv θ k = thetaLm k.1 k.2 θ := by
      rw [tv, thetaLm, lpmv_nonneg (h k hk).1 (h k hk).2, mul_comm]
    simp only [this, sub_self, abs_zero]
    positivity

theorem td_eq (k : Key) {θ : ℝ} (hs : 0 < Real.sin θ) :
    td θ k = thD k.1.toNat k.2.toNat θ * thetaScale k.1 k.2 := by
  rw [td, ← neg_sin_mul_deriv _ _ hs]; ring

theorem hasDerivAt_tv (k : Key) {θ : ℝ} (hs : 0 < Real.sin θ) : HasDerivAt (fun t => tv t k) (td θ k) θ := by
  rw [td_eq k hs]
  exact (hasDerivAt_legendreP_cos k.1.toNat k.2.toNat hs).mul_const _

theorem schmidt_eq {k : Key} (h0 : 0 ≤ k.2) (h1 : k.2 ≤ k.1) (θ : ℝ) : schmidt k.1 k.2 θ = tv θ k := by
  have e : (-1 : ℝ) ^ k.2 = (-1) ^ k.2.toNat := by
    conv_lhs => rw [← Int.toNat_of_nonneg h0]
    rw [zpow_natCast]
  have e2 : (2 : ℝ) - (if k.2 = 0 then 1 else 0) = if k.2 = 0 then 1 else 2 := by split_ifs <;> norm_num
  have := lpmv_nonneg h0 h1 (Real.cos θ)
  rw [lpmv] at this
  have f1 : spFactorial (k.1 - k.2) = ((k.1 - k.2).toNat.factorial : ℝ) := by rw [spFactorial, if_neg (by omega)]
  have f2 : spFactorial (k.1 + k.2) = ((k.1 + k.2).toNat.factorial : ℝ) := by rw [spFactorial, if_neg (by omega)]
  rw [schmidt, tv, this, thetaScale, e, e2, f1, f2, Real.sqrt_mul (by split_ifs <;> norm_num)]
  ring

/-- The three unclamped components as sums over the stored pairs. -/
noncomputable def fR (s : Coefs ℂ) (r0 rss r θ φ : ℝ) : ℝ :=
  ∑ k ∈ pairs s, -((rL k.1 r r0 rss).2 * tv θ k * (phiLm k.2 (coef s k.1 k.2).re (coef s k.1 k.2).im φ).1)
noncomputable def fP (s : Coefs ℂ) (r0 rss r θ φ : ℝ) : ℝ :=
  ∑ k ∈ pairs s, -((rL k.1 r r0 rss).1 * td θ k * (phiLm k.2 (coef s k.1 k.2).re (coef s k.1 k.2).im φ).1 / r)
noncomputable def fA (s : Coefs ℂ) (r0 rss r θ φ : ℝ) : ℝ :=
  ∑ k ∈ pairs s, -((rL k.1 r r0 rss).1 * tv θ k * (phiLm k.2 (coef s k.1 k.2).re (coef s k.1 k.2).im φ).2
    / (r * Real.sin θ))

theorem evalSpherical_eq {s : Coefs ℂ} (h : RadialSet s) {r0 rss : ℝ} (hr : r0 < rss) (r θ φ : ℝ) :
    evalSpherical s r θ φ r0 rss = .ok (
      if r < r0 then (0, 0, 0)
      else if rss < r then (fR s r0 rss rss θ φ * (rss / r) ^ 2, fP s r0 rss rss θ φ * (rss / r) ^ 2,
        fA s r0 rss rss θ φ * (rss / r) ^ 2)
      else (fR s r0 rss r θ φ, fP s r0 rss r θ φ, fA s r0 rss r θ φ)) := by
  have hw := WF_of_wellFormed h.wf
  have hb : ∀ k ∈ s.rowKeys, 0 ≤ k.2 ∧ k.2 ≤ k.1 := fun k hk => h.bounds ((mem_rowKeys hw k).1 hk)
  have hmap : (s.rowKeys.map fun k => (k.1, k.2, s.getI k)).mapM singleColumn
      = .ok (s.rowKeys.map fun k => (k.1, k.2, coef s k.1 k.2)) := by
    rw [List.mapM_map]
    apply mapM_pure_ok
    intro k _
    simp only [Function.comp, h.getI, singleColumn]
  rw [evalSpherical, asArrays_rows hw]
  simp only [bind, Except.bind, resAssert, if_pos hr, pure, Except.pure]
  rw [if_neg (by simpa using h.rowKeys_ne), if_pos]
  · simp only [zip_fst_snd, zip_rows, calcAllTheta_ok h.rowKeys_ne hb, hmap, sumRows_map]
    simp only [sum_rowKeys hw, ← pairs_eq]
    have hA : ∀ r', (∑ k ∈ pairs s, -(if (rL k.1 r' r0 rss).1 * tv θ k
          * (phiLm k.2 (coef s k.1 k.2).re (coef s k.1 k.2).im φ).2 ≠ 0 then
          (rL k.1 r' r0 rss).1 * tv θ k * (phiLm k.2 (coef s k.1 k.2).re (coef s k.1 k.2).im φ).2
            / (r' * Real.sin θ) else 0)) = fA s r0 rss r' θ φ := by
      intro r'
      rw [fA]
      refine Finset.sum_congr rfl fun k _ => ?_
      split_ifs with hz
      · rfl
      · rw [not_not.1 hz, zero_div]
    simp only [hA]
    by_cases h1 : r < r0
    · rw [if_pos h1, if_pos h1]
    · rw [if_neg h1, if_neg h1]
      by_cases h2 : rss < r
      · rw [if_pos h2, if_pos h2, min_eq_right h2.le]; rfl
      · rw [if_neg h2, if_neg h2, min_eq_left (not_lt.1 h2)]; rfl
  · intro m hm
    obtain ⟨k, hk, rfl⟩ := List.mem_map.1 hm
    exact (hb k hk).1

end Pfss
end Verif
