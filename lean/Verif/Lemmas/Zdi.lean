import Verif.Spec.Fields
import Verif.Lemmas.Legendre
import Mathlib.Analysis.SpecialFunctions.Exponential
import Mathlib.Analysis.SpecialFunctions.ExpDeriv
import Mathlib.Analysis.Calculus.Deriv.Add
import Mathlib.Analysis.Complex.RealDeriv

/-!
# Lemmas on the ZDI field evaluation
-/

namespace Verif
open Spec Legendre

theorem foldl_max_ge (xs : List ℤ) (a : ℤ) : a ≤ xs.foldl max a ∧ ∀ x ∈ xs, x ≤ xs.foldl max a := by
  induction xs generalizing a with
  | nil => simp
  | cons x xs ih =>
    simp only [List.foldl_cons, List.mem_cons, forall_eq_or_imp]
    obtain ⟨h1, h2⟩ := ih (max a x)
    exact ⟨le_trans (le_max_left _ _) h1, le_trans (le_max_right _ _) h1, h2⟩

theorem foldl_max_mem (xs : List ℤ) (a : ℤ) : xs.foldl max a ∈ a :: xs := by
  induction xs generalizing a with
  | nil => simp
  | cons x xs ih =>
    have := ih (max a x)
    simp only [List.foldl_cons, List.mem_cons] at this ⊢
    rcases this with h | h
    · rcases max_choice a x with h' | h' <;> rw [h'] at h <;> rw [h'] <;> simp [h]
    · exact Or.inr (Or.inr h)

theorem listMax_spec {xs : List ℤ} (h : xs ≠ []) : ∃ M, listMax xs = some M ∧ M ∈ xs ∧ ∀ x ∈ xs, x ≤ M := by
  match xs with
  | x :: xs =>
    refine ⟨xs.foldl max x, rfl, foldl_max_mem xs x, ?_⟩
    intro y hy
    rcases List.mem_cons.1 hy with rfl | hy
    · exact (foldl_max_ge xs y).1
    · exact (foldl_max_ge xs x).2 y hy

theorem mapM_pure_ok {β γ : Type} (xs : List β) (f : β → Res γ) (g : β → γ) (h : ∀ x ∈ xs, f x = .ok (g x)) :
    xs.mapM f = .ok (xs.map g) := by
  induction xs with
  | nil => rfl
  | cons x xs ih =>
    rw [List.mapM_cons, h x (by simp), ih (fun y hy => h y (by simp [hy]))]
    rfl

theorem npIndex_ok {size i : ℤ} (h0 : 0 ≤ i) (h1 : i < size) : npIndex size i = .ok i.toNat := by
  rw [npIndex, if_pos ⟨h0, h1⟩]

/-- `calculate_lpmn` on non-negative orders. -/
theorem calcLpmn_ok {lm : List (ℤ × ℤ)} (hne : lm ≠ []) (h : ∀ k ∈ lm, 0 ≤ k.2 ∧ k.2 ≤ k.1) (θ : ℝ) :
    calcLpmn lm θ = .ok (lm.map fun k => (legendreP k.1.toNat k.2.toNat (Real.cos θ),
      deriv (legendreP k.1.toNat k.2.toNat) (Real.cos θ) * -Real.sin θ)) := by
  obtain ⟨L, hL, hLm, hLu⟩ := listMax_spec (xs := lm.map Prod.fst) (by simpa using hne)
  obtain ⟨M, hM, hMm, hMu⟩ := listMax_spec (xs := lm.map Prod.snd) (by simpa using hne)
  rw [calcLpmn, hL, hM]
  simp only
  obtain ⟨k, hk, rfl⟩ := List.mem_map.1 hMm
  have h1 := h k hk
  have h2 := hLu k.1 (List.mem_map_of_mem hk)
  rw [if_neg (by omega)]
  apply mapM_pure_ok
  intro j hj
  have h3 := h j hj
  have h4 := hLu j.1 (List.mem_map_of_mem hj)
  have h5 := hMu j.2 (List.mem_map_of_mem hj)
  rw [npIndex_ok h3.1 (by omega), npIndex_ok (by omega) (by omega)]
  rfl

theorem calcLpmn_ok' {lm : List (ℤ × ℤ)} (hne : lm ≠ []) (h : ∀ k ∈ lm, 0 ≤ k.2 ∧ k.2 ≤ k.1) {θ : ℝ}
    (hs : 0 < Real.sin θ) :
    calcLpmn lm θ = .ok (lm.map fun k => (thP k.1.toNat k.2.toNat θ, thD k.1.toNat k.2.toNat θ)) := by
  rw [calcLpmn_ok hne h]
  congr 1
  apply List.map_congr_left
  intro k _
  rw [legendreP_cos _ _ hs.le, ← neg_sin_mul_deriv _ _ hs]
  congr 1
  ring

theorem lpmv_nonneg {l m : ℤ} (h0 : 0 ≤ m) (h1 : m ≤ l) (x : ℝ) :
    lpmv m l x = legendreP l.toNat m.toNat x := by
  rw [lpmv, legendrePZ, if_neg (by rw [abs_of_nonneg h0]; omega), if_pos h0]

namespace Zdi

theorem lm_ne {z : Zdi} (h : NonnegOrders z) : z.lm ≠ [] := by simpa [lm] using h.1

theorem lm_ok {z : Zdi} (h : NonnegOrders z) : ∀ k ∈ z.lm, 0 ≤ k.2 ∧ k.2 ≤ k.1 := by
  intro k hk
  obtain ⟨r, hr, rfl⟩ := List.mem_map.1 hk
  exact h.2 r hr

/-- The complex sum of the harmonics of a list of rows with weights `w`. -/
noncomputable def harm (w : ZRow → ℂ) (p : ℕ → ℕ → ℝ → ℝ) (z : Zdi) (θ φ : ℝ) : ℂ :=
  (z.map fun r => w r * (p r.l.toNat r.m.toNat θ : ℝ) * expi r.m φ).sum

theorem zipWith_map_self {β γ δ : Type} (f : β → γ → δ) (g : β → γ) (xs : List β) :
    List.zipWith f xs (xs.map g) = xs.map fun x => f x (g x) := by
  induction xs with
  | nil => rfl
  | cons x xs ih => simp [ih]

theorem radial_eq {z : Zdi} (h : ∀ r ∈ z, 0 ≤ r.m ∧ r.m ≤ r.l) {θ : ℝ} (hs : 0 ≤ Real.sin θ) (φ : ℝ) :
    radial z θ φ = (harm (fun r => r.a * cLm r.l r.m) thP z θ φ).re := by
  rw [radial, radialToroidal, Complex.zero_re, add_zero, radialPoloidal, harm]
  congr 2
  apply List.map_congr_left
  intro r hr
  rw [lpmv_nonneg (h r hr).1 (h r hr).2, legendreP_cos _ _ hs]

theorem sum_map_mul {β : Type} (xs : List β) (f g : β → ℂ) (K : ℂ) (h : ∀ x ∈ xs, f x = K * g x) :
    (xs.map f).sum = K * (xs.map g).sum := by
  rw [← List.sum_map_mul_left]
  exact congrArg List.sum (List.map_congr_left h)

theorem polarPoloidal_eq {z : Zdi} (h : NonnegOrders z) {θ : ℝ} (hs : 0 < Real.sin θ) (φ : ℝ) :
    polarPoloidal z θ φ = .ok (-(harm (fun r => r.b * cLm r.l r.m / (r.l + 1)) thD z θ φ).re) := by
  rw [polarPoloidal, calcLpmn_ok' (lm_ne h) (lm_ok h) hs]
  show Except.ok _ = _
  congr 1
  rw [lm, List.map_map, zipWith_map_self, ← Complex.neg_re, harm, neg_eq_neg_one_mul]
  congr 1
  apply sum_map_mul
  intro r _
  simp only [Function.comp]
  push_cast
  ring

theorem azimuthalToroidal_eq {z : Zdi} (h : NonnegOrders z) {θ : ℝ} (hs : 0 < Real.sin θ) (φ : ℝ) :
    azimuthalToroidal z θ φ = .ok (-(harm (fun r => r.g * cLm r.l r.m / (r.l + 1)) thD z θ φ).re) := by
  rw [azimuthalToroidal, calcLpmn_ok' (lm_ne h) (lm_ok h) hs]
  show Except.ok _ = _
  congr 1
  rw [lm, List.map_map, zipWith_map_self, ← Complex.neg_re, harm, neg_eq_neg_one_mul]
  congr 1
  apply sum_map_mul
  intro r _
  simp only [Function.comp]
  push_cast
  ring

theorem azimuthalPoloidal_eq {z : Zdi} (h : ∀ r ∈ z, 0 ≤ r.m ∧ r.m ≤ r.l) {θ : ℝ} (hs : 0 ≤ Real.sin θ) (φ : ℝ) :
    azimuthalPoloidal z θ φ
      = -((harm (fun r => Complex.I * r.m * (r.b * cLm r.l r.m / (r.l + 1))) thP z θ φ).re / Real.sin θ) := by
  rw [azimuthalPoloidal, harm, ← Complex.div_ofReal_re, ← Complex.neg_re, div_eq_inv_mul, ← neg_mul]
  congr 1
  apply sum_map_mul
  intro r hr
  rw [lpmv_nonneg (h r hr).1 (h r hr).2, legendreP_cos _ _ hs]
  ring

theorem polarToroidal_eq {z : Zdi} (h : ∀ r ∈ z, 0 ≤ r.m ∧ r.m ≤ r.l) {θ : ℝ} (hs : 0 ≤ Real.sin θ) (φ : ℝ) :
    polarToroidal z θ φ
      = (harm (fun r => Complex.I * r.m * (r.g * cLm r.l r.m / (r.l + 1))) thP z θ φ).re / Real.sin θ := by
  rw [polarToroidal, harm, ← Complex.div_ofReal_re, div_eq_inv_mul]
  congr 1
  apply sum_map_mul
  intro r hr
  rw [lpmv_nonneg (h r hr).1 (h r hr).2, legendreP_cos _ _ hs]
  ring

theorem hasDerivAt_expi (m : ℤ) (φ : ℝ) :
    HasDerivAt (fun t : ℝ => expi m t) (Complex.I * m * expi m φ) φ := by
  have h1 : HasDerivAt (fun t : ℝ => Complex.I * m * (t : ℂ)) (Complex.I * m * 1) φ :=
    (Complex.ofRealCLM.hasDerivAt (x := φ)).const_mul _
  refine h1.cexp.congr_deriv ?_
  rw [mul_one, mul_comm]; rfl

theorem hasDerivAt_list_sum {β : Type} (xs : List β) (f : β → ℝ → ℂ) (f' : β → ℂ) (x : ℝ)
    (h : ∀ b ∈ xs, HasDerivAt (f b) (f' b) x) :
    HasDerivAt (fun t => (xs.map fun b => f b t).sum) ((xs.map f').sum) x := by
  induction xs with
  | nil => simpa using hasDerivAt_const x (0 : ℂ)
  | cons b xs ih =>
    simp only [List.map_cons, List.sum_cons]
    exact (h b (by simp)).add (ih fun c hc => h c (by simp [hc]))

theorem hasDerivAt_re {f : ℝ → ℂ} {f' : ℂ} {x : ℝ} (h : HasDerivAt f f' x) :
    HasDerivAt (fun t => (f t).re) f'.re x := by
  have := Complex.reCLM.hasFDerivAt.comp_hasDerivAt x h
  exact this

theorem harm_deriv_azimuth (w : ZRow → ℂ) (p : ℕ → ℕ → ℝ → ℝ) (z : Zdi) (θ φ : ℝ) :
    HasDerivAt (fun t => harm w p z θ t) (harm (fun r => Complex.I * r.m * w r) p z θ φ) φ := by
  apply hasDerivAt_list_sum
  intro r _
  refine ((hasDerivAt_expi r.m φ).const_mul _).congr_deriv ?_
  ring

theorem harm_deriv_polar (w : ZRow → ℂ) (p q : ℕ → ℕ → ℝ → ℝ) (z : Zdi) (θ φ : ℝ)
    (h : ∀ r ∈ z, HasDerivAt (p r.l.toNat r.m.toNat) (q r.l.toNat r.m.toNat θ) θ) :
    HasDerivAt (fun t => harm w p z t φ) (harm w q z θ φ) θ := by
  apply hasDerivAt_list_sum
  intro r hr
  exact (((h r hr).ofReal_comp).const_mul _).mul_const _

end Zdi
end Verif
