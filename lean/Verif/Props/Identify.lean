import Verif.Lemmas.Identify
import Verif.Props.Parseval
import Verif.Props.Pfss

/-!
# Property C102: the field determines the coefficients that show
-/

namespace Verif
open Spec Zdi Pfss Legendre Identify

namespace Spec

/-- What the rows with a degree and an order add up to. -/
noncomputable def rowTotal (f : ZRow → ℂ) (z : Zdi) (l m : ℤ) : ℂ := ((z.filter fun r => r.l = l ∧ r.m = m).map f).sum

/-- Two coefficients of order `m` that show the same field: the imaginary part of order 0 does not show. -/
def SameVisible (m : ℤ) (x y : ℂ) : Prop := x.re = y.re ∧ (m ≠ 0 → x.im = y.im)

/-- The stored coefficient, or nothing. -/
noncomputable def storedCoef (s : Coefs ℂ) (l m : ℤ) : ℂ := open Classical in if stores s l m then coef s l m else 0

end Spec

namespace Identify

theorem dark_sub_iff {m : ℤ} {x y : ℂ} : Dark m (x - y) ↔ SameVisible m x y := by
  rw [Dark, SameVisible, Complex.sub_re, Complex.sub_im, sub_eq_zero, sub_eq_zero]
  tauto

theorem rowTotal_cons (f : ZRow → ℂ) (r : ZRow) (z : Zdi) (l m : ℤ) :
    rowTotal f (r :: z) l m = (if r.l = l ∧ r.m = m then f r else 0) + rowTotal f z l m := by
  rw [rowTotal, rowTotal, List.filter_cons]
  split_ifs with h1 h2 h3
  · simp
  · simp_all
  · simp_all
  · simp

theorem rowTotal_scale (f : ZRow → ℂ) (c : ℤ → ℤ → ℂ) (z : Zdi) (l m : ℤ) :
    rowTotal (fun r => f r * c r.l r.m) z l m = rowTotal f z l m * c l m := by
  induction z with
  | nil => simp [rowTotal]
  | cons r z ih =>
    rw [rowTotal_cons, rowTotal_cons, ih, add_mul]
    split_ifs with h
    · rw [h.1, h.2]
    · simp

theorem rowTotal_absent {f : ZRow → ℂ} {z : Zdi} {l m : ℤ} (h : ∀ r ∈ z, ¬ (r.l = l ∧ r.m = m)) : rowTotal f z l m = 0 := by
  rw [rowTotal, List.filter_eq_nil_iff.2 (by simpa using h)]; rfl

/-- The pairs of two magnetograms. -/
def both (z z' : Zdi) : Finset (ℤ × ℤ) := ((z ++ z').map fun r => (r.l, r.m)).toFinset

theorem mem_both_left {z z' : Zdi} {r : ZRow} (h : r ∈ z) : (r.l, r.m) ∈ both z z' := by
  rw [both, List.mem_toFinset]
  exact List.mem_map.2 ⟨r, List.mem_append_left _ h, rfl⟩

theorem mem_both_right {z z' : Zdi} {r : ZRow} (h : r ∈ z') : (r.l, r.m) ∈ both z z' := by
  rw [both, List.mem_toFinset]
  exact List.mem_map.2 ⟨r, List.mem_append_right _ h, rfl⟩

theorem both_ok {z z' : Zdi} (h : ∀ r ∈ z, 0 ≤ r.m ∧ r.m ≤ r.l) (h' : ∀ r ∈ z', 0 ≤ r.m ∧ r.m ≤ r.l) :
    ∀ k ∈ both z z', 0 ≤ k.2 ∧ k.2 ≤ k.1 := by
  intro k hk
  rw [both, List.mem_toFinset] at hk
  obtain ⟨r, hr, rfl⟩ := List.mem_map.1 hk
  rcases List.mem_append.1 hr with hr | hr
  · exact h r hr
  · exact h' r hr

theorem harm_K (w : ZRow → ℂ) (p : ℕ → ℕ → ℝ → ℝ) {S : Finset (ℤ × ℤ)} (z : Zdi) (hS : ∀ r ∈ z, (r.l, r.m) ∈ S) (θ φ : ℝ) :
    harm w p z θ φ = K S (fun k => rowTotal w z k.1 k.2) p θ φ := by
  induction z with
  | nil => simp [harm, K, rowTotal]
  | cons r z ih =>
    have e := ih fun r hr => hS r (List.mem_cons_of_mem _ hr)
    rw [harm] at e ⊢
    rw [List.map_cons, List.sum_cons, e, K, K]
    simp only [rowTotal_cons, add_mul, Finset.sum_add_distrib]
    congr 1
    rw [Finset.sum_eq_single (r.l, r.m)]
    · simp
    · intro k _ hk
      rw [if_neg, zero_mul, zero_mul]
      rintro ⟨h1, h2⟩
      exact hk (Prod.ext h1.symm h2.symm)
    · intro h
      exact absurd (hS r (by simp)) h

theorem cLm_ne {l m : ℤ} (h0 : 0 ≤ m) (h1 : m ≤ l) : cLm l m ≠ 0 := by
  intro h
  have := cLm_sq h0 h1
  rw [h] at this
  have hp : (0 : ℝ) < 1 / (2 * Real.pi) := by positivity
  rw [← this] at hp
  norm_num at hp

theorem scale_ne {l m : ℤ} (h0 : 0 ≤ m) (h1 : m ≤ l) : cLm l m / (l + 1) ≠ 0 := by
  have : (0 : ℝ) ≤ l := by exact_mod_cast le_trans h0 h1
  exact div_ne_zero (cLm_ne h0 h1) (by positivity)

/-- Outside the pairs of both magnetograms there is nothing to compare. -/
theorem all_pairs {z z' : Zdi} (f : ZRow → ℂ) (P : ℤ → Prop) :
    (∀ k ∈ both z z', P k.1 → SameVisible k.2 (rowTotal f z k.1 k.2) (rowTotal f z' k.1 k.2)) ↔
      ∀ l m : ℤ, P l → SameVisible m (rowTotal f z l m) (rowTotal f z' l m) := by
  refine ⟨fun h l m hP => ?_, fun h k _ => h k.1 k.2⟩
  by_cases hk : (l, m) ∈ both z z'
  · exact h (l, m) hk hP
  · rw [rowTotal_absent (z := z), rowTotal_absent (z := z')]
    · exact ⟨rfl, fun _ => rfl⟩
    · rintro r hr ⟨rfl, rfl⟩
      exact hk (mem_both_right hr)
    · rintro r hr ⟨rfl, rfl⟩
      exact hk (mem_both_left hr)

end Identify

/-- **C102.** Two magnetograms show the same radial field exactly if their alpha coefficients agree, up to the imaginary
parts of order 0. -/
theorem C102_radial (z z' : Zdi) (h : ∀ r ∈ z, 0 ≤ r.m ∧ r.m ≤ r.l) (h' : ∀ r ∈ z', 0 ≤ r.m ∧ r.m ≤ r.l) :
    (∀ θ φ, OffAxis θ → radial z θ φ = radial z' θ φ) ↔
      ∀ l m : ℤ, SameVisible m (rowTotal ZRow.a z l m) (rowTotal ZRow.a z' l m) := by
  have hS := both_ok h h'
  have key := radial_null hS fun k => rowTotal (fun r => r.a * cLm r.l r.m) z k.1 k.2
    - rowTotal (fun r => r.a * cLm r.l r.m) z' k.1 k.2
  have e : (∀ θ φ, OffAxis θ → radial z θ φ = radial z' θ φ) ↔ ∀ θ φ, OffAxis θ →
      (K (both z z') (fun k => rowTotal (fun r => r.a * cLm r.l r.m) z k.1 k.2
        - rowTotal (fun r => r.a * cLm r.l r.m) z' k.1 k.2) thP θ φ).re = 0 := by
    refine forall_congr' fun θ => forall_congr' fun φ => forall_congr' fun hθ => ?_
    have hs := (Real.sin_pos_of_pos_of_lt_pi hθ.1 hθ.2).le
    rw [radial_eq h hs, radial_eq h' hs, harm_K _ _ z (fun r hr => mem_both_left (z' := z') hr),
      harm_K _ _ z' (fun r hr => mem_both_right (z := z) hr), K_sub, Complex.sub_re, sub_eq_zero]
  rw [e, key]
  have e2 := all_pairs (z := z) (z' := z') ZRow.a fun _ => True
  simp only [forall_true_left] at e2
  rw [← e2]
  refine forall_congr' fun k => forall_congr' fun hk => ?_
  rw [rowTotal_scale ZRow.a (fun l m => (cLm l m : ℂ)), rowTotal_scale ZRow.a (fun l m => (cLm l m : ℂ)), ← sub_mul,
    dark_mul_iff (cLm_ne (hS k hk).1 (hS k hk).2), dark_sub_iff]

/-- **C102.** They show the same tangential field exactly if their beta and their gamma coefficients agree, up to the imaginary
parts of order 0 and the coefficients of degree 0. -/
theorem C102_tangential (z z' : Zdi) (h : NonnegOrders z) (h' : NonnegOrders z') :
    (∀ θ φ, OffAxis θ → polar z θ φ = polar z' θ φ ∧ azimuthal z θ φ = azimuthal z' θ φ) ↔
      ∀ l m : ℤ, l ≠ 0 → SameVisible m (rowTotal ZRow.b z l m) (rowTotal ZRow.b z' l m) ∧
        SameVisible m (rowTotal ZRow.g z l m) (rowTotal ZRow.g z' l m) := by
  have hS := both_ok h.2 h'.2
  set sc : ℤ → ℤ → ℂ := fun l m => ((cLm l m / (l + 1) : ℝ) : ℂ) with hsc
  have hw : ∀ (f : ZRow → ℂ), (fun r : ZRow => f r * cLm r.l r.m / (r.l + 1)) = fun r => f r * sc r.l r.m := by
    intro f; funext r; simp only [hsc]; push_cast; ring
  have hwI : ∀ (f : ZRow → ℂ), (fun r : ZRow => Complex.I * r.m * (f r * cLm r.l r.m / (r.l + 1)))
      = fun r => f r * (Complex.I * r.m * sc r.l r.m) := by
    intro f; funext r; simp only [hsc]; push_cast; ring
  set u : ℤ × ℤ → ℂ := fun k => (rowTotal ZRow.b z k.1 k.2 - rowTotal ZRow.b z' k.1 k.2) * sc k.1 k.2 with hu
  set v : ℤ × ℤ → ℂ := fun k => (rowTotal ZRow.g z k.1 k.2 - rowTotal ZRow.g z' k.1 k.2) * sc k.1 k.2 with hv
  have key := tangential_null hS u v
  have hD : ∀ (f : ZRow → ℂ) θ φ, (harm (fun r => f r * cLm r.l r.m / (r.l + 1)) thD z θ φ).re
      - (harm (fun r => f r * cLm r.l r.m / (r.l + 1)) thD z' θ φ).re
      = (K (both z z') (fun k => (rowTotal f z k.1 k.2 - rowTotal f z' k.1 k.2) * sc k.1 k.2) thD θ φ).re := by
    intro f θ φ
    rw [hw, harm_K _ _ z (fun r hr => mem_both_left (z' := z') hr), harm_K _ _ z' (fun r hr => mem_both_right (z := z) hr),
      ← Complex.sub_re, ← K_sub]
    congr 1
    refine K_congr (fun k _ => ?_) _ _ _
    rw [rowTotal_scale, rowTotal_scale, sub_mul]
  have hP : ∀ (f : ZRow → ℂ) θ φ, (harm (fun r => Complex.I * r.m * (f r * cLm r.l r.m / (r.l + 1))) thP z θ φ).re
      - (harm (fun r => Complex.I * r.m * (f r * cLm r.l r.m / (r.l + 1))) thP z' θ φ).re
      = (K (both z z') (fun k => Complex.I * k.2 * ((rowTotal f z k.1 k.2 - rowTotal f z' k.1 k.2) * sc k.1 k.2))
        thP θ φ).re := by
    intro f θ φ
    rw [hwI, harm_K _ _ z (fun r hr => mem_both_left (z' := z') hr), harm_K _ _ z' (fun r hr => mem_both_right (z := z) hr),
      ← Complex.sub_re, ← K_sub]
    congr 1
    refine K_congr (fun k _ => ?_) _ _ _
    rw [rowTotal_scale f fun l m => Complex.I * m * sc l m, rowTotal_scale f fun l m => Complex.I * m * sc l m]
    ring
  have e : (∀ θ φ, OffAxis θ → polar z θ φ = polar z' θ φ ∧ azimuthal z θ φ = azimuthal z' θ φ) ↔ ∀ θ φ, OffAxis θ →
      -(K (both z z') u thD θ φ).re + (K (both z z') (fun k => Complex.I * k.2 * v k) thP θ φ).re / Real.sin θ = 0 ∧
      -((K (both z z') (fun k => Complex.I * k.2 * u k) thP θ φ).re / Real.sin θ) + -(K (both z z') v thD θ φ).re = 0 := by
    refine forall_congr' fun θ => forall_congr' fun φ => forall_congr' fun hθ => ?_
    have hs := Real.sin_pos_of_pos_of_lt_pi hθ.1 hθ.2
    rw [← hD ZRow.b θ φ, ← hP ZRow.b θ φ, ← hD ZRow.g θ φ, ← hP ZRow.g θ φ]
    simp only [polar, azimuthal, polarPoloidal_eq h hs, polarPoloidal_eq h' hs, azimuthalToroidal_eq h hs,
      azimuthalToroidal_eq h' hs, polarToroidal_eq h.2 hs.le, polarToroidal_eq h'.2 hs.le, azimuthalPoloidal_eq h.2 hs.le,
      azimuthalPoloidal_eq h'.2 hs.le, bind, Except.bind, pure, Except.pure, Except.ok.injEq]
    constructor
    · rintro ⟨e1, e2⟩
      exact ⟨by rw [sub_div]; linarith, by rw [sub_div]; linarith⟩
    · rintro ⟨e1, e2⟩
      rw [sub_div] at e1 e2
      exact ⟨by linarith, by linarith⟩
  rw [e, key]
  have e2 := all_pairs (z := z) (z' := z') ZRow.b fun l => l ≠ 0
  have e3 := all_pairs (z := z) (z' := z') ZRow.g fun l => l ≠ 0
  have e4 : (∀ l m : ℤ, l ≠ 0 → SameVisible m (rowTotal ZRow.b z l m) (rowTotal ZRow.b z' l m) ∧
        SameVisible m (rowTotal ZRow.g z l m) (rowTotal ZRow.g z' l m)) ↔
      (∀ l m : ℤ, l ≠ 0 → SameVisible m (rowTotal ZRow.b z l m) (rowTotal ZRow.b z' l m)) ∧
      ∀ l m : ℤ, l ≠ 0 → SameVisible m (rowTotal ZRow.g z l m) (rowTotal ZRow.g z' l m) :=
    ⟨fun H => ⟨fun l m hl => (H l m hl).1, fun l m hl => (H l m hl).2⟩, fun H l m hl => ⟨H.1 l m hl, H.2 l m hl⟩⟩
  rw [e4, ← e2, ← e3]
  have e5 : ∀ k ∈ both z z', ∀ x y : ℂ, Dark k.2 ((x - y) * sc k.1 k.2) ↔ SameVisible k.2 x y := fun k hk x y => by
    rw [hsc, dark_mul_iff (scale_ne (hS k hk).1 (hS k hk).2), dark_sub_iff]
  constructor
  · intro H
    exact ⟨fun k hk hl => (e5 k hk _ _).1 (H k hk hl).1, fun k hk hl => (e5 k hk _ _).1 (H k hk hl).2⟩
  · intro H k hk hl
    exact ⟨(e5 k hk _ _).2 (H.1 k hk hl), (e5 k hk _ _).2 (H.2 k hk hl)⟩

namespace Identify

theorem sameVisible_conj {m : ℤ} {x y : ℂ} :
    SameVisible m ((starRingEnd ℂ) x) ((starRingEnd ℂ) y) ↔ SameVisible m x y := by
  simp only [SameVisible, Complex.conj_re, Complex.conj_im, neg_inj]

theorem phiLm_eq (m : ℤ) (c : ℂ) (φ : ℝ) : (phiLm m c.re c.im φ).1 = ((starRingEnd ℂ) c * expi m φ).re := by
  have e : Complex.I * m * φ = ((m * φ : ℝ) : ℂ) * Complex.I := by push_cast; ring
  rw [phiLm, expi, e, Complex.exp_mul_I, ← Complex.ofReal_cos, ← Complex.ofReal_sin]
  simp only [Complex.mul_re, Complex.mul_im, Complex.add_re, Complex.add_im, Complex.conj_re, Complex.conj_im, Complex.ofReal_re,
    Complex.ofReal_im, Complex.I_re, Complex.I_im]
  ring

theorem phiLm_visible {m : ℤ} {x y : ℂ} (h : SameVisible m x y) (φ : ℝ) : phiLm m x.re x.im φ = phiLm m y.re y.im φ := by
  by_cases hm : m = 0
  · subst hm; simp [phiLm, h.1]
  · rw [h.1, h.2 hm]

theorem storedCoef_of {s : Coefs ℂ} {k : ℤ × ℤ} (hk : k ∈ pairs s) : storedCoef s k.1 k.2 = coef s k.1 k.2 := by
  rw [storedCoef, if_pos ((mem_pairs s k).1 hk)]

theorem storedCoef_not {s : Coefs ℂ} {k : ℤ × ℤ} (hk : k ∉ pairs s) : storedCoef s k.1 k.2 = 0 := by
  rw [storedCoef, if_neg fun h => hk ((mem_pairs s k).2 h)]

/-- The sum over the pairs of a set is a sum over any larger set of pairs. -/
theorem sum_pairs {s : Coefs ℂ} {S : Finset (ℤ × ℤ)} (hS : pairs s ⊆ S) (F : ℤ × ℤ → ℂ → ℝ) (h0 : ∀ k, F k 0 = 0) :
    ∑ k ∈ pairs s, F k (coef s k.1 k.2) = ∑ k ∈ S, F k (storedCoef s k.1 k.2) := by
  rw [← Finset.sum_subset hS fun k _ hk => by rw [storedCoef_not hk, h0]]
  exact Finset.sum_congr rfl fun k hk => by rw [storedCoef_of hk]

theorem rL_neg {l : ℤ} (hl : 0 ≤ l) {r r0 rss : ℝ} (hr : 0 < r) (h0 : 0 < r0) (h1 : 0 < rss) : (rL l r r0 rss).2 < 0 := by
  have hl' : (0 : ℝ) ≤ l := by exact_mod_cast hl
  have q1 : 0 < (r0 / r) ^ (l + 2) := zpow_pos (div_pos h0 hr) _
  have q2 : 0 < (r / rss) ^ (2 * l + 1) := zpow_pos (div_pos hr h1) _
  have q3 : 0 < (r0 / rss) ^ (2 * l + 1) := zpow_pos (div_pos h0 h1) _
  rw [rL]
  refine div_neg_of_neg_of_pos (mul_neg_of_neg_of_pos (neg_lt_zero.2 q1) ?_) ?_ <;> positivity

theorem thetaScale_ne {l m : ℤ} (h0 : 0 ≤ m) (h1 : m ≤ l) : thetaScale l m ≠ 0 := by
  have f1 : 0 < spFactorial (l - m) := by rw [spFactorial, if_neg (by omega)]; positivity
  have f2 : 0 < spFactorial (l + m) := by rw [spFactorial, if_neg (by omega)]; positivity
  have f3 : (0 : ℝ) < 2 - if m = 0 then 1 else 0 := by split_ifs <;> norm_num
  rw [thetaScale]
  have : (-1 : ℝ) ^ m ≠ 0 := zpow_ne_zero _ (by norm_num)
  have q1 := Real.sqrt_pos.2 (div_pos f1 f2)
  have q2 := Real.sqrt_pos.2 f3
  exact mul_ne_zero (mul_ne_zero this q1.ne') q2.ne'

/-- The weight of a coefficient in the radial field. -/
noncomputable def wt (r0 rss r : ℝ) (k : ℤ × ℤ) : ℝ := -(rL k.1 r r0 rss).2 * thetaScale k.1 k.2

theorem wt_ne {k : ℤ × ℤ} (hk : 0 ≤ k.2 ∧ k.2 ≤ k.1) {r r0 rss : ℝ} (hr : 0 < r) (h0 : 0 < r0) (h1 : 0 < rss) :
    wt r0 rss r k ≠ 0 :=
  mul_ne_zero (neg_ne_zero.2 (rL_neg (hk.1.trans hk.2) hr h0 h1).ne) (thetaScale_ne hk.1 hk.2)

theorem fR_K {s : Coefs ℂ} {S : Finset (ℤ × ℤ)} (hS : pairs s ⊆ S) (r0 rss r : ℝ) {θ : ℝ} (hs : 0 ≤ Real.sin θ) (φ : ℝ) :
    fR s r0 rss r θ φ
      = (K S (fun k => (starRingEnd ℂ) (storedCoef s k.1 k.2) * (wt r0 rss r k : ℝ)) thP θ φ).re := by
  rw [fR, sum_pairs hS (fun k c => -((rL k.1 r r0 rss).2 * tv θ k * (phiLm k.2 c.re c.im φ).1)) (by simp [phiLm]), K,
    Complex.re_sum]
  refine Finset.sum_congr rfl fun k _ => ?_
  rw [phiLm_eq, tv, legendreP_cos _ _ hs, wt]
  have e : (starRingEnd ℂ) (storedCoef s k.1 k.2) * ((-(rL k.1 r r0 rss).2 * thetaScale k.1 k.2 : ℝ) : ℂ)
      * ((thP k.1.toNat k.2.toNat θ : ℝ) : ℂ) * expi k.2 φ
      = ((-(rL k.1 r r0 rss).2 * thetaScale k.1 k.2 * thP k.1.toNat k.2.toNat θ : ℝ) : ℂ)
        * ((starRingEnd ℂ) (storedCoef s k.1 k.2) * expi k.2 φ) := by push_cast; ring
  rw [e, Complex.re_ofReal_mul]
  ring

theorem evalSpherical_fst {s : Coefs ℂ} (h : RadialSet s) {r0 rss r : ℝ} (h0 : 0 < r0) (h1 : r0 < rss) (hr : r0 ≤ r) (θ φ : ℝ) :
    ∃ f, evalSpherical s r θ φ r0 rss = .ok f ∧ f.1 = fR s r0 rss (min r rss) θ φ * (min r rss / r) ^ 2 := by
  have hp : 0 < r := h0.trans_le hr
  rw [evalSpherical_eq h h1, if_neg hr.not_gt]
  by_cases h2 : rss < r
  · rw [if_pos h2, min_eq_right h2.le]
    exact ⟨_, rfl, rfl⟩
  · rw [if_neg h2, min_eq_left (not_lt.1 h2), div_self hp.ne']
    exact ⟨_, rfl, by simp⟩

theorem thP_21 (t : ℝ) : thP 2 1 t = -3 * Real.sin t * Real.cos t := by
  simp [thP, rod, rodBase, rodNorm, Polynomial.derivative_pow]
  ring

theorem thD_11' (t : ℝ) : thD 1 1 t = -Real.cos t := by
  simp [thD, rod, rodBase, rodNorm]
  ring

end Identify

/-- **C102.** Two sets of radial coefficients give the same radial field on one sphere, anywhere on or above the surface and even
beyond the source surface, exactly if the coefficients agree up to the imaginary parts of order 0; a pair that is not stored
counts as zero. -/
theorem C102_pfss (s t : Coefs ℂ) (hs : RadialSet s) (ht : RadialSet t) (r0 rss r : ℝ) (h0 : 0 < r0) (h1 : r0 < rss)
    (hr : r0 ≤ r) :
    (∀ θ φ, OffAxis θ → ∀ f g, evalSpherical s r θ φ r0 rss = .ok f → evalSpherical t r θ φ r0 rss = .ok g → f.1 = g.1) ↔
      ∀ l m : ℤ, SameVisible m (storedCoef s l m) (storedCoef t l m) := by
  have hp : 0 < r := h0.trans_le hr
  have hq : 0 < min r rss := lt_min hp (h0.trans h1)
  set S := pairs s ∪ pairs t with hSdef
  have hS : ∀ k ∈ S, 0 ≤ k.2 ∧ k.2 ≤ k.1 := by
    intro k hk
    rcases Finset.mem_union.1 hk with hk | hk
    · exact hs.bounds (by simpa [pairs_eq] using hk)
    · exact ht.bounds (by simpa [pairs_eq] using hk)
  have key := radial_null hS fun k => (starRingEnd ℂ) (storedCoef s k.1 k.2) * (wt r0 rss (min r rss) k : ℝ)
    - (starRingEnd ℂ) (storedCoef t k.1 k.2) * (wt r0 rss (min r rss) k : ℝ)
  have e : (∀ θ φ, OffAxis θ → ∀ f g, evalSpherical s r θ φ r0 rss = .ok f → evalSpherical t r θ φ r0 rss = .ok g →
      f.1 = g.1) ↔ ∀ θ φ, OffAxis θ → (K S (fun k => (starRingEnd ℂ) (storedCoef s k.1 k.2) * (wt r0 rss (min r rss) k : ℝ)
        - (starRingEnd ℂ) (storedCoef t k.1 k.2) * (wt r0 rss (min r rss) k : ℝ)) thP θ φ).re = 0 := by
    refine forall_congr' fun θ => forall_congr' fun φ => forall_congr' fun hθ => ?_
    have hsin := (Real.sin_pos_of_pos_of_lt_pi hθ.1 hθ.2).le
    obtain ⟨f, ef, hf⟩ := evalSpherical_fst hs h0 h1 hr θ φ
    obtain ⟨g, eg, hg⟩ := evalSpherical_fst ht h0 h1 hr θ φ
    rw [K_sub, Complex.sub_re, ← fR_K Finset.subset_union_left _ _ _ hsin, ← fR_K Finset.subset_union_right _ _ _ hsin,
      sub_eq_zero, ef, eg]
    have hne : (min r rss / r) ^ 2 ≠ 0 := pow_ne_zero _ (div_pos hq hp).ne'
    constructor
    · intro H
      have := H f g rfl rfl
      rw [hf, hg] at this
      exact mul_right_cancel₀ hne this
    · rintro H f' g' ef' eg'
      cases ef'; cases eg'
      rw [hf, hg, H]
  rw [e, key]
  constructor
  · intro H l m
    by_cases hk : (l, m) ∈ S
    · have := H (l, m) hk
      rw [← sub_mul, dark_mul_iff (wt_ne (hS _ hk) hq h0 (h0.trans h1)), dark_sub_iff, sameVisible_conj] at this
      exact this
    · rw [hSdef, Finset.mem_union, not_or] at hk
      rw [storedCoef_not (k := (l, m)) hk.1, storedCoef_not (k := (l, m)) hk.2]
      exact ⟨rfl, fun _ => rfl⟩
  · intro H k hk
    rw [← sub_mul, dark_mul_iff (wt_ne (hS _ hk) hq h0 (h0.trans h1)), dark_sub_iff, sameVisible_conj]
    exact H k.1 k.2

/-- **C102.** The radial field on one such sphere thus fixes all three components at every point. -/
theorem C102_one_sphere (s t : Coefs ℂ) (hs : RadialSet s) (ht : RadialSet t) (r0 rss r : ℝ) (h0 : 0 < r0) (h1 : r0 < rss)
    (hr : r0 ≤ r)
    (he : ∀ θ φ, OffAxis θ → ∀ f g, evalSpherical s r θ φ r0 rss = .ok f → evalSpherical t r θ φ r0 rss = .ok g → f.1 = g.1)
    (r' θ φ : ℝ) : evalSpherical s r' θ φ r0 rss = evalSpherical t r' θ φ r0 rss := by
  have H := (C102_pfss s t hs ht r0 rss r h0 h1 hr).1 he
  have q : ∀ (F : ℤ × ℤ → ℝ × ℝ → ℝ) (_ : ∀ k, F k (0, 0) = 0),
      ∑ k ∈ pairs s, F k (phiLm k.2 (coef s k.1 k.2).re (coef s k.1 k.2).im φ)
        = ∑ k ∈ pairs t, F k (phiLm k.2 (coef t k.1 k.2).re (coef t k.1 k.2).im φ) := by
    intro F hF
    rw [sum_pairs (S := pairs s ∪ pairs t) Finset.subset_union_left (fun k c => F k (phiLm k.2 c.re c.im φ))
        (fun k => by simp [phiLm, hF]),
      sum_pairs (S := pairs s ∪ pairs t) Finset.subset_union_right (fun k c => F k (phiLm k.2 c.re c.im φ))
        (fun k => by simp [phiLm, hF])]
    exact Finset.sum_congr rfl fun k _ => by rw [phiLm_visible (H k.1 k.2)]
  have qR : ∀ ρ, fR s r0 rss ρ θ φ = fR t r0 rss ρ θ φ := fun ρ =>
    q (fun k p => -((rL k.1 ρ r0 rss).2 * tv θ k * p.1)) (by simp)
  have qP : ∀ ρ, fP s r0 rss ρ θ φ = fP t r0 rss ρ θ φ := fun ρ =>
    q (fun k p => -((rL k.1 ρ r0 rss).1 * td θ k * p.1 / ρ)) (by simp)
  have qA : ∀ ρ, fA s r0 rss ρ θ φ = fA t r0 rss ρ θ φ := fun ρ =>
    q (fun k p => -((rL k.1 ρ r0 rss).1 * tv θ k * p.2 / (ρ * Real.sin θ))) (by simp)
  rw [evalSpherical_eq hs h1, evalSpherical_eq ht h1]
  simp only [qR, qP, qA]

/-- **C102.** The polar component alone does not tell a poloidal from a toroidal field: every poloidal dipole of order 1 has the
polar component of a toroidal quadrupole, while the azimuthal components differ. -/
theorem C102_polar_ambiguous (β : ℂ) (hβ : β ≠ 0) : ∃ γ : ℂ,
    (∀ θ φ, OffAxis θ → polar [⟨1, 1, 0, β, 0⟩] θ φ = polar [⟨2, 1, 0, 0, γ⟩] θ φ) ∧
    ∃ θ φ, OffAxis θ ∧ azimuthal [⟨1, 1, 0, β, 0⟩] θ φ ≠ azimuthal [⟨2, 1, 0, 0, γ⟩] θ φ := by
  have h : NonnegOrders [⟨1, 1, 0, β, 0⟩] := ⟨by simp, by simp⟩
  have h' : ∀ γ : ℂ, NonnegOrders [⟨2, 1, 0, 0, γ⟩] := fun γ => ⟨by simp, by simp⟩
  have hc : (cLm 2 1 : ℂ) ≠ 0 := by exact_mod_cast cLm_ne (l := 2) (m := 1) (by norm_num) (by norm_num)
  refine ⟨Complex.I * β * cLm 1 1 / (2 * cLm 2 1), ?_⟩
  set γ : ℂ := Complex.I * β * cLm 1 1 / (2 * cLm 2 1) with hγ
  have hp : ∀ θ φ, OffAxis θ → polar [⟨1, 1, 0, β, 0⟩] θ φ = polar [⟨2, 1, 0, 0, γ⟩] θ φ := by
    intro θ φ hθ
    have hs := Real.sin_pos_of_pos_of_lt_pi hθ.1 hθ.2
    simp only [polar, polarPoloidal_eq h hs, polarPoloidal_eq (h' γ) hs, polarToroidal_eq h.2 hs.le,
      polarToroidal_eq (h' γ).2 hs.le, bind, Except.bind, pure, Except.pure]
    congr 1
    have e1 : β * cLm 1 1 / ((1 : ℤ) + 1) * ((thD 1 1 θ : ℝ) : ℂ) * expi 1 φ
        = ((-Real.cos θ / 2 : ℝ) : ℂ) * (β * cLm 1 1 * expi 1 φ) := by
      rw [thD_11']; push_cast; ring
    have e2 : Complex.I * (1 : ℤ) * (γ * cLm 2 1 / ((2 : ℤ) + 1)) * ((thP 2 1 θ : ℝ) : ℂ) * expi 1 φ
        = ((Real.sin θ * (Real.cos θ / 2) : ℝ) : ℂ) * (β * cLm 1 1 * expi 1 φ) := by
      rw [thP_21, hγ]
      push_cast
      field_simp
      ring_nf
      rw [Complex.I_sq]
      ring
    have e3 : (harm (fun r => r.b * cLm r.l r.m / (r.l + 1)) thD [⟨1, 1, 0, β, 0⟩] θ φ)
        = ((-Real.cos θ / 2 : ℝ) : ℂ) * (β * cLm 1 1 * expi 1 φ) := by
      rw [← e1]; simp [harm]
    have e4 : (harm (fun r => Complex.I * r.m * (r.g * cLm r.l r.m / (r.l + 1))) thP [⟨2, 1, 0, 0, γ⟩] θ φ)
        = ((Real.sin θ * (Real.cos θ / 2) : ℝ) : ℂ) * (β * cLm 1 1 * expi 1 φ) := by
      rw [← e2]; simp [harm]
    have e5 : (harm (fun r => Complex.I * r.m * (r.g * cLm r.l r.m / (r.l + 1))) thP [⟨1, 1, 0, β, 0⟩] θ φ) = 0 := by
      simp [harm]
    have e6 : (harm (fun r => r.b * cLm r.l r.m / (r.l + 1)) thD [⟨2, 1, 0, 0, γ⟩] θ φ) = 0 := by
      simp [harm]
    rw [e3, e4, e5, e6, Complex.re_ofReal_mul, Complex.re_ofReal_mul]
    simp only [Complex.zero_re]
    field_simp
    ring
  refine ⟨hp, ?_⟩
  by_contra hn
  push Not at hn
  have := ((C102_tangential _ _ h (h' γ)).1 (fun θ φ hθ => ⟨hp θ φ hθ, hn θ φ hθ⟩) 1 1 one_ne_zero).1
  simp only [rowTotal, SameVisible] at this
  simp at this
  exact hβ (Complex.ext this.1 this.2)

/-- Two tables with the rows in another order, one row split in two and another imaginary part at order 0: the hypotheses of
`C102_radial` and of `C102_tangential` are met, and so are both sides. -/
example : (∀ θ φ, OffAxis θ → radial [⟨1, 0, 2, 0, 0⟩, ⟨1, 1, 3 + Complex.I, 0, 0⟩] θ φ
    = radial [⟨1, 1, 3, 0, 0⟩, ⟨1, 0, 2 + 5 * Complex.I, 0, 0⟩, ⟨1, 1, Complex.I, 0, 0⟩] θ φ) := by
  refine (C102_radial _ _ (by simp) (by simp)).2 fun l m => ?_
  simp only [rowTotal_cons, SameVisible]
  by_cases h1 : l = 1 <;> by_cases h2 : m = 0 <;> by_cases h3 : m = 1 <;> simp_all [rowTotal, eq_comm]

/-- Two tables that differ in one imaginary part of order 1 show different radial fields. -/
example : ¬ ∀ θ φ, OffAxis θ → radial [⟨1, 1, 3, 0, 0⟩] θ φ = radial [⟨1, 1, 3 + Complex.I, 0, 0⟩] θ φ := by
  intro h
  have := (C102_radial _ _ (by simp) (by simp)).1 h 1 1
  simp [rowTotal, SameVisible] at this

/-- A dipole along the axis, with an imaginary part that does not show. -/
private noncomputable def exIdent (c : ℂ) : Coefs ℂ := ⟨[0], .cplx, [((1, 0), [c])], 1, 0⟩

private theorem exIdent_radial (c : ℂ) : RadialSet (exIdent c) := by
  have hr : Reach (exIdent c) := by
    refine Reach.append (s := Coefs.new [0] .cplx) (.int 1) (.int 0) [c] ?_ rfl
    exact Reach.new _ _ (by simp)
  refine ⟨wellFormed_of_WF hr.WF, rfl, ⟨1, 0, rfl⟩, fun l m hm => ?_⟩
  have := (Coefs.has_int (exIdent c) l m).1 hm
  simp only [Coefs.keys, exIdent, List.map_cons, List.map_nil, List.mem_singleton, Prod.mk.injEq] at this
  omega

/-- `C102_pfss` and `C102_one_sphere` apply to two different sets: dipoles 1 and 1 + i of order 0 give the same field. -/
example (θ φ : ℝ) : evalSpherical (exIdent 1) 2 θ φ 1 2.5 = evalSpherical (exIdent (1 + Complex.I)) 2 θ φ 1 2.5 := by
  refine C102_one_sphere _ _ (exIdent_radial _) (exIdent_radial _) 1 2.5 5 one_pos (by norm_num) (by norm_num)
    ((C102_pfss _ _ (exIdent_radial _) (exIdent_radial _) 1 2.5 5 one_pos (by norm_num) (by norm_num)).2 fun l m => ?_) 2 θ φ
  have st : ∀ c, stores (exIdent c) l m ↔ (l, m) = (1, 0) := fun c => by
    rw [stores, Coefs.has_int]; simp [Coefs.keys, exIdent]
  have cf : ∀ c, coef (exIdent c) 1 0 = c := fun c => rfl
  by_cases h : (l, m) = (1, 0)
  · rw [storedCoef, storedCoef, if_pos ((st _).2 h), if_pos ((st _).2 h)]
    obtain ⟨rfl, rfl⟩ := Prod.mk.inj h
    rw [cf, cf]
    exact ⟨by simp, fun h => absurd rfl h⟩
  · rw [storedCoef, storedCoef, if_neg fun q => h ((st _).1 q), if_neg fun q => h ((st _).1 q)]
    exact ⟨rfl, fun _ => rfl⟩

end Verif
