import Verif.Model.FloatRotate
import Verif.Props.FloatFold
import Verif.Props.Wigner

/-!
# Property C129: rotating a magnetogram in double precision
-/

set_option exponentiation.threshold 4000

namespace Verif
open Spec PyFloat FloatRange FloatSets FloatRound FloatDescribe FloatFold

/-- The number in column `j` of a complex128 set at degree `l` and order `m`. -/
noncomputable def Spec.colAt (s : Coefs PyComplex) (l m : ℤ) (j : ℕ) : ℂ := cval ((valueAt s l m).getD j zeroJ)

/-- Finite matrix elements within `η` of those of `E`. -/
def Spec.GoodElements (D : ℤ → ℤ → ℤ → PyComplex) (E : ℤ → ℤ → ℤ → ℂ) (η : ℝ) : Prop :=
  ∀ l m m' : ℤ, |m| ≤ l → |m'| ≤ l → FinD (D l m m').1 ∧ FinD (D l m m').2 ∧ ‖cval (D l m m') - E l m m'‖ ≤ η

namespace FloatRotate

theorem parts_le_norm (z : PyComplex) : |(z.1.num : ℝ)| ≤ ‖cval z‖ ∧ |(z.2.num : ℝ)| ≤ ‖cval z‖ :=
  ⟨Complex.abs_re_le_norm (cval z), Complex.abs_im_le_norm (cval z)⟩

theorem norm_le_parts {c : ℂ} {M : ℝ} (h : PartsLe M c) : ‖c‖ ≤ 2 * M := by
  refine (Complex.norm_le_abs_re_add_abs_im _).trans ?_
  linarith [h.1, h.2]

/-- A product of complex numbers. -/
theorem cmul_close {z w : PyComplex} (z1 : FinD z.1) (z2 : FinD z.2) (w1 : FinD w.1) (w2 : FinD w.2) (hz : ‖cval z‖ ≤ 2) {M : ℝ} (hM : M ≤ 2 ^ 900) (hw : PartsLe M (cval w)) :
    FinD (cmul z w).1 ∧ FinD (cmul z w).2 ∧ ‖cval (cmul z w) - cval z * cval w‖ ≤ M / 2 ^ 48 + 8 * (1 / 2 ^ 1000) := by
  have M0 : 0 ≤ M := (abs_nonneg _).trans hw.1
  obtain ⟨a1, a2⟩ := parts_le_norm z
  have τ0 : (0 : ℝ) ≤ 1 / 2 ^ 1000 := by positivity
  have τ1 : (1 : ℝ) / 2 ^ 1000 ≤ 1 := by rw [div_le_one (by positivity)]; exact one_le_pow₀ (by norm_num)
  have P : 8 * M + 8 * (1 / 2 ^ 1000) ≤ (2 : ℝ) ^ 910 := by
    rw [show (910 : ℕ) = 10 + 900 by norm_num, pow_add]
    have : (1 : ℝ) ≤ 2 ^ 900 := one_le_pow₀ (by norm_num)
    generalize (2 : ℝ) ^ 900 = x at *
    generalize (1 : ℝ) / 2 ^ 1000 = τ at *
    norm_num
    linarith
  have prod : ∀ x y : PyFloat, FinD x → FinD y → |(x.num : ℝ)| ≤ 2 → |(y.num : ℝ)| ≤ M →
      FinD (mul x y) ∧ |((mul x y).num : ℝ) - x.num * y.num| ≤ 2 * M / 2 ^ 53 + 1 / 2 ^ 1000 ∧ |(x.num : ℝ) * y.num| ≤ 2 * M := by
    intro x y hx hy h1 h2
    have b : |(x.num : ℝ) * y.num| ≤ 2 * M := by
      rw [abs_mul]
      exact mul_le_mul h1 h2 (abs_nonneg _) (by norm_num)
    obtain ⟨f, g⟩ := FloatDescribe.mul_real hx hy (k := 910) (by
      refine b.trans (le_trans ?_ P)
      linarith) (by norm_num)
    refine ⟨f, g.trans (add_le_add ?_ le_rfl), b⟩
    exact div_le_div_of_nonneg_right b (by norm_num)
  have sum : ∀ x y : PyFloat, ∀ a b : ℝ, FinD x → FinD y → |(x.num : ℝ) - a| ≤ 2 * M / 2 ^ 53 + 1 / 2 ^ 1000 → |(y.num : ℝ) - b| ≤ 2 * M / 2 ^ 53 + 1 / 2 ^ 1000 →
      |a| ≤ 2 * M → |b| ≤ 2 * M → FinD (add x y) ∧ |((add x y).num : ℝ) - (a + b)| ≤ 9 * M / 2 ^ 53 + 4 * (1 / 2 ^ 1000) := by
    intro x y a b hx hy h1 h2 h3 h4
    have e : |(x.num : ℝ) + y.num - (a + b)| ≤ 2 * (2 * M / 2 ^ 53 + 1 / 2 ^ 1000) := by
      rw [show (x.num : ℝ) + y.num - (a + b) = (x.num - a) + (y.num - b) by ring]
      exact (abs_add_le _ _).trans (by linarith)
    have c : |(x.num : ℝ) + y.num| ≤ 4 * M + 2 * (2 * M / 2 ^ 53 + 1 / 2 ^ 1000) := by
      have := abs_sub_abs_le_abs_sub ((x.num : ℝ) + y.num) (a + b)
      have := abs_add_le a b
      linarith
    obtain ⟨f, g⟩ := FloatDescribe.add_real hx hy (k := 910) (by
      refine c.trans (le_trans ?_ P)
      clear * - M0 τ0
      generalize (1 : ℝ) / 2 ^ 1000 = τ at *
      norm_num
      linarith) (by norm_num)
    refine ⟨f, ?_⟩
    have t := abs_sub_le ((add x y).num : ℝ) (x.num + y.num) (a + b)
    clear * - t g c e M0 τ0
    generalize (1 : ℝ) / 2 ^ 1000 = τ at *
    generalize |(x.num : ℝ) + y.num| = q1 at *
    generalize |(x.num : ℝ) + y.num - (a + b)| = q2 at *
    generalize |((add x y).num : ℝ) - (x.num + y.num)| = q3 at *
    generalize |((add x y).num : ℝ) - (a + b)| = q4 at *
    norm_num at *
    linarith
  obtain ⟨p1, p2, p3⟩ := prod z.1 w.1 z1 w1 (a1.trans hz) hw.1
  obtain ⟨q1, q2, q3⟩ := prod z.2 w.2 z2 w2 (a2.trans hz) hw.2
  obtain ⟨r1, r2, r3⟩ := prod z.1 w.2 z1 w2 (a1.trans hz) hw.2
  obtain ⟨s1, s2, s3⟩ := prod z.2 w.1 z2 w1 (a2.trans hz) hw.1
  obtain ⟨n1, n2⟩ := FloatRound.neg_num q1
  have n2' : ((neg (mul z.2 w.2)).num : ℝ) = -(mul z.2 w.2).num := by rw [n2]; push_cast; rfl
  obtain ⟨u1, u2⟩ := sum _ _ _ (-((z.2.num : ℝ) * w.2.num)) p1 n1 p2 (by
    rw [n2', show ∀ a b : ℝ, -a - -b = -(a - b) from fun a b => by ring, abs_neg]; exact q2) p3 (by rw [abs_neg]; exact q3)
  obtain ⟨v1, v2⟩ := sum _ _ _ _ r1 s1 r2 s2 r3 s3
  refine ⟨u1, v1, ?_⟩
  refine (norm_parts (a := 9 * M / 2 ^ 53 + 4 * (1 / 2 ^ 1000)) ?_ ?_).trans ?_
  · refine le_of_eq_of_le ?_ u2
    rw [← sub_eq_add_neg]
    rfl
  · exact v2
  · clear * - M0 τ0
    generalize (1 : ℝ) / 2 ^ 1000 = τ at *
    norm_num
    linarith

/-- What one term of the loop adds to the error. -/
noncomputable def step (N M η : ℝ) : ℝ := 2 * M * η + M / 2 ^ 48 + 8 * (1 / 2 ^ 1000) + (N * M / 2 ^ 48 + 4 * (1 / 2 ^ 1000))

/-- The loop for one column. -/
theorem sum_ok {N M η : ℝ} (hN : N ≤ 2 ^ 20) (hM : M ≤ 2 ^ 900) (h0 : 0 ≤ η) (h1 : η ≤ 1 / 2) (d : ℤ → PyComplex) (E : ℤ → ℂ) (v : ℤ → PyComplex) :
    ∀ ms : List ℤ, (∀ m ∈ ms, (FinD (d m).1 ∧ FinD (d m).2 ∧ ‖cval (d m) - E m‖ ≤ η) ∧ ‖E m‖ ≤ 1 ∧ (FinD (v m).1 ∧ FinD (v m).2) ∧ PartsLe M (cval (v m))) →
    ∀ (x : PyComplex) (A : ℂ) (k : ℕ), FinD x.1 → FinD x.2 → ‖cval x - A‖ ≤ k * step N M η → ‖A‖ ≤ k * (2 * M) → (k : ℝ) + ms.length ≤ N →
      FinD (ms.foldl (fun x m => cadd x (cmul (d m) (v m))) x).1 ∧ FinD (ms.foldl (fun x m => cadd x (cmul (d m) (v m))) x).2 ∧
      ‖cval (ms.foldl (fun x m => cadd x (cmul (d m) (v m))) x) - (A + (ms.map fun m => E m * cval (v m)).sum)‖ ≤ ((k : ℝ) + ms.length) * step N M η := by
  intro ms
  induction ms with
  | nil =>
    intro _ x A k x1 x2 hx _ _
    simpa using ⟨x1, x2, hx⟩
  | cons m ms ih =>
    intro h x A k x1 x2 hx hA hk
    obtain ⟨⟨d1, d2, d3⟩, e1, ⟨v1, v2⟩, v3⟩ := h m (by simp)
    have M0 : 0 ≤ M := (abs_nonneg _).trans v3.1
    have k0 : (0 : ℝ) ≤ k := Nat.cast_nonneg _
    have l0 : (0 : ℝ) ≤ ms.length := Nat.cast_nonneg _
    rw [List.length_cons, Nat.cast_add, Nat.cast_one] at hk
    have τ0 : (0 : ℝ) ≤ 1 / 2 ^ 1000 := by positivity
    have τ1 : (1 : ℝ) / 2 ^ 1000 ≤ 1 := by rw [div_le_one (by positivity)]; exact one_le_pow₀ (by norm_num)
    have dn : ‖cval (d m)‖ ≤ 2 := by
      have := norm_sub_norm_le (cval (d m)) (E m)
      linarith
    obtain ⟨c1, c2, c3⟩ := cmul_close d1 d2 v1 v2 dn hM v3
    have vn := norm_le_parts v3
    have y1 : ‖cval (cmul (d m) (v m)) - E m * cval (v m)‖ ≤ 2 * M * η + M / 2 ^ 48 + 8 * (1 / 2 ^ 1000) := by
      have e : cval (cmul (d m) (v m)) - E m * cval (v m) = (cval (cmul (d m) (v m)) - cval (d m) * cval (v m)) + (cval (d m) - E m) * cval (v m) := by ring
      rw [e]
      refine (norm_add_le _ _).trans ?_
      have : ‖(cval (d m) - E m) * cval (v m)‖ ≤ η * (2 * M) := by
        rw [norm_mul]
        exact mul_le_mul d3 vn (norm_nonneg _) h0
      linarith
    have y2 : ‖E m * cval (v m)‖ ≤ 2 * M := by
      rw [norm_mul]
      exact (mul_le_of_le_one_left (norm_nonneg _) e1).trans vn
    have δ1 : 2 * M * η + M / 2 ^ 48 + 8 * (1 / 2 ^ 1000) ≤ 2 * M + 8 * (1 / 2 ^ 1000) := by
      have := mul_le_mul_of_nonneg_left h1 (show 0 ≤ 2 * M by linarith)
      have : M / 2 ^ 48 ≤ M := div_le_self M0 (by norm_num)
      linarith
    have NM : N * M / 2 ^ 48 ≤ M := by
      have := mul_le_mul_of_nonneg_right hN M0
      rw [div_le_iff₀ (by norm_num)]
      linarith
    have s1 : step N M η ≤ 3 * M + 12 * (1 / 2 ^ 1000) := by
      rw [step]
      linarith
    have s0 : 0 ≤ step N M η := by
      rw [step]
      have : 0 ≤ 2 * M * η := by positivity
      have : 0 ≤ M / 2 ^ 48 := by positivity
      have : 0 ≤ N * M / 2 ^ 48 := div_nonneg (mul_nonneg (by linarith) M0) (by norm_num)
      linarith
    have size : ‖cval x‖ + ‖cval (cmul (d m) (v m))‖ ≤ N * (5 * M + 12 * (1 / 2 ^ 1000)) := by
      have a := norm_sub_norm_le (cval x) A
      have b := norm_sub_norm_le (cval (cmul (d m) (v m))) (E m * cval (v m))
      have c : ((k : ℝ) + 1) * (5 * M + 12 * (1 / 2 ^ 1000)) ≤ N * (5 * M + 12 * (1 / 2 ^ 1000)) := mul_le_mul_of_nonneg_right (by linarith) (by linarith)
      have d : (k : ℝ) * step N M η ≤ k * (3 * M + 12 * (1 / 2 ^ 1000)) := mul_le_mul_of_nonneg_left s1 k0
      refine le_trans ?_ c
      linarith
    have big : N * (5 * M + 12 * (1 / 2 ^ 1000)) ≤ (2 : ℝ) ^ 930 := by
      have : (1 : ℝ) ≤ 2 ^ 900 := one_le_pow₀ (by norm_num)
      calc N * (5 * M + 12 * (1 / 2 ^ 1000)) ≤ 2 ^ 20 * (17 * 2 ^ 900) := mul_le_mul hN (by linarith) (by linarith) (by norm_num)
        _ ≤ _ := by
          rw [show (930 : ℕ) = 30 + 900 by norm_num, pow_add]
          generalize (2 : ℝ) ^ 900 = y at *
          norm_num
          linarith
    have part : ∀ a b : PyFloat, FinD a → FinD b → |(a.num : ℝ)| ≤ ‖cval x‖ → |(b.num : ℝ)| ≤ ‖cval (cmul (d m) (v m))‖ →
        FinD (add a b) ∧ |((add a b).num : ℝ) - (a.num + b.num)| ≤ N * M / 2 ^ 49 + 2 * (1 / 2 ^ 1000) := by
      intro a b ha hb b1 b2
      have c : |(a.num : ℝ) + b.num| ≤ N * (5 * M + 12 * (1 / 2 ^ 1000)) := (abs_add_le _ _).trans (le_trans (add_le_add b1 b2) size)
      obtain ⟨f, g⟩ := FloatDescribe.add_real ha hb (c.trans big) (by norm_num)
      refine ⟨f, g.trans ?_⟩
      have e : N * (1 / 2 ^ 1000) ≤ 2 ^ 20 * (1 / 2 ^ 1000) := mul_le_mul_of_nonneg_right hN τ0
      have e' : 0 ≤ N * M := mul_nonneg (by linarith) M0
      rw [mul_add, show N * (5 * M) = 5 * (N * M) by ring, show N * (12 * (1 / 2 ^ 1000)) = 12 * (N * (1 / 2 ^ 1000)) by ring] at c
      clear * - c e e' τ0
      generalize |(a.num : ℝ) + b.num| = q at *
      generalize N * (1 / 2 ^ 1000) = r at *
      generalize N * M = u at *
      generalize (1 : ℝ) / 2 ^ 1000 = τ at *
      norm_num at *
      linarith
    obtain ⟨f1, g1⟩ := part _ _ x1 c1 (parts_le_norm x).1 (parts_le_norm (cmul (d m) (v m))).1
    obtain ⟨f2, g2⟩ := part _ _ x2 c2 (parts_le_norm x).2 (parts_le_norm (cmul (d m) (v m))).2
    have add1 : ‖cval (cadd x (cmul (d m) (v m))) - (cval x + cval (cmul (d m) (v m)))‖ ≤ N * M / 2 ^ 48 + 4 * (1 / 2 ^ 1000) := by
      refine (norm_parts (a := N * M / 2 ^ 49 + 2 * (1 / 2 ^ 1000)) g1 g2).trans (le_of_eq ?_)
      rw [show (2 : ℝ) ^ 49 = 2 ^ 48 * 2 by norm_num]
      ring
    have next : ‖cval (cadd x (cmul (d m) (v m))) - (A + E m * cval (v m))‖ ≤ ((k + 1 : ℕ) : ℝ) * step N M η := by
      have e : cval (cadd x (cmul (d m) (v m))) - (A + E m * cval (v m)) = (cval (cadd x (cmul (d m) (v m))) - (cval x + cval (cmul (d m) (v m)))) +
          ((cval x - A) + (cval (cmul (d m) (v m)) - E m * cval (v m))) := by ring
      rw [e]
      refine (norm_add_le _ _).trans ((add_le_add add1 ((norm_add_le _ _).trans (add_le_add hx y1))).trans (le_of_eq ?_))
      push_cast
      rw [step]
      ring
    have := ih (fun m' hm' => h m' (by simp [hm'])) (cadd x (cmul (d m) (v m))) (A + E m * cval (v m)) (k + 1) f1 f2 next ((norm_add_le _ _).trans (by push_cast; linarith))
      (by push_cast; linarith)
    rw [List.foldl_cons, List.map_cons, List.sum_cons, List.length_cons]
    push_cast at this ⊢
    rw [show (k : ℝ) + (ms.length + 1) = k + 1 + ms.length by ring, ← add_assoc]
    exact this

/-- The loop column by column. -/
theorem fold_cols (n : ℕ) (d : ℤ → PyComplex) (v : ℤ → List PyComplex) (hv : ∀ m, (v m).length = n) :
    ∀ (ms : List ℤ) (a : List PyComplex), a.length = n →
      (ms.foldl (fun acc m => List.zipWith cadd acc ((v m).map (cmul (d m)))) a).length = n ∧
      ∀ j < n, (ms.foldl (fun acc m => List.zipWith cadd acc ((v m).map (cmul (d m)))) a).getD j zeroJ =
        ms.foldl (fun x m => cadd x (cmul (d m) ((v m).getD j zeroJ))) (a.getD j zeroJ) := by
  intro ms
  induction ms with
  | nil => intro a ha; exact ⟨ha, fun _ _ => rfl⟩
  | cons m ms ih =>
    intro a ha
    have hl : (List.zipWith cadd a ((v m).map (cmul (d m)))).length = n := by rw [List.length_zipWith, List.length_map, ha, hv, min_self]
    obtain ⟨h1, h2⟩ := ih _ hl
    refine ⟨h1, fun j hj => ?_⟩
    rw [List.foldl_cons, List.foldl_cons, h2 j hj]
    congr 1
    have j1 : j < a.length := by omega
    have j2 : j < (v m).length := by rw [hv]; exact hj
    rw [List.getD_eq_getElem?_getD, List.getD_eq_getElem?_getD, List.getD_eq_getElem?_getD, List.getElem?_zipWith, List.getElem?_map, List.getElem?_eq_getElem j1,
      List.getElem?_eq_getElem j2]
    rfl

end FloatRotate

open FloatRotate

/-- **C129**: rotating a set of finite numbers of at most `M` stores every pair `|m| ≤ l ≤ degree_max` and finite numbers; each is the sum of the matrix
elements times the numbers of its degree, up to rounding and the errors `η` of the elements. -/
theorem C129_rotate (D : ℤ → ℤ → ℤ → PyComplex) (E : ℤ → ℤ → ℤ → ℂ) (η : ℝ) (h0 : 0 ≤ η) (h1 : η ≤ 1 / 2) (hD : GoodElements D E η)
    (hE : ∀ l m m' : ℤ, |m| ≤ l → |m'| ≤ l → ‖E l m m'‖ ≤ 1) (n : ℕ) (s : Coefs PyComplex) (h : CSet n s) (hf : Spec.Finite s) (M : ℝ) (hM : M ≤ 2 ^ 900)
    (hs : ∀ l m j, PartsLe M (colAt s l m j)) (hL : s.degreeMax < 2 ^ 19) :
    ∃ t, FloatRotate.rotate D s = .ok t ∧ CSet n t ∧ Spec.Finite t ∧ (∀ l m, stores t l m ↔ |m| ≤ l ∧ l ≤ s.degreeMax) ∧
      ∀ l m : ℤ, |m| ≤ l → l ≤ s.degreeMax → ∀ j < n,
        ‖colAt t l m j - ∑ k ∈ Finset.Icc (-l) l, E l k m * colAt s l k j‖ ≤ (2 * (l : ℝ) + 1) ^ 2 * (2 * M * η + M / 2 ^ 47 + 1 / 2 ^ 990) := by
  have hw := WF_of_wellFormed h.wf
  have M0 : 0 ≤ M := (abs_nonneg _).trans (hs 0 0 0).1
  have len : ∀ k, (s.getI k).length = n := fun k => by rw [hw.getI_length k, h.dflt, List.length_replicate]
  have cols : ∀ l m, _ := fun l m => fold_cols n (fun mIn => D l mIn m) (fun mIn => s.getI (l, mIn)) (fun mIn => len _) (pyRange (-l) (l + 1)) s.dflt (by rw [h.dflt, List.length_replicate])
  have val : ∀ l m : ℤ, |m| ≤ l → l ≤ s.degreeMax → ∀ j < n, FinD ((coefOut D s l m).getD j zeroJ).1 ∧ FinD ((coefOut D s l m).getD j zeroJ).2 ∧
      ‖cval ((coefOut D s l m).getD j zeroJ) - ∑ k ∈ Finset.Icc (-l) l, E l k m * colAt s l k j‖ ≤ (2 * (l : ℝ) + 1) ^ 2 * (2 * M * η + M / 2 ^ 47 + 1 / 2 ^ 990) := by
    intro l m hm hl j hj
    have l0 : 0 ≤ l := (abs_nonneg m).trans hm
    have l0' : (0 : ℝ) ≤ l := by exact_mod_cast l0
    have N1 : ((pyRange (-l) (l + 1)).length : ℝ) = 2 * l + 1 := by
      rw [pyRange_length, show l + 1 - -l = 2 * l + 1 by ring]
      rw [← Int.cast_natCast, Int.toNat_of_nonneg (by omega)]
      push_cast
      rfl
    have N2 : 2 * (l : ℝ) + 1 ≤ 2 ^ 20 := by
      have : 2 * l + 1 ≤ 2 ^ 20 := by omega
      exact_mod_cast this
    have start : s.dflt.getD j zeroJ = zeroJ := by
      rw [h.dflt]
      simp [List.getD_eq_getElem?_getD, hj]
    have zz : cval zeroJ = 0 := by apply Complex.ext <;> simp [cval, zeroJ, PyFloat.num]
    have k := sum_ok (N := 2 * (l : ℝ) + 1) N2 hM h0 h1 (fun mIn => D l mIn m) (fun mIn => E l mIn m) (fun mIn => (s.getI (l, mIn)).getD j zeroJ) (pyRange (-l) (l + 1))
      (fun mIn hIn => by
        have hIn' : |mIn| ≤ l := by
          have := mem_pyRange.1 hIn
          exact abs_le.2 ⟨this.1, by omega⟩
        exact ⟨hD l mIn m hIn' hm, hE l mIn m hIn' hm, elem_fin hf l mIn j, hs l mIn j⟩) zeroJ 0 0 (finD_zero _) (finD_zero _) (by simp [zz]) (by simp)
      (by rw [N1, Nat.cast_zero, zero_add])
    have c := (cols l m).2 j hj
    rw [start] at c
    rw [← c] at k
    refine ⟨k.1, k.2.1, ?_⟩
    have e : (∑ k ∈ Finset.Icc (-l) l, E l k m * colAt s l k j) = ((pyRange (-l) (l + 1)).map fun mIn => E l mIn m * cval ((s.getI (l, mIn)).getD j zeroJ)).sum := by
      rw [← Rotate.pyRange_toFinset, List.sum_toFinset _ (pyRange_nodup _ _)]
      rfl
    have k3 := k.2.2
    rw [zero_add, ← e, N1, Nat.cast_zero, zero_add] at k3
    refine k3.trans ?_
    have S1 : (1 : ℝ) ≤ 2 * l + 1 := by linarith
    have τ0 : (0 : ℝ) ≤ 1 / 2 ^ 1000 := by positivity
    have P : (1 : ℝ) / 2 ^ 990 = 1024 * (1 / 2 ^ 1000) := by
      rw [show (1000 : ℕ) = 10 + 990 by norm_num, pow_add]
      generalize (2 : ℝ) ^ 990 = x
      rw [one_div, one_div, mul_inv, ← mul_assoc]
      norm_num
    rw [P, sq, mul_assoc]
    refine mul_le_mul_of_nonneg_left ?_ (by linarith)
    unfold FloatRotate.step
    have a1 : 0 ≤ M * η := mul_nonneg M0 h0
    have a2 := mul_le_mul_of_nonneg_right S1 a1
    have a3 := mul_le_mul_of_nonneg_right S1 M0
    have a4 := mul_le_mul_of_nonneg_right S1 τ0
    rw [mul_add, mul_add, show ∀ a b : ℝ, a * (2 * M * b) = 2 * (a * (M * b)) from fun a b => by ring, show ∀ a b : ℝ, a * (M / b) = a * M / b from fun a b => by ring,
      show ∀ a b : ℝ, a * (1024 * b) = 1024 * (a * b) from fun a b => by ring]
    generalize (2 * (l : ℝ) + 1) * (1 / 2 ^ 1000) = x1 at *
    generalize (2 * (l : ℝ) + 1) * M = x2 at *
    generalize (2 * (l : ℝ) + 1) * (M * η) = x3 at *
    rw [show 2 * M * η = 2 * (M * η) by ring]
    generalize M * η = x4 at *
    clear * - a1 a2 a3 a4 τ0 M0
    generalize (1 : ℝ) / 2 ^ 1000 = τ at *
    norm_num at *
    linarith
  obtain ⟨t, e, w, kk, df, dt, g⟩ := Coefs.build_ok s.dflt s.dtype hw.dfltTyped (Rotate.loopKeys s.degreeMax)
    (fun k => coefOut D s k.1 k.2) (Rotate.loopKeys_nodup _) (fun k hk => ((Rotate.mem_loopKeys _ k).1 hk).1)
    (fun k _ => by rw [h.dflt, List.length_replicate]; exact (cols k.1 k.2).1)
  have cast : ∀ x : PyComplex, Elem.cast s.dtype x = x := by
    intro x
    rw [h.dtype]
    rfl
  have get : ∀ k ∈ Rotate.loopKeys s.degreeMax, t.getI k = coefOut D s k.1 k.2 := by
    intro k hk
    rw [g, if_pos hk, List.map_congr_left (g := id) (fun x _ => cast x), List.map_id]
  refine ⟨t, ?_, cset_of h w df dt, ?_, ?_, ?_⟩
  · rw [FloatRotate.rotate, if_pos h.dtype]; exact e
  · refine finite_of fun l m j => ?_
    by_cases hj : j < n
    · by_cases hk : (l, m) ∈ Rotate.loopKeys s.degreeMax
      · have hk' := (Rotate.mem_loopKeys _ _).1 hk
        rw [get _ hk]
        have := val l m hk'.1 hk'.2 j hj
        exact ⟨this.1, this.2.1⟩
      · rw [g, if_neg hk, h.dflt]
        rw [show (List.replicate n zeroJ).getD j zeroJ = zeroJ by simp [List.getD_eq_getElem?_getD, hj]]
        exact ⟨finD_zero _, finD_zero _⟩
    · rw [getD_of_le (by rw [w.getI_length, df, h.dflt, List.length_replicate]; omega)]
      exact ⟨finD_zero _, finD_zero _⟩
  · intro l m
    rw [stores, Coefs.has_int, kk, Rotate.mem_loopKeys]
  · intro l m hm hl j hj
    rw [colAt, valueAt_eq, get (l, m) ((Rotate.mem_loopKeys _ _).2 ⟨hm, hl⟩)]
    exact (val l m hm hl j hj).2.2

namespace FloatRotate

theorem card_all {L : ℤ} (h : 0 ≤ L) : ((allPairs L).card : ℝ) ≤ 2 * ((L : ℝ) + 1) ^ 2 := by
  have sub : allPairs L ⊆ (Finset.Icc 0 L) ×ˢ (Finset.Icc (-L) L) := Finset.filter_subset _ _
  have c := Finset.card_le_card sub
  rw [Finset.card_product, Int.card_Icc, Int.card_Icc, sub_zero] at c
  have e : ((L + 1).toNat : ℝ) = (L : ℝ) + 1 := by
    have : (((L + 1).toNat : ℤ) : ℝ) = ((L + 1 : ℤ) : ℝ) := by rw [Int.toNat_of_nonneg (by omega)]
    push_cast at this
    exact_mod_cast this
  have e2 : ((L + 1 - -L).toNat : ℝ) = 2 * (L : ℝ) + 1 := by
    have : (((L + 1 - -L).toNat : ℤ) : ℝ) = ((L + 1 - -L : ℤ) : ℝ) := by rw [Int.toNat_of_nonneg (by omega)]
    push_cast at this
    have e3 : (((L + 1 - -L).toNat : ℕ) : ℝ) = (L : ℝ) + 1 - -L := by exact_mod_cast this
    rw [e3]; ring
  have L0 : (0 : ℝ) ≤ L := by exact_mod_cast h
  calc _ ≤ (((L + 1).toNat * (L + 1 - -L).toNat : ℕ) : ℝ) := by exact_mod_cast c
    _ ≤ _ := by rw [Nat.cast_mul, e, e2]; nlinarith

/-- No matrix element of a rotation is larger than 1. -/
theorem wigner_le (R : unitary (Quaternion ℝ)) {l m m' : ℤ} (h : |m| ≤ l) (h' : |m'| ≤ l) : ‖Rotate.wignerD R l m m'‖ ≤ 1 := by
  have u := C69_representation.unitary R l m m h h
  rw [if_pos rfl] at u
  have e : ∀ k, Rotate.wignerD (R : Quaternion ℝ) l m k * (starRingEnd ℂ) (Rotate.wignerD (R : Quaternion ℝ) l m k) = ((‖Rotate.wignerD (R : Quaternion ℝ) l m k‖ ^ 2 : ℝ) : ℂ) := by
    intro k
    rw [Complex.mul_conj, Complex.normSq_eq_norm_sq]
  rw [Finset.sum_congr rfl fun k _ => e k, ← Complex.ofReal_sum] at u
  have u' : ∑ k ∈ Finset.Icc (-l) l, ‖Rotate.wignerD (R : Quaternion ℝ) l m k‖ ^ 2 = 1 := by exact_mod_cast u
  have := Finset.single_le_sum (f := fun k => ‖Rotate.wignerD (R : Quaternion ℝ) l m k‖ ^ 2) (fun k _ => sq_nonneg _) (Finset.mem_Icc.2 (abs_le.1 h'))
  rw [u'] at this
  exact (sq_le_one_iff₀ (norm_nonneg _)).1 this

/-- Sums over all pairs, degree by degree. -/
theorem sum_all (L : ℤ) (f : ℤ × ℤ → ℂ) : ∑ k ∈ allPairs L, f k = ∑ l ∈ Finset.Icc 0 L, ∑ m ∈ Finset.Icc (-l) l, f (l, m) := by
  have hp : allPairs L = (Finset.Icc 0 L).biUnion fun l => (Finset.Icc (-l) l).image fun m => (l, m) := by
    ext ⟨l, m⟩
    rw [mem_allPairs]
    simp only [Finset.mem_biUnion, Finset.mem_image, Finset.mem_Icc, Prod.mk.injEq]
    constructor
    · rintro ⟨h1, h2⟩
      exact ⟨l, ⟨(abs_nonneg m).trans h1, h2⟩, m, abs_le.1 h1, rfl, rfl⟩
    · rintro ⟨a, ⟨_, h2⟩, b, h3, rfl, rfl⟩
      exact ⟨abs_le.2 h3, h2⟩
  rw [hp, Finset.sum_biUnion]
  · refine Finset.sum_congr rfl fun l _ => Finset.sum_image fun a _ b _ h => (Prod.mk.inj h).2
  · intro a _ b _ hab
    rw [Function.onFun, Finset.disjoint_left]
    intro k hk hk'
    obtain ⟨_, _, rfl⟩ := Finset.mem_image.1 hk
    obtain ⟨_, _, h⟩ := Finset.mem_image.1 hk'
    exact hab (Prod.mk.inj h).1.symm

end FloatRotate

/-- **C129**: the radial field turns with the rotation: with the documented matrix elements of a unit quaternion up to `η`, the field of the rotated set at any
point is the field of the set at the moved point, up to `8 (degree_max + 1)^5 (2 M η + 2^-47 M + 2^-990)`. -/
theorem C129_field (R : unitary (Quaternion ℝ)) (D : ℤ → ℤ → ℤ → PyComplex) (η : ℝ) (h0 : 0 ≤ η) (h1 : η ≤ 1 / 2) (hD : GoodElements D (Rotate.wignerD R) η)
    (s : Coefs PyComplex) (h : CSet 1 s) (hf : Spec.Finite s) (M : ℝ) (hM : M ≤ 2 ^ 900) (hs : ∀ l m, PartsLe M (firstAt s l m)) (hL : s.degreeMax < 2 ^ 19) :
    ∃ t, FloatRotate.rotate D s = .ok t ∧ ∀ θ φ θ' φ' : ℝ, Moves (R : Quaternion ℝ) θ φ θ' φ' → 0 ≤ Real.sin θ → 0 ≤ Real.sin θ' →
      |storedField t θ φ - storedField s θ' φ'| ≤ 8 * ((s.degreeMax : ℝ) + 1) ^ 5 * (2 * M * η + M / 2 ^ 47 + 1 / 2 ^ 990) := by
  have M0 : 0 ≤ M := (abs_nonneg _).trans (hs 0 0).1
  have hs' : ∀ l m j, PartsLe M (colAt s l m j) := by
    intro l m j
    rcases j with _ | j
    · exact hs l m
    · have z : (valueAt s l m).getD (j + 1) zeroJ = zeroJ := by
        rw [valueAt_eq, getI_one h (l, m)]
        rfl
      rw [colAt, z]
      constructor <;> simpa [cval, zeroJ, PyFloat.num] using M0
  obtain ⟨t, et, ct, -, st, vt⟩ := C129_rotate D _ η h0 h1 hD (fun l m m' a b => wigner_le R a b) 1 s h hf M hM hs' hL
  refine ⟨t, et, fun θ φ θ' φ' hR hθ hθ' => ?_⟩
  have hw := WF_of_wellFormed h.wf
  have D0 : 0 ≤ s.degreeMax := by
    rcases hw.degAttained with ⟨-, e⟩ | ⟨k, hk, e⟩
    · rw [e]
    · rw [← e]; exact (abs_nonneg _).trans (hw.valid k hk)
  have D0' : (0 : ℝ) ≤ s.degreeMax := by exact_mod_cast D0
  have E0 : 0 ≤ 2 * M * η + M / 2 ^ 47 + 1 / 2 ^ 990 :=
    add_nonneg (add_nonneg (mul_nonneg (by linarith) h0) (div_nonneg M0 (by norm_num))) (div_nonneg zero_le_one (pow_nonneg (by norm_num) _))
  have hpt : pairs t = allPairs s.degreeMax := by
    ext k
    rw [mem_pairs, st, mem_allPairs]
  have hps : pairs s ⊆ allPairs s.degreeMax := by
    intro k hk
    rw [pairs_eq, List.mem_toFinset] at hk
    exact mem_allPairs.2 ⟨hw.valid k hk, hw.degUpper k hk⟩
  have e2 : ∑ k ∈ pairs s, firstAt s k.1 k.2 * sphY k.1 k.2 θ' φ' = ∑ k ∈ allPairs s.degreeMax, firstAt s k.1 k.2 * sphY k.1 k.2 θ' φ' := by
    refine Finset.sum_subset hps fun k _ hk => ?_
    rw [pairs_eq, List.mem_toFinset] at hk
    rw [firstAt_unset h hk, zero_mul]
  have e3 : ∑ k ∈ allPairs s.degreeMax, firstAt s k.1 k.2 * sphY k.1 k.2 θ' φ' =
      ∑ k ∈ allPairs s.degreeMax, (∑ i ∈ Finset.Icc (-k.1) k.1, Rotate.wignerD R k.1 i k.2 * firstAt s k.1 i) * sphY k.1 k.2 θ φ := by
    rw [sum_all, sum_all]
    refine Finset.sum_congr rfl fun l _ => ?_
    simp only [Finset.sum_mul]
    rw [Finset.sum_comm]
    refine Finset.sum_congr rfl fun k hk => ?_
    rw [← C69_harmonics R hR hθ hθ' l k (abs_le.2 (Finset.mem_Icc.1 hk)), Finset.mul_sum]
    exact Finset.sum_congr rfl fun i _ => by ring
  rw [storedField, storedField, ← Complex.sub_re, e2, e3, hpt, ← Finset.sum_sub_distrib]
  refine (Complex.abs_re_le_norm _).trans ((norm_sum_le _ _).trans ?_)
  have term : ∀ k ∈ allPairs s.degreeMax, ‖firstAt t k.1 k.2 * sphY k.1 k.2 θ φ -
      (∑ i ∈ Finset.Icc (-k.1) k.1, Rotate.wignerD R k.1 i k.2 * firstAt s k.1 i) * sphY k.1 k.2 θ φ‖ ≤
      4 * ((s.degreeMax : ℝ) + 1) ^ 2 * (2 * M * η + M / 2 ^ 47 + 1 / 2 ^ 990) * ((s.degreeMax : ℝ) + 1) := by
    intro k hk
    rw [mem_allPairs] at hk
    have k0 : (0 : ℝ) ≤ k.1 := by exact_mod_cast (abs_nonneg _).trans hk.1
    have k1 : (k.1 : ℝ) ≤ s.degreeMax := by exact_mod_cast hk.2
    rw [← sub_mul, norm_mul]
    refine mul_le_mul ((vt k.1 k.2 hk.1 hk.2 0 (by norm_num)).trans (mul_le_mul_of_nonneg_right ?_ E0)) ((sphY_le hk.1 θ φ).trans (by linarith)) (norm_nonneg _)
      (mul_nonneg (by positivity) E0)
    nlinarith
  refine (Finset.sum_le_card_nsmul _ _ _ term).trans ?_
  rw [nsmul_eq_mul]
  refine (mul_le_mul_of_nonneg_right (card_all D0) (mul_nonneg (mul_nonneg (by positivity) E0) (by linarith))).trans (le_of_eq ?_)
  ring

namespace FloatRotate

theorem degree_nonneg {s : Coefs PyComplex} (h : WellFormed s) : 0 ≤ s.degreeMax := by
  rcases (WF_of_wellFormed h).degAttained with ⟨-, e⟩ | ⟨k, hk, e⟩
  · rw [e]
  · rw [← e]; exact (abs_nonneg _).trans ((WF_of_wellFormed h).valid k hk)

/-- A set that stores all pairs up to a degree has that degree. -/
theorem degree_eq {t : Coefs PyComplex} (h : WellFormed t) {L : ℤ} (h0 : 0 ≤ L) (hs : ∀ l m, stores t l m ↔ |m| ≤ l ∧ l ≤ L) : t.degreeMax = L := by
  have hw := WF_of_wellFormed h
  have mem : ∀ l m : ℤ, (l, m) ∈ t.keys ↔ |m| ≤ l ∧ l ≤ L := fun l m => by rw [← hs, stores, Coefs.has_int]
  refine le_antisymm ?_ (hw.degUpper (L, 0) ((mem L 0).2 ⟨by simpa using h0, le_rfl⟩))
  rcases hw.degAttained with ⟨-, e⟩ | ⟨k, hk, e⟩
  · rw [e]; exact h0
  · rw [← e]; exact ((mem k.1 k.2).1 hk).2

end FloatRotate

/-- **C129**: rotating and then folding the negative orders turns the radial field: the field of the result at any point is the field of the set at the moved
point, up to `8 (degree_max + 1)^5 (2 M η + 2^-39 M + 2^-480)`. -/
theorem C129_folded (R : unitary (Quaternion ℝ)) (D : ℤ → ℤ → ℤ → PyComplex) (η : ℝ) (h0 : 0 ≤ η) (h1 : η ≤ 1 / 2) (hD : GoodElements D (Rotate.wignerD R) η)
    (L : FoldLib) (hF : GoodFold L) (s : Coefs PyComplex) (h : CSet 1 s) (hf : Spec.Finite s) (M : ℝ) (hM : M ≤ 2 ^ 440) (hs : ∀ l m, PartsLe M (firstAt s l m))
    (hL : s.degreeMax < 2 ^ 19) :
    ∃ t u, FloatRotate.rotate D s = .ok t ∧ FloatFold.mapToPositiveOrders L t = .ok u ∧ (∀ l m, stores u l m ↔ 0 ≤ m ∧ m ≤ l ∧ l ≤ s.degreeMax) ∧
      ∀ θ φ θ' φ' : ℝ, Moves (R : Quaternion ℝ) θ φ θ' φ' → 0 ≤ Real.sin θ → 0 ≤ Real.sin θ' →
        |storedField u θ φ - storedField s θ' φ'| ≤ 8 * ((s.degreeMax : ℝ) + 1) ^ 5 * (2 * M * η + M / 2 ^ 39 + 1 / 2 ^ 480) := by
  have M0 : 0 ≤ M := (abs_nonneg _).trans (hs 0 0).1
  have hM' : M ≤ 2 ^ 900 := hM.trans (pow_mono (by norm_num))
  have D0 := degree_nonneg h.wf
  have D0' : (0 : ℝ) ≤ s.degreeMax := by exact_mod_cast D0
  have D1 : (s.degreeMax : ℝ) + 1 ≤ 2 ^ 19 := by
    have : s.degreeMax + 1 ≤ 2 ^ 19 := by omega
    exact_mod_cast this
  obtain ⟨t, et, ft⟩ := C129_field R D η h0 h1 hD s h hf M hM' hs hL
  have hs' : ∀ l m j, PartsLe M (colAt s l m j) := by
    intro l m j
    rcases j with _ | j
    · exact hs l m
    · have z : (valueAt s l m).getD (j + 1) zeroJ = zeroJ := by
        rw [valueAt_eq, getI_one h (l, m)]
        rfl
      rw [colAt, z]
      constructor <;> simpa [cval, zeroJ, PyFloat.num] using M0
  obtain ⟨t', et', ct, fint, st, vt⟩ := C129_rotate D _ η h0 h1 hD (fun l m m' a b => wigner_le R a b) 1 s h hf M hM' hs' hL
  obtain rfl : t = t' := by
    have := et.symm.trans et'
    simpa using this
  have dt : t.degreeMax = s.degreeMax := degree_eq ct.wf D0 st
  have τ0 : (0 : ℝ) ≤ 1 / 2 ^ 990 := by positivity
  have τ1 : (1 : ℝ) / 2 ^ 990 ≤ 1 := by rw [div_le_one (by positivity)]; exact one_le_pow₀ (by norm_num)
  have E1 : 2 * M * η + M / 2 ^ 47 + 1 / 2 ^ 990 ≤ 2 * (M + 1 / 2 ^ 990) := by
    have := mul_le_mul_of_nonneg_left h1 (show 0 ≤ 2 * M by linarith)
    have : M / 2 ^ 47 ≤ M := div_le_self M0 (by norm_num)
    linarith
  have parts : ∀ l m, PartsLe (16 * ((s.degreeMax : ℝ) + 1) ^ 2 * (M + 1 / 2 ^ 990)) (firstAt t l m) := by
    intro l m
    have key : ‖firstAt t l m‖ ≤ 16 * ((s.degreeMax : ℝ) + 1) ^ 2 * (M + 1 / 2 ^ 990) := by
      by_cases hk : |m| ≤ l ∧ l ≤ s.degreeMax
      · have l0 : 0 ≤ l := (abs_nonneg _).trans hk.1
        have l0' : (0 : ℝ) ≤ l := by exact_mod_cast l0
        have l1 : (l : ℝ) ≤ s.degreeMax := by exact_mod_cast hk.2
        have a := vt l m hk.1 hk.2 0 (by norm_num)
        have b : ‖∑ k ∈ Finset.Icc (-l) l, Rotate.wignerD R l k m * colAt s l k 0‖ ≤ (2 * (l : ℝ) + 1) * (2 * M) := by
          refine (norm_sum_le _ _).trans ?_
          have : ∀ k ∈ Finset.Icc (-l) l, ‖Rotate.wignerD R l k m * colAt s l k 0‖ ≤ 2 * M := by
            intro k hk'
            rw [norm_mul]
            exact (mul_le_of_le_one_left (norm_nonneg _) (wigner_le R (abs_le.2 (Finset.mem_Icc.1 hk')) hk.1)).trans (norm_le_parts (hs' l k 0))
          refine (Finset.sum_le_card_nsmul _ _ _ this).trans (le_of_eq ?_)
          rw [nsmul_eq_mul, Int.card_Icc, ← Int.cast_natCast, Int.toNat_of_nonneg (by omega)]
          push_cast
          ring
        have c := norm_sub_norm_le (colAt t l m 0) (∑ k ∈ Finset.Icc (-l) l, Rotate.wignerD R l k m * colAt s l k 0)
        have d : (2 * (l : ℝ) + 1) ^ 2 * (2 * M * η + M / 2 ^ 47 + 1 / 2 ^ 990) ≤ (2 * (l : ℝ) + 1) ^ 2 * (2 * (M + 1 / 2 ^ 990)) :=
          mul_le_mul_of_nonneg_left E1 (sq_nonneg _)
        have e : (2 * (l : ℝ) + 1) * (2 * M) ≤ (2 * (l : ℝ) + 1) ^ 2 * (2 * (M + 1 / 2 ^ 990)) := by
          refine mul_le_mul ?_ (by linarith) (by linarith) (sq_nonneg _)
          nlinarith
        have f : (2 * (l : ℝ) + 1) ^ 2 ≤ 4 * ((s.degreeMax : ℝ) + 1) ^ 2 := by nlinarith
        have g := mul_le_mul_of_nonneg_right f (show 0 ≤ 4 * (M + 1 / 2 ^ 990) by linarith)
        change ‖colAt t l m 0‖ ≤ _
        linarith
      · have : (l, m) ∉ t.keys := by
          intro hk'
          rw [← Coefs.has_int, ← stores, st] at hk'
          exact hk hk'
        rw [firstAt_unset ct (k := (l, m)) this, norm_zero]
        exact mul_nonneg (by positivity) (by linarith)
    exact ⟨(Complex.abs_re_le_norm _).trans key, (Complex.abs_im_le_norm _).trans key⟩
  have big : 16 * ((s.degreeMax : ℝ) + 1) ^ 2 * (M + 1 / 2 ^ 990) ≤ 2 ^ 490 := by
    have a : 16 * ((s.degreeMax : ℝ) + 1) ^ 2 ≤ 2 ^ 42 := by
      have := pow_le_pow_left₀ (by linarith) D1 2
      linarith
    have b : (1 : ℝ) ≤ 2 ^ 440 := one_le_pow₀ (by norm_num)
    calc _ ≤ 2 ^ 42 * (2 * 2 ^ 440) := mul_le_mul a (by linarith) (by linarith) (by norm_num)
      _ ≤ _ := by
        rw [show (490 : ℕ) = 50 + 440 by norm_num, pow_add]
        generalize (2 : ℝ) ^ 440 = x at *
        norm_num
        linarith
  obtain ⟨u, eu, -, -, su, -⟩ := C128_fold L hF t ct fint fun l m => ⟨(parts l m).1.trans big, (parts l m).2.trans big⟩
  obtain ⟨u', eu', fu⟩ := C128_field L hF t ct fint _ big parts
  obtain rfl : u = u' := by
    have := eu.symm.trans eu'
    simpa using this
  rw [dt] at su fu
  refine ⟨t, u, et, eu, su, fun θ φ θ' φ' hR hθ hθ' => ?_⟩
  have a := ft θ φ θ' φ' hR hθ hθ'
  have b := fu θ φ
  have c := abs_sub_le (storedField u θ φ) (storedField t θ φ) (storedField s θ' φ')
  refine c.trans ((add_le_add b a).trans ?_)
  have d1 : (1 : ℝ) ≤ (s.degreeMax : ℝ) + 1 := by linarith
  generalize (s.degreeMax : ℝ) + 1 = x at *
  have x0 : 0 ≤ x := by linarith
  have p35 : x ^ 3 ≤ x ^ 5 := pow_le_pow_right₀ d1 (by norm_num)
  have p5 : 0 ≤ x ^ 5 := pow_nonneg x0 _
  have n489 : (1 : ℝ) / 2 ^ 489 ≤ 1 / 2 ^ 481 := one_div_le_one_div_of_le (pow_pos (by norm_num) _) (pow_mono (by norm_num))
  have n990 : (1 : ℝ) / 2 ^ 990 ≤ 1 / 2 ^ 481 := one_div_le_one_div_of_le (pow_pos (by norm_num) _) (pow_mono (by norm_num))
  have n480 : (1 : ℝ) / 2 ^ 480 = 2 * (1 / 2 ^ 481) := by
    rw [show (2 : ℝ) ^ 481 = 2 * 2 ^ 480 by rw [← pow_succ']]
    generalize (2 : ℝ) ^ 480 = y
    rw [one_div, one_div, mul_inv, ← mul_assoc]
    norm_num
  have q0 : (0 : ℝ) ≤ 1 / 2 ^ 489 := by positivity
  have r1 := mul_le_mul_of_nonneg_right p35 q0
  have e : x ^ 3 * (16 * x ^ 2 * (M + 1 / 2 ^ 990) / 2 ^ 41 + 1 / 2 ^ 489) + 8 * x ^ 5 * (2 * M * η + M / 2 ^ 47 + 1 / 2 ^ 990) =
      x ^ 5 * (16 * (M + 1 / 2 ^ 990) / 2 ^ 41 + 8 * (2 * M * η + M / 2 ^ 47 + 1 / 2 ^ 990)) + x ^ 3 * (1 / 2 ^ 489) := by ring
  rw [e]
  refine (add_le_add le_rfl r1).trans ?_
  rw [← mul_add, show 8 * x ^ 5 * (2 * M * η + M / 2 ^ 39 + 1 / 2 ^ 480) = x ^ 5 * (8 * (2 * M * η + M / 2 ^ 39 + 1 / 2 ^ 480)) by ring]
  refine mul_le_mul_of_nonneg_left ?_ p5
  rw [n480]
  clear * - M0 n489 n990 q0 τ0
  generalize (1 : ℝ) / 2 ^ 990 = v1 at *
  generalize (1 : ℝ) / 2 ^ 489 = v2 at *
  generalize (1 : ℝ) / 2 ^ 481 = v3 at *
  generalize 2 * M * η = v4 at *
  norm_num
  linarith

/-- **C129**: sets whose numbers are not complex are refused, whatever they hold: the numbers cannot be added in place. -/
theorem C129_refused (D : ℤ → ℤ → ℤ → PyComplex) (s : Coefs PyComplex) (h : s.dtype ≠ .cplx) : FloatRotate.rotate D s = .error .type := by
  rw [FloatRotate.rotate, if_neg h]

/-! ### The assumptions can be met -/

namespace FloatRotate
open FloatCoords

/-- The matrix elements of a rotation, correctly rounded. -/
noncomputable def exElements (R : unitary (Quaternion ℝ)) (l m m' : ℤ) : PyComplex :=
  (roundReal (Rotate.wignerD R l m m').re, roundReal (Rotate.wignerD R l m m').im)

theorem exElements_good (R : unitary (Quaternion ℝ)) : GoodElements (exElements R) (Rotate.wignerD R) (1 / 2 ^ 49) := by
  intro l m m' h h'
  have n := wigner_le R h h'
  have r1 := (Complex.abs_re_le_norm (Rotate.wignerD R l m m')).trans n
  have r2 := (Complex.abs_im_le_norm (Rotate.wignerD R l m m')).trans n
  obtain ⟨a1, a2, -⟩ := roundReal_close (r1.trans (by norm_num))
  obtain ⟨b1, b2, -⟩ := roundReal_close (r2.trans (by norm_num))
  refine ⟨a1, b1, (norm_parts a2 b2).trans (by norm_num)⟩

/-- Twice 3 + 4j at degree 2 and orders 1 and -1. -/
private def exTilted : Coefs PyComplex :=
  ⟨[zeroJ], .cplx, [((2, 1), [(fin false 3, fin false 4)]), ((2, -1), [(fin false 3, fin false 4)])], 2, -1⟩

private theorem exTilted_cset : CSet 1 exTilted := by
  refine ⟨wellFormed_of_WF ?_, rfl, rfl⟩
  constructor <;> simp [exTilted, Coefs.keys] <;> intros <;> rfl

private theorem exTilted_cases (l m : ℤ) : exTilted.getI (l, m) = [(fin false 3, fin false 4)] ∨ exTilted.getI (l, m) = [zeroJ] := by
  by_cases h1 : (l, m) = (2, 1)
  · rw [h1]; left; rfl
  by_cases h2 : (l, m) = (2, -1)
  · rw [h2]; left; rfl
  · right
    exact Coefs.getI_of_not_mem _ _ (by
      rw [Prod.mk.injEq, not_and] at h1 h2
      simpa [exTilted, Coefs.keys] using ⟨h1, h2⟩)

private theorem exTilted_ok : Spec.Finite exTilted ∧ ∀ l m, PartsLe 4 (firstAt exTilted l m) := by
  have d : ∀ n : ℕ, n < 2 ^ 53 → ∀ b : Bool, FinD (fin b (n : ℚ)) := fun n hn b => ⟨b, n, rfl, n, 0, hn, by norm_num, by norm_num, by simp⟩
  constructor
  · intro l m z hz
    rw [elem_getI] at hz
    rcases exTilted_cases l m with h | h <;> rw [h, List.mem_singleton] at hz <;> subst hz
    · exact ⟨by exact_mod_cast d 3 (by norm_num) false, by exact_mod_cast d 4 (by norm_num) false⟩
    · exact ⟨finD_zero _, finD_zero _⟩
  · intro l m
    rw [firstAt, elem_getI]
    rcases exTilted_cases l m with h | h <;> rw [h] <;> constructor <;> norm_num [cval, PyFloat.num, zeroJ]

/-- Non-vacuity of `C129_rotate`, `C129_field` and `C129_folded`, for every rotation: the field of the rotated and folded set at any point is that of the set at the
moved point, up to 10^-7. -/
example (R : unitary (Quaternion ℝ)) : ∃ t u, FloatRotate.rotate (exElements R) exTilted = .ok t ∧ FloatFold.mapToPositiveOrders exFold t = .ok u ∧
    ∀ θ φ : ℝ, 0 ≤ Real.sin θ → ∃ θ' φ', Moves (R : Quaternion ℝ) θ φ θ' φ' ∧ |storedField u θ φ - storedField exTilted θ' φ'| ≤ 1 / 10 ^ 7 := by
  obtain ⟨t, u, h1, h2, -, h3⟩ := C129_folded R (exElements R) (1 / 2 ^ 49) (by norm_num) (by norm_num) (exElements_good R) exFold exFold_good exTilted exTilted_cset
    exTilted_ok.1 4 (le_trans (by norm_num) (pow_mono (show 2 ≤ 440 by norm_num))) exTilted_ok.2 (by decide)
  refine ⟨t, u, h1, h2, fun θ φ hθ => ?_⟩
  obtain ⟨θ', φ', a, b, c⟩ := C69_moves R θ φ
  refine ⟨θ', φ', c, (h3 θ φ θ' φ' c hθ (Real.sin_nonneg_of_nonneg_of_le_pi a b)).trans ?_⟩
  have d : exTilted.degreeMax = 2 := rfl
  have e : (1 : ℝ) / 2 ^ 480 ≤ 1 / 2 ^ 60 := one_div_le_one_div_of_le (by norm_num) (pow_mono (by norm_num))
  rw [d]
  generalize (1 : ℝ) / 2 ^ 480 = x at *
  norm_num at *
  linarith

/-- Non-vacuity of `C129_refused`. -/
example : FloatRotate.rotate (fun _ _ _ => zeroJ) { exTilted with dtype := .real } = .error .type := C129_refused _ _ (by decide)

end FloatRotate
end Verif
