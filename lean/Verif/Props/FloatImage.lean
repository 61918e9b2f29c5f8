import Verif.Model.FloatImage
import Verif.Props.FloatRotate
import Verif.Props.FloatVector
import Verif.Props.Image

/-!
# Property C130: images and coefficients in double precision
-/

set_option exponentiation.threshold 4000

namespace Verif
open Spec PyFloat FloatRange FloatSets FloatRound FloatDescribe FloatFold

/-- What is assumed of `sph_harm`: finite values within `η` of the spherical harmonics, at the degrees up to `L`. -/
def Spec.GoodHarm (Y : FloatImage.Harm) (L : ℤ) (η : ℝ) : Prop :=
  ∀ (l m : ℤ) (φ θ : PyFloat), |m| ≤ l → l ≤ L → FinD φ → FinD θ → |(φ.num : ℝ)| ≤ 8 → |(θ.num : ℝ)| ≤ 8 →
    FinD (Y m l φ θ).1 ∧ FinD (Y m l φ θ).2 ∧ ‖cval (Y m l φ θ) - sphY l m θ.num φ.num‖ ≤ η

/-- The complex function on the sphere whose coefficients are the numbers in the first column of a set. -/
noncomputable def Spec.synthesis (s : Coefs PyComplex) (θ φ : ℝ) : ℂ := ∑ k ∈ pairs s, firstAt s k.1 k.2 * sphY k.1 k.2 θ φ

namespace FloatImage

/-- A product of complex numbers. -/
theorem cmul_gen {z w : PyComplex} (z1 : FinD z.1) (z2 : FinD z.2) (w1 : FinD w.1) (w2 : FinD w.2) {a b : ℝ} (hz : PartsLe a (cval z)) (hw : PartsLe b (cval w))
    (hQ : a * b ≤ 2 ^ 900) :
    FinD (cmul z w).1 ∧ FinD (cmul z w).2 ∧ ‖cval (cmul z w) - cval z * cval w‖ ≤ a * b / 2 ^ 49 + 8 * (1 / 2 ^ 1000) := by
  have a0 : 0 ≤ a := (abs_nonneg _).trans hz.1
  have b0 : 0 ≤ b := (abs_nonneg _).trans hw.1
  have Q0 : 0 ≤ a * b := mul_nonneg a0 b0
  have τ0 : (0 : ℝ) ≤ 1 / 2 ^ 1000 := by positivity
  have τ1 : (1 : ℝ) / 2 ^ 1000 ≤ 1 := by rw [div_le_one (by positivity)]; exact one_le_pow₀ (by norm_num)
  have prod : ∀ x y : PyFloat, FinD x → FinD y → |(x.num : ℝ)| ≤ a → |(y.num : ℝ)| ≤ b →
      FinD (mul x y) ∧ |((mul x y).num : ℝ) - x.num * y.num| ≤ a * b / 2 ^ 53 + 1 / 2 ^ 1000 ∧ |(x.num : ℝ) * y.num| ≤ a * b := by
    intro x y hx hy h1 h2
    have c : |(x.num : ℝ) * y.num| ≤ a * b := by
      rw [abs_mul]
      exact mul_le_mul h1 h2 (abs_nonneg _) a0
    obtain ⟨f, g⟩ := FloatDescribe.mul_real hx hy (k := 910) (c.trans (hQ.trans (pow_mono (by norm_num)))) (by norm_num)
    exact ⟨f, g.trans (add_le_add (div_le_div_of_nonneg_right c (by norm_num)) le_rfl), c⟩
  have hz1 : |(z.1.num : ℝ)| ≤ a := hz.1
  have hz2 : |(z.2.num : ℝ)| ≤ a := hz.2
  have hw1 : |(w.1.num : ℝ)| ≤ b := hw.1
  have hw2 : |(w.2.num : ℝ)| ≤ b := hw.2
  obtain ⟨p1, p2, p3⟩ := prod z.1 w.1 z1 w1 hz1 hw1
  obtain ⟨q1, q2, q3⟩ := prod z.2 w.2 z2 w2 hz2 hw2
  obtain ⟨r1, r2, r3⟩ := prod z.1 w.2 z1 w2 hz1 hw2
  obtain ⟨s1, s2, s3⟩ := prod z.2 w.1 z2 w1 hz2 hw1
  clear prod
  generalize a * b = Q at *
  have P : 8 * Q + 8 * (1 / 2 ^ 1000) ≤ (2 : ℝ) ^ 910 := by
    rw [show (910 : ℕ) = 10 + 900 by norm_num, pow_add]
    have : (1 : ℝ) ≤ 2 ^ 900 := one_le_pow₀ (by norm_num)
    generalize (2 : ℝ) ^ 900 = x at *
    generalize (1 : ℝ) / 2 ^ 1000 = τ at *
    norm_num
    linarith
  have sum : ∀ x y : PyFloat, ∀ a b : ℝ, FinD x → FinD y → |(x.num : ℝ) - a| ≤ Q / 2 ^ 53 + 1 / 2 ^ 1000 → |(y.num : ℝ) - b| ≤ Q / 2 ^ 53 + 1 / 2 ^ 1000 →
      |a| ≤ Q → |b| ≤ Q → FinD (add x y) ∧ |((add x y).num : ℝ) - (a + b)| ≤ 5 * Q / 2 ^ 53 + 4 * (1 / 2 ^ 1000) := by
    intro x y a b hx hy h1 h2 h3 h4
    have e : |(x.num : ℝ) + y.num - (a + b)| ≤ 2 * (Q / 2 ^ 53 + 1 / 2 ^ 1000) := by
      rw [show (x.num : ℝ) + y.num - (a + b) = (x.num - a) + (y.num - b) by ring]
      exact (abs_add_le _ _).trans (by linarith)
    have c : |(x.num : ℝ) + y.num| ≤ 2 * Q + 2 * (Q / 2 ^ 53 + 1 / 2 ^ 1000) := by
      have := abs_sub_abs_le_abs_sub ((x.num : ℝ) + y.num) (a + b)
      have := abs_add_le a b
      linarith
    obtain ⟨f, g⟩ := FloatDescribe.add_real hx hy (k := 910) (by
      refine c.trans (le_trans ?_ P)
      clear * - Q0 τ0
      generalize (1 : ℝ) / 2 ^ 1000 = τ at *
      norm_num
      linarith) (by norm_num)
    refine ⟨f, ?_⟩
    have t := abs_sub_le ((add x y).num : ℝ) (x.num + y.num) (a + b)
    clear * - t g c e Q0 τ0
    generalize (1 : ℝ) / 2 ^ 1000 = τ at *
    generalize |(x.num : ℝ) + y.num| = q1 at *
    generalize |(x.num : ℝ) + y.num - (a + b)| = q2 at *
    generalize |((add x y).num : ℝ) - (x.num + y.num)| = q3 at *
    generalize |((add x y).num : ℝ) - (a + b)| = q4 at *
    norm_num at *
    linarith
  obtain ⟨n1, n2⟩ := FloatRound.neg_num q1
  have n2' : ((neg (mul z.2 w.2)).num : ℝ) = -(mul z.2 w.2).num := by rw [n2]; push_cast; rfl
  obtain ⟨u1, u2⟩ := sum _ _ _ (-((z.2.num : ℝ) * w.2.num)) p1 n1 p2 (by
    rw [n2', show ∀ a b : ℝ, -a - -b = -(a - b) from fun a b => by ring, abs_neg]; exact q2) p3 (by rw [abs_neg]; exact q3)
  obtain ⟨v1, v2⟩ := sum _ _ _ _ r1 s1 r2 s2 r3 s3
  refine ⟨u1, v1, ?_⟩
  refine (norm_parts (a := 5 * Q / 2 ^ 53 + 4 * (1 / 2 ^ 1000)) ?_ ?_).trans ?_
  · refine le_of_eq_of_le ?_ u2
    rw [← sub_eq_add_neg]
    rfl
  · exact v2
  · clear * - Q0 τ0
    generalize (1 : ℝ) / 2 ^ 1000 = τ at *
    norm_num
    linarith

/-- A finite number within `ε B` of one of at most `B`. -/
structure Rel (z : PyComplex) (Z : ℂ) (B ε : ℝ) : Prop where
  re : FinD z.1
  im : FinD z.2
  close : ‖cval z - Z‖ ≤ ε * B
  size : ‖Z‖ ≤ B

theorem Rel.mono {z : PyComplex} {Z : ℂ} {B ε ε' : ℝ} (h : Rel z Z B ε) (he : ε ≤ ε') : Rel z Z B ε' :=
  ⟨h.re, h.im, h.close.trans (mul_le_mul_of_nonneg_right he ((norm_nonneg _).trans h.size)), h.size⟩

theorem parts_of_norm {c : ℂ} {B : ℝ} (h : ‖c‖ ≤ B) : PartsLe B c := ⟨(Complex.abs_re_le_norm c).trans h, (Complex.abs_im_le_norm c).trans h⟩

theorem Rel.norm {z : PyComplex} {Z : ℂ} {B ε : ℝ} (h : Rel z Z B ε) (h1 : ε ≤ 1) : ‖cval z‖ ≤ 2 * B := by
  have B0 : 0 ≤ B := (norm_nonneg _).trans h.size
  have := norm_sub_norm_le (cval z) Z
  have := h.close
  have := mul_le_mul_of_nonneg_right h1 B0
  linarith [h.size]

theorem Rel.mul {z w : PyComplex} {Z W : ℂ} {B C ε δ : ℝ} (h : Rel z Z B ε) (g : Rel w W C δ) (h1 : ε ≤ 1) (g1 : δ ≤ 1) (hi : B * C ≤ 2 ^ 890)
    (lo : 1 / 2 ^ 940 ≤ B * C) : Rel (cmul z w) (Z * W) (B * C) (ε + 2 * δ + 1 / 2 ^ 46) := by
  have B0 : 0 ≤ B := (norm_nonneg _).trans h.size
  have C0 : 0 ≤ C := (norm_nonneg _).trans g.size
  have zn := h.norm h1
  have wn := g.norm g1
  obtain ⟨a1, a2, a3⟩ := cmul_gen h.re h.im g.re g.im (parts_of_norm zn) (parts_of_norm wn) (by
    rw [show 2 * B * (2 * C) = 4 * (B * C) by ring, show (900 : ℕ) = 10 + 890 by norm_num, pow_add]
    generalize (2 : ℝ) ^ 890 = x at *
    have : 0 ≤ B * C := mul_nonneg B0 C0
    norm_num
    linarith)
  have n : ‖Z * W‖ ≤ B * C := by
    rw [norm_mul]; exact mul_le_mul h.size g.size (norm_nonneg _) B0
  refine ⟨a1, a2, ?_, n⟩
  have b1 : ‖cval z * (cval w - W)‖ ≤ 2 * B * (δ * C) := by
    rw [norm_mul]; exact mul_le_mul zn g.close (norm_nonneg _) (by linarith)
  have b2 : ‖(cval z - Z) * W‖ ≤ ε * B * C := by
    rw [norm_mul]; exact mul_le_mul h.close g.size (norm_nonneg _) ((norm_nonneg _).trans h.close)
  have e : cval (cmul z w) - Z * W = (cval (cmul z w) - cval z * cval w) + (cval z * (cval w - W) + (cval z - Z) * W) := by ring
  rw [e]
  refine (norm_add_le _ _).trans ((add_le_add a3 ((norm_add_le _ _).trans (add_le_add b1 b2))).trans ?_)
  have t : 8 * ((1 : ℝ) / 2 ^ 1000) ≤ B * C / 2 ^ 50 := by
    have : (1 : ℝ) / 2 ^ 1000 = 1 / 2 ^ 60 * (1 / 2 ^ 940) := by
      rw [show (1000 : ℕ) = 60 + 940 by norm_num, pow_add, one_div, one_div, one_div, mul_inv]
    rw [this]
    generalize (1 : ℝ) / 2 ^ 940 = x at *
    generalize B * C = Q at *
    have q0 : 0 ≤ ‖Z * W‖ := norm_nonneg _
    norm_num
    linarith
  have : 0 ≤ B * C := mul_nonneg B0 C0
  rw [show 2 * B * (2 * C) = 4 * (B * C) by ring, show 2 * B * (δ * C) + ε * B * C = (ε + 2 * δ) * (B * C) by ring, add_mul (ε + 2 * δ)]
  generalize B * C = Q at *
  generalize (ε + 2 * δ) * Q = R
  generalize (1 : ℝ) / 2 ^ 1000 = τ at *
  clear * - t this
  norm_num at *
  linarith

/-! ### Sums -/

open FloatError in
theorem pow_w_lin {n : ℕ} (h : n ≤ 2 ^ 24) : w ^ n - 1 ≤ n / 2 ^ 51 := by
  induction n with
  | zero => simp
  | succ n ih =>
    have a := ih (by omega)
    have b := pow_w_small (show n ≤ 2 ^ 24 by omega)
    have c : w ^ (n + 1) = w ^ n + w ^ n / 2 ^ 52 := by
      rw [pow_succ]
      conv_lhs => rw [show w = 1 + 1 / 2 ^ 52 by unfold w; rfl]
      conv_rhs => rw [show w = 1 + 1 / 2 ^ 52 by unfold w; rfl]
      ring
    rw [c]
    push_cast
    generalize w ^ n = x at *
    norm_num at *
    linarith

/-- `np.sum` of terms close to given ones. -/
theorem sum_close {α : Type*} (xs : List α) {g : α → PyFloat} {t a : α → ℝ} {ε A : ℝ} {s : PyFloat} (hs : IsNpSum (xs.map g) s) (hn : xs.length ≤ 2 ^ 24)
    (hg : ∀ x ∈ xs, FinD (g x)) (he : ∀ x ∈ xs, |((g x).num : ℝ) - t x| ≤ ε * a x) (ht : ∀ x ∈ xs, |t x| ≤ a x) (hA : (xs.map a).sum ≤ A) (e0 : 0 ≤ ε) (e1 : ε ≤ 1)
    (hT : A ≤ 2 ^ 890) : FinD s ∧ |(s.num : ℝ) - (xs.map t).sum| ≤ (xs.length / 2 ^ 50 + ε) * A := by
  have A0 : 0 ≤ (xs.map a).sum := List.sum_nonneg fun q hq => by
    obtain ⟨x, hx, rfl⟩ := List.mem_map.1 hq
    exact (abs_nonneg _).trans (ht x hx)
  have h1 : (xs.map fun x => ε * a x).sum ≤ ε * A := by
    rw [List.sum_map_mul_left]
    exact mul_le_mul_of_nonneg_left hA e0
  have h2 := (FloatDescribe.sum_diff xs he).trans h1
  have h3 : FloatVisible.size (xs.map g) ≤ 2 * A := by
    rw [FloatVisible.size_map]
    have := (abs_le.1 (FloatDescribe.sum_diff xs (f := fun x => |((g x).num : ℝ)|) (g := fun x => |t x|) fun x hx =>
      (abs_abs_sub_abs_le_abs_sub _ _).trans (he x hx))).2
    have h4 := FloatVisible.sum_le' xs ht
    have h5 := mul_le_mul_of_nonneg_right e1 (A0.trans hA)
    linarith
  obtain ⟨f, e, -⟩ := FloatVisible.npSum_signed hs
    (by intro y hy; obtain ⟨x, hx, rfl⟩ := List.mem_map.1 hy; exact hg x hx) (by simpa using hn) (h3.trans (by
      rw [show (900 : ℕ) = 10 + 890 by norm_num, pow_add]
      generalize (2 : ℝ) ^ 890 = x at *
      norm_num
      linarith))
  refine ⟨f, ?_⟩
  rw [FloatVisible.total_map, List.length_map] at e
  have e2 := e.trans (mul_le_mul (pow_w_lin hn) h3 (FloatVisible.size_nonneg _) (by positivity))
  have e3 := abs_sub_le (s.num : ℝ) (xs.map fun x => ((g x).num : ℝ)).sum (xs.map t).sum
  refine e3.trans ((add_le_add e2 h2).trans (le_of_eq ?_))
  rw [show (2 : ℝ) ^ 51 = 2 * 2 ^ 50 by norm_num]
  field_simp

/-- Complex numbers added part by part, in any order. -/
theorem csum_close {α : Type*} (xs : List α) {g : α → PyComplex} {t : α → ℂ} {a : α → ℝ} {ε A : ℝ} {s : PyComplex} (h1 : IsNpSum (xs.map fun x => (g x).1) s.1)
    (h2 : IsNpSum (xs.map fun x => (g x).2) s.2) (hn : xs.length ≤ 2 ^ 24) (hg : ∀ x ∈ xs, Rel (g x) (t x) (a x) ε) (hA : (xs.map a).sum ≤ A) (e0 : 0 ≤ ε) (e1 : ε ≤ 1)
    (hT : A ≤ 2 ^ 890) : FinD s.1 ∧ FinD s.2 ∧ ‖cval s - (xs.map t).sum‖ ≤ 2 * ((xs.length / 2 ^ 50 + ε) * A) := by
  have re : ∀ xs : List α, ((xs.map t).sum).re = (xs.map fun x => (t x).re).sum := by
    intro xs
    induction xs with
    | nil => simp
    | cons x xs ih => simp [ih]
  have im : ∀ xs : List α, ((xs.map t).sum).im = (xs.map fun x => (t x).im).sum := by
    intro xs
    induction xs with
    | nil => simp
    | cons x xs ih => simp [ih]
  obtain ⟨a1, a2⟩ := sum_close xs (t := fun x => (t x).re) h1 hn (fun x hx => (hg x hx).re)
    (fun x hx => by
      have := (Complex.abs_re_le_norm (cval (g x) - t x)).trans (hg x hx).close
      simpa [cval] using this) (fun x hx => (Complex.abs_re_le_norm _).trans (hg x hx).size) hA e0 e1 hT
  obtain ⟨b1, b2⟩ := sum_close xs (t := fun x => (t x).im) h2 hn (fun x hx => (hg x hx).im)
    (fun x hx => by
      have := (Complex.abs_im_le_norm (cval (g x) - t x)).trans (hg x hx).close
      simpa [cval] using this) (fun x hx => (Complex.abs_im_le_norm _).trans (hg x hx).size) hA e0 e1 hT
  refine ⟨a1, b1, norm_parts ?_ ?_⟩
  · rw [re]; exact a2
  · rw [im]; exact b2

/-- Adding one after the other, beginning with 0. -/
theorem fold_npSum (xs : List PyFloat) : IsNpSum xs (xs.foldl add (fin false 0)) := by
  cases xs with
  | nil => exact Or.inl ⟨rfl, rfl⟩
  | cons x xs =>
    have terms : ∀ (ys : List PyFloat) (t : SumTree), (ys.foldl (fun t y => SumTree.node t (.leaf y)) t).terms = t.terms ++ ys := by
      intro ys
      induction ys with
      | nil => intro t; simp
      | cons y ys ih => intro t; rw [List.foldl_cons, ih]; simp [SumTree.terms]
    have sums : ∀ (ys : List PyFloat) (t : SumTree), (ys.foldl (fun t y => SumTree.node t (.leaf y)) t).sum id = ys.foldl PyFloat.add (t.sum id) := by
      intro ys
      induction ys with
      | nil => intro t; rfl
      | cons y ys ih => intro t; rw [List.foldl_cons, List.foldl_cons, ih]; rfl
    refine Or.inr ⟨by simp, (x :: xs).foldl (fun t y => .node t (.leaf y)) (.leaf (fin false 0)), [false], ?_, ?_⟩
    · rw [terms]
      exact List.perm_append_comm
    · rw [sums]
      rfl

theorem fold_parts {α : Type*} (t : α → PyComplex) (ks : List α) : ∀ z : PyComplex,
    (ks.foldl (fun x k => cadd x (t k)) z).1 = (ks.map fun k => (t k).1).foldl add z.1 ∧ (ks.foldl (fun x k => cadd x (t k)) z).2 = (ks.map fun k => (t k).2).foldl add z.2 := by
  induction ks with
  | nil => intro z; exact ⟨rfl, rfl⟩
  | cons k ks ih => intro z; exact ih _

theorem fold_facets {α β : Type*} (t : α → β → PyComplex) (F : List β) (ks : List α) : ∀ z : β → PyComplex,
    ks.foldl (fun image k => List.zipWith cadd image (F.map (t k))) (F.map z) = F.map fun f => ks.foldl (fun x k => cadd x (t k f)) (z f) := by
  induction ks with
  | nil => intro z; rfl
  | cons k ks ih =>
    intro z
    have e : List.zipWith cadd (F.map z) (F.map (t k)) = F.map fun f => cadd (z f) (t k f) := by
      rw [List.zipWith_map, List.zipWith_self]
    rw [List.foldl_cons, e, ih]
    rfl

theorem forall_map {α β : Type*} {R : α → β → Prop} {g : α → β} : ∀ {xs : List α}, (∀ x ∈ xs, R x (g x)) → List.Forall₂ R xs (xs.map g)
  | [], _ => List.Forall₂.nil
  | x :: xs, h => List.Forall₂.cons (h x (by simp)) (forall_map fun y hy => h y (by simp [hy]))

end FloatImage

/-- The polar angle and the azimuth of the centre of a facet, as `centers` returns them. -/
noncomputable def Spec.centreAngles (f : (PyFloat × PyFloat) × (PyFloat × PyFloat)) : ℝ × ℝ := ((FloatVisible.centrePolar f.2).num, (FloatVisible.centreAzimuth f.1).num)

open FloatImage

/-- **C130**: the centres are the middles of the facets up to rounding. -/
theorem C130_centres (P A : List PyFloat) (hP : CornerList P pi) (hA : CornerList A twoPi) (f) (hf : f ∈ gridFacets P A) :
    |(centreAngles f).1 - ((f.2.1.num : ℝ) + f.2.2.num) / 2| ≤ 1 / 2 ^ 48 ∧ |(centreAngles f).2 - ((f.1.1.num : ℝ) + f.1.2.num) / 2| ≤ 1 / 2 ^ 48 :=
  (FloatVector.centre_near hP hA hf).2

/-- **C130**: `to_image` raises nothing for a set with one column of finite numbers of at most `M`, and every pixel is the sum of the coefficients times the
harmonics at the centre of its facet, up to `8 N (degree_max + 1) (M + 2^-900) (η + N 2^-50 + 2^-46)`, where `N` is the number of coefficients. -/
theorem C130_to_image (Y : Harm) (η : ℝ) (h0 : 0 ≤ η) (h1 : η ≤ 1 / 4) (s : Coefs PyComplex) (h : CSet 1 s) (hf : Spec.Finite s) (hY : GoodHarm Y s.degreeMax η)
    (M : ℝ) (hM : M ≤ 2 ^ 800) (hs : ∀ l m, PartsLe M (firstAt s l m)) (hN : (Spec.pairs s).card ≤ 2 ^ 24) (hL : s.degreeMax < 2 ^ 20) (P A : List PyFloat)
    (hP : CornerList P pi) (hA : CornerList A twoPi) (p2 : 2 ≤ P.length) (a2 : 2 ≤ A.length) :
    ∃ x, toImage Y s P A = .ok x ∧ x.rows = A.length - 1 ∧ x.cols = P.length - 1 ∧
      List.Forall₂ (fun f z => FinD z.1 ∧ FinD z.2 ∧ ‖cval z - synthesis s (centreAngles f).1 (centreAngles f).2‖ ≤
        8 * (Spec.pairs s).card * ((s.degreeMax : ℝ) + 1) * (M + 1 / 2 ^ 900) * (η + (Spec.pairs s).card / 2 ^ 50 + 1 / 2 ^ 46)) (gridFacets P A) x.data := by
  have hw := WF_of_wellFormed h.wf
  have M0 : 0 ≤ M := (abs_nonneg _).trans (hs 0 0).1
  have D0 := FloatRotate.degree_nonneg h.wf
  have D0' : (0 : ℝ) ≤ s.degreeMax := by exact_mod_cast D0
  have D1 : (s.degreeMax : ℝ) + 1 ≤ 2 ^ 20 := by
    have : s.degreeMax + 1 ≤ 2 ^ 20 := by omega
    exact_mod_cast this
  have len : s.dflt.length = 1 := by rw [h.dflt]; rfl
  have card : (Spec.pairs s).card = (sortKeys s.keys).length := by
    rw [pairs_eq, List.toFinset_card_of_nodup hw.nodup, (sortKeys_perm s.keys).length_eq]
  have nodup : (sortKeys s.keys).Nodup := (sortKeys_nodup s.keys).2 hw.nodup
  have e : toImage Y s P A = .ok ⟨A.length - 1, P.length - 1, s.contents.foldl (addTerm Y P A) ((FloatVisible.facets P A).map fun _ => zeroJ)⟩ := by
    rw [toImage, needFacets, if_pos ⟨p2, a2⟩]
    simp only [bind, Except.bind, if_pos len, pure, Except.pure]
  refine ⟨_, e, rfl, rfl, ?_⟩
  have e2 : s.contents.foldl (addTerm Y P A) ((FloatVisible.facets P A).map fun _ => zeroJ) =
      (gridFacets P A).map fun f => s.contents.foldl (fun x kv => cadd x (cmul (kv.2.headD zeroJ) (harmonic Y kv.1 f))) zeroJ :=
    fold_facets (fun (kv : Key × List PyComplex) f => cmul (kv.2.headD zeroJ) (harmonic Y kv.1 f)) (gridFacets P A) s.contents fun _ => zeroJ
  show List.Forall₂ _ _ (s.contents.foldl (addTerm Y P A) ((FloatVisible.facets P A).map fun _ => zeroJ))
  rw [e2]
  refine forall_map fun f hff => ?_
  obtain ⟨⟨⟨c1, c2⟩, c3, c4⟩, -⟩ := FloatVector.centre_near hP hA hff
  have e3 : s.contents.foldl (fun x kv => cadd x (cmul (kv.2.headD zeroJ) (harmonic Y kv.1 f))) zeroJ =
      (sortKeys s.keys).foldl (fun x k => cadd x (cmul ((s.getI k).headD zeroJ) (harmonic Y k f))) zeroJ := by
    rw [Coefs.contents, List.foldl_map]
  rw [e3]
  set z := (sortKeys s.keys).foldl (fun x k => cadd x (cmul ((s.getI k).headD zeroJ) (harmonic Y k f))) zeroJ with hz
  obtain ⟨f1, f2⟩ := fold_parts (fun k => cmul ((s.getI k).headD zeroJ) (harmonic Y k f)) (sortKeys s.keys) zeroJ
  have n1 : IsNpSum ((sortKeys s.keys).map fun k => (cmul ((s.getI k).headD zeroJ) (harmonic Y k f)).1) z.1 := by
    rw [hz, f1]; exact fold_npSum _
  have n2 : IsNpSum ((sortKeys s.keys).map fun k => (cmul ((s.getI k).headD zeroJ) (harmonic Y k f)).2) z.2 := by
    rw [hz, f2]; exact fold_npSum _
  have ν0 : (0 : ℝ) < 1 / 2 ^ 900 := by positivity
  have ν1 : (1 : ℝ) / 2 ^ 900 ≤ 1 := by rw [div_le_one (by positivity)]; exact one_le_pow₀ (by norm_num)
  have m800 : M + 1 / 2 ^ 900 ≤ 2 ^ 801 := by
    have : (1 : ℝ) ≤ 2 ^ 800 := one_le_pow₀ (by norm_num)
    rw [show (801 : ℕ) = 1 + 800 by norm_num, pow_add]
    linarith
  have m0 : 0 < M + 1 / 2 ^ 900 := by linarith
  have B1 : 2 * (M + 1 / 2 ^ 900) * ((s.degreeMax : ℝ) + 1) ≤ 2 ^ 822 := by
    calc _ ≤ 2 * 2 ^ 801 * 2 ^ 20 := mul_le_mul (by linarith) D1 (by linarith) (by positivity)
      _ = 2 ^ 822 := by rw [← pow_succ', ← pow_add]
  have B0 : 1 / 2 ^ 900 ≤ 2 * (M + 1 / 2 ^ 900) * ((s.degreeMax : ℝ) + 1) := by
    have := mul_le_mul_of_nonneg_left (show (1 : ℝ) ≤ (s.degreeMax : ℝ) + 1 by linarith) (show 0 ≤ 2 * (M + 1 / 2 ^ 900) by linarith)
    linarith
  have term : ∀ k ∈ sortKeys s.keys, Rel (cmul ((s.getI k).headD zeroJ) (harmonic Y k f)) (firstAt s k.1 k.2 * sphY k.1 k.2 (centreAngles f).1 (centreAngles f).2)
      (2 * (M + 1 / 2 ^ 900) * ((s.degreeMax : ℝ) + 1)) (0 + 2 * η + 1 / 2 ^ 46) := by
    intro k hk
    have hk' := (mem_sortKeys _ _).1 hk
    have v := hw.valid k hk'
    have hd : (s.getI k).headD zeroJ = (s.getI k).getD 0 zeroJ := by rw [getI_one h k]; rfl
    have kd : k.1 ≤ s.degreeMax := hw.degUpper k hk'
    have kd' : (k.1 : ℝ) ≤ s.degreeMax := by exact_mod_cast kd
    obtain ⟨g1, g2, g3⟩ := hY k.1 k.2 _ _ v kd c3 c1 c4 c2
    refine Rel.mul (ε := 0) ⟨?_, ?_, ?_, ?_⟩ ⟨g1, g2, ?_, ?_⟩ (by norm_num) (by linarith) (B1.trans (pow_mono (by norm_num))) (le_trans ?_ B0)
    · rw [hd]; exact (elem_fin hf k.1 k.2 0).1
    · rw [hd]; exact (elem_fin hf k.1 k.2 0).2
    · rw [hd, zero_mul]
      exact le_of_eq (by rw [norm_eq_zero, sub_eq_zero]; rfl)
    · exact (FloatRotate.norm_le_parts (hs k.1 k.2)).trans (by linarith)
    · refine g3.trans ?_
      have := mul_le_mul_of_nonneg_left (show (1 : ℝ) ≤ (s.degreeMax : ℝ) + 1 by linarith) h0
      linarith
    · exact (sphY_le v _ _).trans (by linarith)
    · exact one_div_le_one_div_of_le (by positivity) (pow_mono (by norm_num))
  have N24 : ((sortKeys s.keys).length : ℝ) ≤ 2 ^ 24 := by
    rw [card] at hN
    exact_mod_cast hN
  have N0 : (0 : ℝ) ≤ (sortKeys s.keys).length := Nat.cast_nonneg _
  have tot := csum_close (sortKeys s.keys) n1 n2 (by rw [← card]; exact hN) term (le_refl _) (by positivity) (by
      norm_num
      linarith) (by
    rw [List.map_const', List.sum_replicate, nsmul_eq_mul]
    calc _ ≤ (2 : ℝ) ^ 24 * 2 ^ 822 := mul_le_mul N24 B1 ((by positivity : (0 : ℝ) ≤ 1 / 2 ^ 900).trans B0) (by positivity)
      _ = 2 ^ 846 := by rw [← pow_add]
      _ ≤ _ := pow_mono (by norm_num))
  refine ⟨tot.1, tot.2.1, ?_⟩
  have syn : synthesis s (centreAngles f).1 (centreAngles f).2 = ((sortKeys s.keys).map fun k => firstAt s k.1 k.2 * sphY k.1 k.2 (centreAngles f).1 (centreAngles f).2).sum := by
    rw [synthesis, pairs_eq, List.sum_toFinset _ hw.nodup]
    exact ((sortKeys_perm s.keys).map _).sum_eq.symm
  rw [syn]
  refine tot.2.2.trans ?_
  rw [List.map_const', List.sum_replicate, nsmul_eq_mul, card]
  generalize ((sortKeys s.keys).length : ℝ) = N at *
  have c : 0 ≤ N * (2 * (M + 1 / 2 ^ 900) * ((s.degreeMax : ℝ) + 1)) := mul_nonneg N0 ((by positivity : (0 : ℝ) ≤ 1 / 2 ^ 900).trans B0)
  have d : 2 * ((N / 2 ^ 50 + (0 + 2 * η + 1 / 2 ^ 46)) * (N * (2 * (M + 1 / 2 ^ 900) * ((s.degreeMax : ℝ) + 1)))) ≤
      2 * ((2 * (η + N / 2 ^ 50 + 1 / 2 ^ 46)) * (N * (2 * (M + 1 / 2 ^ 900) * ((s.degreeMax : ℝ) + 1)))) := by
    refine mul_le_mul_of_nonneg_left (mul_le_mul_of_nonneg_right ?_ c) (by norm_num)
    have : 0 ≤ N / 2 ^ 50 := by positivity
    norm_num
    linarith
  refine d.trans (le_of_eq ?_)
  ring

/-- The width of a facet in azimuth times its width in polar angle. -/
noncomputable def Spec.facetBox (f : (PyFloat × PyFloat) × (PyFloat × PyFloat)) : ℝ := ((f.1.2.num : ℝ) - f.1.1.num) * ((f.2.2.num : ℝ) - f.2.1.num)

/-- The integral of an image against a conjugate harmonic by the midpoint rule, where every facet comes with its pixel. -/
noncomputable def Spec.imageCoef (l m : ℤ) (xs : List (((PyFloat × PyFloat) × (PyFloat × PyFloat)) × PyComplex)) : ℂ :=
  (xs.map fun x => (starRingEnd ℂ) (sphY l m (centreAngles x.1).1 (centreAngles x.1).2) * (cval x.2 * ((Real.sin (centreAngles x.1).1 * facetBox x.1 : ℝ) : ℂ))).sum

namespace FloatImage

theorem cval_real (x : PyFloat) : cval (toComplex x) = ((x.num : ℝ) : ℂ) := by
  apply Complex.ext <;> simp [cval, toComplex, PyFloat.num]

theorem rel_real {x : PyFloat} {X B ε : ℝ} (h : FinD x) (hc : |(x.num : ℝ) - X| ≤ ε * B) (hs : |X| ≤ B) : Rel (toComplex x) (X : ℂ) B ε := by
  refine ⟨h, finD_zero _, ?_, ?_⟩
  · rw [cval_real, ← Complex.ofReal_sub, Complex.norm_real]; exact hc
  · rw [Complex.norm_real]; exact hs

theorem rel_conj {y : PyComplex} {Y : ℂ} {B ε : ℝ} (h : Rel y Y B ε) : Rel (conj y) ((starRingEnd ℂ) Y) B ε := by
  obtain ⟨n1, n2⟩ := FloatRound.neg_num h.im
  have e : cval (conj y) = (starRingEnd ℂ) (cval y) := by
    apply Complex.ext
    · simp [cval, conj]
    · simp [cval, conj, n2]
  refine ⟨h.re, n1, ?_, ?_⟩
  · rw [e, ← map_sub, RCLike.norm_conj]; exact h.close
  · rw [RCLike.norm_conj]; exact h.size

/-- The widths of a facet. -/
theorem widths {P A : List PyFloat} (hP : CornerList P pi) (hA : CornerList A twoPi) {f} (hf : f ∈ gridFacets P A) :
    (FinD (sub f.1.2 f.1.1) ∧ |((sub f.1.2 f.1.1).num : ℝ) - (f.1.2.num - f.1.1.num)| ≤ 1 / 2 ^ 52 * (f.1.2.num - f.1.1.num) ∧
      1 / 2 ^ 20 ≤ (f.1.2.num : ℝ) - f.1.1.num ∧ (f.1.2.num : ℝ) - f.1.1.num ≤ 7) ∧
    (FinD (sub f.2.2 f.2.1) ∧ |((sub f.2.2 f.2.1).num : ℝ) - (f.2.2.num - f.2.1.num)| ≤ 1 / 2 ^ 52 * (f.2.2.num - f.2.1.num) ∧
      1 / 2 ^ 20 ≤ (f.2.2.num : ℝ) - f.2.1.num ∧ (f.2.2.num : ℝ) - f.2.1.num ≤ 7) := by
  obtain ⟨h1, h2⟩ := FloatVisible.mem_facets hf
  have small : pi.num ≤ twoPi.num := by rw [pi_num, twoPi_fd.2]; norm_num
  have key : ∀ (xs : List PyFloat) (b : PyFloat), CornerList xs b → b.num ≤ twoPi.num → ∀ q ∈ FloatDescribe.pairs xs,
      (FinD (sub q.2 q.1) ∧ |((sub q.2 q.1).num : ℝ) - (q.2.num - q.1.num)| ≤ 1 / 2 ^ 52 * (q.2.num - q.1.num) ∧
      1 / 2 ^ 20 ≤ (q.2.num : ℝ) - q.1.num ∧ (q.2.num : ℝ) - q.1.num ≤ 7) := by
    intro xs b hx hb q hq
    obtain ⟨q1, q2⟩ := pair_mem hq
    have ap := hx.apart q hq
    obtain ⟨w1, w2, w3, w4⟩ := width_ok (hx.finite _ q1) (hx.finite _ q2) (hx.inside _ q1).1 ((hx.inside _ q2).2.trans hb) ap
    refine ⟨w1, w4.trans (le_of_eq (by ring)), by linarith, ?_⟩
    have t1 : (q.2.num : ℝ) ≤ twoPi.num := by exact_mod_cast (hx.inside _ q2).2.trans hb
    have t2 : (0 : ℝ) ≤ q.1.num := by exact_mod_cast (hx.inside _ q1).1
    have t3 := FloatVisible.pi_range.2
    linarith
  exact ⟨key A twoPi hA le_rfl _ h1, key P pi hP small _ h2⟩

/-- An entry of the fixed factors. -/
theorem fixed_rel {T : SineLib} (hT : GoodCircle T) {P A : List PyFloat} (hP : CornerList P pi) (hA : CornerList A twoPi) {f} (hf : f ∈ gridFacets P A) {z : PyComplex}
    {M : ℝ} (hz1 : FinD z.1) (hz2 : FinD z.2) (hz : PartsLe M (cval z)) (hM : M ≤ 2 ^ 800) :
    Rel (fixedFactor T f z) (cval z * ((Real.sin (centreAngles f).1 * facetBox f : ℝ) : ℂ)) (2 * (M + 1 / 2 ^ 900) * facetBox f) (1 / 2 ^ 43) := by
  have M0 : 0 ≤ M := (abs_nonneg _).trans hz.1
  obtain ⟨⟨⟨c1, c2⟩, c3, c4⟩, -⟩ := FloatVector.centre_near hP hA hf
  obtain ⟨⟨a1, a2, a3, a4⟩, ⟨b1, b2, b3, b4⟩⟩ := widths hP hA hf
  obtain ⟨s1, s2⟩ := hT.sin _ c1 c2
  have ν0 : (0 : ℝ) < 1 / 2 ^ 900 := by positivity
  have ν1 : (1 : ℝ) / 2 ^ 900 ≤ 1 := by rw [div_le_one (by positivity)]; exact one_le_pow₀ (by norm_num)
  have m800 : 2 * (M + 1 / 2 ^ 900) ≤ 2 ^ 802 := by
    have : (1 : ℝ) ≤ 2 ^ 800 := one_le_pow₀ (by norm_num)
    rw [show (802 : ℕ) = 2 + 800 by norm_num, pow_add]
    linarith
  have m0 : 1 / 2 ^ 900 ≤ 2 * (M + 1 / 2 ^ 900) := by linarith
  have r0 : Rel z (cval z) (2 * (M + 1 / 2 ^ 900)) 0 := ⟨hz1, hz2, by simp, (FloatRotate.norm_le_parts hz).trans (by linarith)⟩
  have rs : Rel (toComplex (T.sin (FloatVisible.centrePolar f.2))) ((Real.sin (centreAngles f).1 : ℝ) : ℂ) 1 (1 / 2 ^ 50) :=
    rel_real s1 (by rw [mul_one]; exact s2) (Real.abs_sin_le_one _)
  have ra := rel_real a1 a2 (show |(f.1.2.num : ℝ) - f.1.1.num| ≤ (f.1.2.num : ℝ) - f.1.1.num by rw [abs_of_nonneg]; exact (by positivity : (0 : ℝ) ≤ 1 / 2 ^ 20).trans a3)
  have rb := rel_real b1 b2 (show |(f.2.2.num : ℝ) - f.2.1.num| ≤ (f.2.2.num : ℝ) - f.2.1.num by rw [abs_of_nonneg]; exact (by positivity : (0 : ℝ) ≤ 1 / 2 ^ 20).trans b3)
  have box : facetBox f = ((f.1.2.num : ℝ) - f.1.1.num) * ((f.2.2.num : ℝ) - f.2.1.num) := rfl
  rw [box, fixedFactor]
  generalize (f.1.2.num : ℝ) - f.1.1.num = a at *
  generalize (f.2.2.num : ℝ) - f.2.1.num = b at *
  generalize 2 * (M + 1 / 2 ^ 900) = B at *
  have a0 : 0 ≤ a := (by positivity : (0 : ℝ) ≤ 1 / 2 ^ 20).trans a3
  have b0 : 0 ≤ b := (by positivity : (0 : ℝ) ≤ 1 / 2 ^ 20).trans b3
  have B0 : 0 ≤ B := ν0.le.trans m0
  have l1 : 1 / 2 ^ 920 ≤ B * a := by
    refine le_trans (le_of_eq ?_) (mul_le_mul m0 a3 (by positivity) B0)
    rw [show (920 : ℕ) = 900 + 20 by norm_num, pow_add, one_div, one_div, one_div, mul_inv]
  have l2 : 1 / 2 ^ 940 ≤ B * a * b := by
    refine le_trans (le_of_eq ?_) (mul_le_mul l1 b3 (by positivity) (mul_nonneg B0 a0))
    rw [show (940 : ℕ) = 920 + 20 by norm_num, pow_add, one_div, one_div, one_div, mul_inv]
  have u1 : B * a ≤ 2 ^ 805 := by
    refine (mul_le_mul m800 a4 a0 (by positivity)).trans ?_
    rw [show (805 : ℕ) = 3 + 802 by norm_num, pow_add]
    have : (0 : ℝ) < 2 ^ 802 := by positivity
    generalize (2 : ℝ) ^ 802 = x at *
    norm_num
    linarith
  have u2 : B * a * b ≤ 2 ^ 808 := by
    refine (mul_le_mul u1 b4 b0 (by positivity)).trans ?_
    rw [show (808 : ℕ) = 3 + 805 by norm_num, pow_add]
    have : (0 : ℝ) < 2 ^ 805 := by positivity
    generalize (2 : ℝ) ^ 805 = x at *
    norm_num
    linarith
  have q1 := (r0.mul rs (by norm_num) (by norm_num) (by rw [mul_one]; exact m800.trans (pow_mono (by norm_num)))
    (by rw [mul_one]; exact le_trans (one_div_le_one_div_of_le (by positivity) (pow_mono (by norm_num))) m0)).mono (ε' := 1 / 2 ^ 45) (by norm_num)
  rw [mul_one] at q1
  have q2 := (q1.mul ra (by norm_num) (by norm_num) (u1.trans (pow_mono (by norm_num)))
    (le_trans (one_div_le_one_div_of_le (by positivity) (pow_mono (by norm_num))) l1)).mono (ε' := 1 / 2 ^ 44) (by norm_num)
  have q3 := (q2.mul rb (by norm_num) (by norm_num) (u2.trans (pow_mono (by norm_num))) l2).mono (ε' := 1 / 2 ^ 43) (by norm_num)
  have e1 : cval z * ((Real.sin (centreAngles f).1 : ℝ) : ℂ) * (a : ℂ) * (b : ℂ) = cval z * ((Real.sin (centreAngles f).1 * (a * b) : ℝ) : ℂ) := by
    push_cast; ring
  rw [e1, mul_assoc] at q3
  exact q3

theorem sum_product (xs ys : List (PyFloat × PyFloat)) (u v : PyFloat × PyFloat → ℝ) :
    ((xs.flatMap fun a => ys.map fun p => (a, p)).map fun f => u f.1 * v f.2).sum = (xs.map u).sum * (ys.map v).sum := by
  induction xs with
  | nil => simp
  | cons x xs ih =>
    rw [List.flatMap_cons, List.map_append, List.sum_append, ih, List.map_cons, List.sum_cons, List.map_map, add_mul]
    congr 1
    rw [← List.sum_map_mul_left]
    rfl

/-- The facets cover the square of the angles. -/
theorem box_total {P A : List PyFloat} (hP : CornerList P pi) (hA : CornerList A twoPi) : ((gridFacets P A).map facetBox).sum ≤ 20 := by
  have tel : ∀ (xs : List PyFloat) (b : PyFloat), CornerList xs b → ((xs.zip xs.tail).map fun p => (p.2.num : ℝ) - p.1.num).sum = b.num := by
    intro xs b h
    obtain ⟨x, hx, hx0⟩ := h.first
    have := telescope (fun p => (p.num : ℝ)) xs x b hx h.last
    rw [hx0] at this
    simpa [FloatDescribe.pairs] using this
  have e := sum_product (A.zip A.tail) (P.zip P.tail) (fun p => (p.2.num : ℝ) - p.1.num) (fun p => (p.2.num : ℝ) - p.1.num)
  rw [tel A _ hA, tel P _ hP] at e
  refine le_trans (le_of_eq e) ?_
  rw [pi_num, twoPi_fd.2]
  push_cast
  norm_num

/-- One coefficient. -/
theorem project_ok {Y : Harm} {T : SineLib} {S : List PyFloat → PyFloat} (hT : GoodCircle T) (hS : ∀ xs, IsNpSum xs (S xs)) {L : ℤ} {η : ℝ} (h0 : 0 ≤ η) (h1 : η ≤ 1 / 4)
    (hY : GoodHarm Y L η) {P A : List PyFloat} (hP : CornerList P pi) (hA : CornerList A twoPi) {data : List PyComplex} (hl : data.length = (gridFacets P A).length)
    (hn : data.length ≤ 2 ^ 24) {M : ℝ} (hM : M ≤ 2 ^ 800) (hd : ∀ z ∈ data, FinD z.1 ∧ FinD z.2 ∧ PartsLe M (cval z)) (M0 : 0 ≤ M) {l m : ℤ} (hm : |m| ≤ l) (hL : l ≤ L)
    (hb : l < 2 ^ 20) :
    FinD (project Y T S P A data (l, m)).1 ∧ FinD (project Y T S P A data (l, m)).2 ∧
      ‖cval (project Y T S P A data (l, m)) - imageCoef l m ((gridFacets P A).zip data)‖ ≤
        80 * ((l : ℝ) + 1) * (M + 1 / 2 ^ 900) * (η + data.length / 2 ^ 50 + 1 / 2 ^ 41) := by
  have l0 : 0 ≤ l := (abs_nonneg _).trans hm
  have l0' : (0 : ℝ) ≤ l := by exact_mod_cast l0
  have l1 : (l : ℝ) + 1 ≤ 2 ^ 20 := by
    have : l + 1 ≤ 2 ^ 20 := by omega
    exact_mod_cast this
  have ν0 : (0 : ℝ) < 1 / 2 ^ 900 := by positivity
  have ν1 : (1 : ℝ) / 2 ^ 900 ≤ 1 := by rw [div_le_one (by positivity)]; exact one_le_pow₀ (by norm_num)
  have m0 : 1 / 2 ^ 900 ≤ 2 * (M + 1 / 2 ^ 900) := by linarith
  have m800 : 2 * (M + 1 / 2 ^ 900) ≤ 2 ^ 802 := by
    have : (1 : ℝ) ≤ 2 ^ 800 := one_le_pow₀ (by norm_num)
    rw [show (802 : ℕ) = 2 + 800 by norm_num, pow_add]
    linarith
  have len : ((gridFacets P A).zip data).length = data.length := by rw [List.length_zip, hl, min_self]
  have term : ∀ x ∈ (gridFacets P A).zip data, Rel (cmul (conj (harmonic Y (l, m) x.1)) (fixedFactor T x.1 x.2))
      ((starRingEnd ℂ) (sphY l m (centreAngles x.1).1 (centreAngles x.1).2) * (cval x.2 * ((Real.sin (centreAngles x.1).1 * facetBox x.1 : ℝ) : ℂ)))
      (((l : ℝ) + 1) * (2 * (M + 1 / 2 ^ 900) * facetBox x.1)) (η + 1 / 2 ^ 41) := by
    intro x hx
    obtain ⟨x1, x2⟩ := List.of_mem_zip (a := x.1) (b := x.2) hx
    obtain ⟨⟨⟨c1, c2⟩, c3, c4⟩, -⟩ := FloatVector.centre_near hP hA x1
    obtain ⟨d1, d2, d3⟩ := hd _ x2
    obtain ⟨g1, g2, g3⟩ := hY l m _ _ hm hL c3 c1 c4 c2
    have r1 : Rel (harmonic Y (l, m) x.1) (sphY l m (centreAngles x.1).1 (centreAngles x.1).2) ((l : ℝ) + 1) η := by
      refine ⟨g1, g2, g3.trans ?_, sphY_le hm _ _⟩
      have := mul_le_mul_of_nonneg_left (show (1 : ℝ) ≤ (l : ℝ) + 1 by linarith) h0
      linarith
    have r2 := fixed_rel hT hP hA x1 d1 d2 d3 hM
    obtain ⟨⟨-, -, a3, a4⟩, ⟨-, -, b3, b4⟩⟩ := widths hP hA x1
    have box0 : 1 / 2 ^ 40 ≤ facetBox x.1 := by
      refine le_trans (by norm_num) (mul_le_mul a3 b3 (by norm_num) ((by positivity : (0 : ℝ) ≤ 1 / 2 ^ 20).trans a3))
    have box1 : facetBox x.1 ≤ 2 ^ 6 :=
      le_trans (mul_le_mul a4 b4 ((by positivity : (0 : ℝ) ≤ 1 / 2 ^ 20).trans b3) (by norm_num)) (by norm_num)
    have box0' : 0 ≤ facetBox x.1 := (by positivity : (0 : ℝ) ≤ 1 / 2 ^ 40).trans box0
    have B0 : 1 / 2 ^ 940 ≤ 2 * (M + 1 / 2 ^ 900) * facetBox x.1 := by
      refine le_trans (le_of_eq ?_) (mul_le_mul m0 box0 (by positivity) (by linarith))
      rw [show (940 : ℕ) = 900 + 40 by norm_num, pow_add, one_div, one_div, one_div, mul_inv]
    have B1 : 2 * (M + 1 / 2 ^ 900) * facetBox x.1 ≤ 2 ^ 808 := by
      refine (mul_le_mul m800 box1 box0' (by positivity)).trans (le_of_eq ?_)
      rw [← pow_add]
    have B0' : 0 ≤ 2 * (M + 1 / 2 ^ 900) * facetBox x.1 := mul_nonneg (by linarith) box0'
    refine ((rel_conj r1).mul r2 (by linarith) (by norm_num) ?_ ?_).mono (by
      have : 2 * (1 / 2 ^ 43) + 1 / 2 ^ 46 ≤ (1 : ℝ) / 2 ^ 41 := by norm_num
      linarith)
    · refine (mul_le_mul l1 B1 B0' (by positivity)).trans ?_
      rw [← pow_add]
      exact pow_mono (by norm_num)
    · refine B0.trans ?_
      have := mul_le_mul_of_nonneg_right (show (1 : ℝ) ≤ (l : ℝ) + 1 by linarith) B0'
      linarith
  have tot : (((gridFacets P A).zip data).map fun x => ((l : ℝ) + 1) * (2 * (M + 1 / 2 ^ 900) * facetBox x.1)).sum ≤ ((l : ℝ) + 1) * (2 * (M + 1 / 2 ^ 900) * 20) := by
    rw [List.sum_map_mul_left, List.sum_map_mul_left]
    have : ((gridFacets P A).zip data).map (fun x => facetBox x.1) = (gridFacets P A).map facetBox := by
      rw [show (fun x : ((PyFloat × PyFloat) × (PyFloat × PyFloat)) × PyComplex => facetBox x.1) = facetBox ∘ Prod.fst from rfl, ← List.map_map, List.map_fst_zip (by omega)]
    rw [this]
    exact mul_le_mul_of_nonneg_left (mul_le_mul_of_nonneg_left (box_total hP hA) (by linarith)) (by linarith)
  have n1 := hS ((((FloatVisible.facets P A).zip data).map fun x => cmul (conj (harmonic Y (l, m) x.1)) (fixedFactor T x.1 x.2)).map (·.1))
  have n2 := hS ((((FloatVisible.facets P A).zip data).map fun x => cmul (conj (harmonic Y (l, m) x.1)) (fixedFactor T x.1 x.2)).map (·.2))
  rw [List.map_map] at n1 n2
  obtain ⟨f1, f2, f3⟩ := csum_close ((gridFacets P A).zip data) (s := project Y T S P A data (l, m)) (g := fun x => cmul (conj (harmonic Y (l, m) x.1)) (fixedFactor T x.1 x.2))
    (by rw [project, csum, List.map_map, List.map_map]; exact n1) (by rw [project, csum, List.map_map, List.map_map]; exact n2) (by rw [len]; exact hn) term tot (by positivity) (by norm_num; linarith) (by
      have : 2 * (M + 1 / 2 ^ 900) * 20 ≤ 2 ^ 807 := by
        rw [show (807 : ℕ) = 5 + 802 by norm_num, pow_add]
        have : (0 : ℝ) < 2 ^ 802 := by positivity
        generalize (2 : ℝ) ^ 802 = x at *
        generalize 2 * (M + 1 / 2 ^ 900) = y at *
        norm_num
        linarith
      refine (mul_le_mul l1 this (by linarith) (by positivity)).trans ?_
      rw [← pow_add]
      exact pow_mono (by norm_num))
  refine ⟨f1, f2, f3.trans (le_of_eq ?_)⟩
  rw [len]
  ring

end FloatImage

/-- **C130**: `from_image` raises nothing for an image of finite numbers of at most `M` on a grid over the sphere, stores exactly the pairs `|m| ≤ l < lmax` and finite
numbers, and each is the integral of the image against the conjugate harmonic by the midpoint rule, up to `80 (l + 1) (M + 2^-900) (η + n 2^-50 + 2^-41)` for `n` pixels. -/
theorem C130_from_image (Y : Harm) (T : SineLib) (hT : GoodCircle T) (S : List PyFloat → PyFloat) (hS : ∀ xs, IsNpSum xs (S xs)) (lmax : ℤ) (hb : lmax ≤ 2 ^ 20) (η : ℝ)
    (h0 : 0 ≤ η) (h1 : η ≤ 1 / 4) (hY : GoodHarm Y (lmax - 1) η) (P A : List PyFloat) (hP : CornerList P pi) (hA : CornerList A twoPi) (p2 : 2 ≤ P.length) (a2 : 2 ≤ A.length)
    (x : Picture) (hr : x.rows = A.length - 1) (hc : x.cols = P.length - 1) (hd : x.data.length = x.rows * x.cols) (hn : x.data.length ≤ 2 ^ 24) (M : ℝ) (hM : M ≤ 2 ^ 800)
    (hx : ∀ z ∈ x.data, FinD z.1 ∧ FinD z.2 ∧ PartsLe M (cval z)) :
    ∃ c, fromImage Y T S x (some (P, A)) lmax = .ok (c, (P, A)) ∧ CSet 1 c ∧ Spec.Finite c ∧ (∀ l m, stores c l m ↔ |m| ≤ l ∧ l < lmax) ∧
      ∀ l m : ℤ, |m| ≤ l → l < lmax → ‖firstAt c l m - imageCoef l m ((gridFacets P A).zip x.data)‖ ≤
        80 * ((l : ℝ) + 1) * (M + 1 / 2 ^ 900) * (η + x.data.length / 2 ^ 50 + 1 / 2 ^ 41) := by
  have glen : (gridFacets P A).length = (A.length - 1) * (P.length - 1) := by
    simp [gridFacets, List.length_flatMap, List.length_zip]
  have hl : x.data.length = (gridFacets P A).length := by rw [hd, hr, hc, glen]
  have M0 : 0 ≤ M := by
    have : 0 < x.data.length := by rw [hd, hr, hc]; exact Nat.mul_pos (by omega) (by omega)
    obtain ⟨z, hz⟩ := List.exists_mem_of_length_pos this
    exact (abs_nonneg _).trans (hx z hz).2.2.1
  have val : ∀ k ∈ Image.indices lmax, _ := fun k hk => project_ok hT hS h0 h1 hY hP hA hl hn hM hx M0 ((Image.mem_indices _ _).1 hk).1
    (show k.1 ≤ lmax - 1 by have := ((Image.mem_indices _ _).1 hk).2; omega) (by have := ((Image.mem_indices _ _).1 hk).2; omega)
  obtain ⟨t, e, w, kk, df, dt, g⟩ := Coefs.build_ok [zeroJ] .cplx (fun _ _ => rfl) (Image.indices lmax) (fun k => [project Y T S P A x.data k]) (Image.indices_nodup _)
    (fun k hk => ((Image.mem_indices _ k).1 hk).1) (fun _ _ => rfl)
  have get : ∀ k ∈ Image.indices lmax, t.getI k = [project Y T S P A x.data k] := by
    intro k hk
    rw [g, if_pos hk]
    rfl
  have ct : CSet 1 t := ⟨wellFormed_of_WF w, df, dt⟩
  refine ⟨t, ?_, ct, ?_, ?_, ?_⟩
  · simp only [fromImage, needFacets, bind, Except.bind, pure, Except.pure, if_pos (show 2 ≤ P.length ∧ 2 ≤ A.length from ⟨p2, a2⟩), if_pos (show x.rows = A.length - 1 ∧ x.cols = P.length - 1 from ⟨hr, hc⟩), e]
  · refine finite_of fun l m j => ?_
    rcases j with _ | j
    · by_cases hk : (l, m) ∈ Image.indices lmax
      · rw [get _ hk]
        exact ⟨(val _ hk).1, (val _ hk).2.1⟩
      · rw [g, if_neg hk]
        exact ⟨finD_zero _, finD_zero _⟩
    · rw [getD_of_le (by rw [w.getI_length, df]; simp)]
      exact ⟨finD_zero _, finD_zero _⟩
  · intro l m
    rw [stores, Coefs.has_int, kk, Image.mem_indices]
  · intro l m hm hl'
    have hk := (Image.mem_indices lmax (l, m)).2 ⟨hm, hl'⟩
    rw [firstAt, valueAt_eq, get (l, m) hk]
    exact (val _ hk).2.2

/-- **C130**: without a grid `from_image` makes one that fits the image. -/
theorem C130_grid (Y : Harm) (T : SineLib) (S : List PyFloat → PyFloat) (x : Picture) (lmax : ℤ) (hr : 1 ≤ x.rows) (hc : 1 ≤ x.cols) (hr' : x.rows < 2 ^ 20) (hc' : x.cols < 2 ^ 20) :
    ∃ P A, CornerList P pi ∧ CornerList A twoPi ∧ x.rows = A.length - 1 ∧ x.cols = P.length - 1 ∧ 2 ≤ P.length ∧ 2 ≤ A.length ∧
      fromImage Y T S x none lmax = fromImage Y T S x (some (P, A)) lmax := by
  obtain ⟨P, A, e, cP, cA, lP, lA, -⟩ := C125_corners (x.cols + 1) (x.rows + 1) (by omega) (by omega) (by omega) (by omega)
  refine ⟨P, A, cP, cA, by omega, by omega, by omega, by omega, ?_⟩
  push_cast at e
  simp only [fromImage, e, bind, Except.bind, pure, Except.pure]

/-- The integral of a function on the sphere against a conjugate harmonic by the midpoint rule. -/
noncomputable def Spec.midpointCoef (g : ℝ → ℝ → ℂ) (P A : List PyFloat) (l m : ℤ) : ℂ :=
  ((gridFacets P A).map fun f => (starRingEnd ℂ) (sphY l m (centreAngles f).1 (centreAngles f).2) *
    (g (centreAngles f).1 (centreAngles f).2 * ((Real.sin (centreAngles f).1 * facetBox f : ℝ) : ℂ))).sum

namespace FloatImage

theorem forall₂_zip {α β : Type} {R : α → β → Prop} {xs : List α} {ys : List β} (h : List.Forall₂ R xs ys) : ∀ q ∈ xs.zip ys, R q.1 q.2 := by
  intro q hq
  exact List.forall₂_zip h (a := q.1) (b := q.2) hq

theorem norm_sum_le {α : Type} (xs : List α) (t : α → ℂ) (b : α → ℝ) (h : ∀ x ∈ xs, ‖t x‖ ≤ b x) : ‖(xs.map t).sum‖ ≤ (xs.map b).sum := by
  induction xs with
  | nil => simp
  | cons x xs ih =>
    rw [List.map_cons, List.map_cons, List.sum_cons, List.sum_cons]
    exact (norm_add_le _ _).trans (add_le_add (h x List.mem_cons_self) (ih fun y hy => h y (List.mem_cons_of_mem _ hy)))

theorem sum_sub {α : Type} (xs : List α) (t u : α → ℂ) : (xs.map t).sum - (xs.map u).sum = (xs.map fun x => t x - u x).sum := by
  induction xs with
  | nil => simp
  | cons x xs ih => rw [List.map_cons, List.map_cons, List.map_cons, List.sum_cons, List.sum_cons, List.sum_cons, ← ih]; ring

/-- Pixels close to a function have coefficients close to those of the function. -/
theorem coef_close {P A : List PyFloat} (hP : CornerList P pi) (hA : CornerList A twoPi) {data : List PyComplex} {g : ℝ → ℝ → ℂ} {E : ℝ} (E0 : 0 ≤ E)
    (hl : data.length = (gridFacets P A).length) (h : ∀ q ∈ (gridFacets P A).zip data, ‖cval q.2 - g (centreAngles q.1).1 (centreAngles q.1).2‖ ≤ E) {l m : ℤ} (hm : |m| ≤ l) :
    ‖imageCoef l m ((gridFacets P A).zip data) - midpointCoef g P A l m‖ ≤ 20 * ((l : ℝ) + 1) * E := by
  have l0 : (0 : ℝ) ≤ l := by exact_mod_cast (abs_nonneg _).trans hm
  have e : midpointCoef g P A l m = (((gridFacets P A).zip data).map fun x => (starRingEnd ℂ) (sphY l m (centreAngles x.1).1 (centreAngles x.1).2) *
    (g (centreAngles x.1).1 (centreAngles x.1).2 * ((Real.sin (centreAngles x.1).1 * facetBox x.1 : ℝ) : ℂ))).sum := by
    conv_lhs => rw [midpointCoef, ← List.map_fst_zip (l₁ := gridFacets P A) (l₂ := data) (by omega), List.map_map]
    rfl
  rw [e, imageCoef, sum_sub]
  refine (norm_sum_le _ _ (fun x => ((l : ℝ) + 1) * E * facetBox x.1) ?_).trans ?_
  · intro x hx
    obtain ⟨x1, x2⟩ := List.of_mem_zip (a := x.1) (b := x.2) hx
    obtain ⟨⟨-, -, a3, -⟩, ⟨-, -, b3, -⟩⟩ := widths hP hA x1
    have box0 : 0 ≤ facetBox x.1 := mul_nonneg ((by positivity : (0 : ℝ) ≤ 1 / 2 ^ 20).trans a3) ((by positivity : (0 : ℝ) ≤ 1 / 2 ^ 20).trans b3)
    rw [← mul_sub, ← sub_mul, norm_mul, norm_mul, RCLike.norm_conj, Complex.norm_real, Real.norm_eq_abs, abs_mul, abs_of_nonneg box0, mul_assoc ((l : ℝ) + 1)]
    refine mul_le_mul (sphY_le hm _ _) (mul_le_mul (h x hx) ?_ (by positivity) E0) (by positivity) (by linarith)
    have := mul_le_mul_of_nonneg_right (Real.abs_sin_le_one (centreAngles x.1).1) box0
    linarith
  · rw [List.sum_map_mul_left]
    have e2 : ((gridFacets P A).zip data).map (fun x => facetBox x.1) = (gridFacets P A).map facetBox := by
      rw [show (fun x : ((PyFloat × PyFloat) × (PyFloat × PyFloat)) × PyComplex => facetBox x.1) = facetBox ∘ Prod.fst from rfl, ← List.map_map, List.map_fst_zip (by omega)]
    rw [e2]
    refine (mul_le_mul_of_nonneg_left (box_total hP hA) (mul_nonneg (by linarith) E0)).trans (le_of_eq (by ring))

theorem synthesis_le {s : Coefs PyComplex} (h : WellFormed s) {M : ℝ} (M0 : 0 ≤ M) (hs : ∀ l m, PartsLe M (firstAt s l m)) (θ φ : ℝ) :
    ‖synthesis s θ φ‖ ≤ (Spec.pairs s).card * (2 * M * ((s.degreeMax : ℝ) + 1)) := by
  rw [synthesis, ← nsmul_eq_mul]
  refine (_root_.norm_sum_le _ _).trans (Finset.sum_le_card_nsmul _ _ _ fun k hk => ?_)
  have hw := WF_of_wellFormed h
  rw [pairs_eq, List.mem_toFinset] at hk
  have v := hw.valid k hk
  have d : (k.1 : ℝ) ≤ s.degreeMax := by exact_mod_cast hw.degUpper k hk
  have l0 : (0 : ℝ) ≤ k.1 := by exact_mod_cast (abs_nonneg _).trans v
  rw [norm_mul]
  exact mul_le_mul (FloatRotate.norm_le_parts (hs _ _)) ((sphY_le v _ _).trans (by linarith)) (norm_nonneg _) (by linarith)

end FloatImage

/-- **C130**: an image made from a set and read back gives the midpoint integrals of the function of the set, up to rounding: with `K = N (degree_max + 1) (M + 2^-900)`
the error is at most `600 (l + 1) (K + 2^-900) (η + (n + N) 2^-50 + 2^-41)`. -/
theorem C130_round (Y : Harm) (T : SineLib) (hT : GoodCircle T) (S : List PyFloat → PyFloat) (hS : ∀ xs, IsNpSum xs (S xs)) (s : Coefs PyComplex) (h : CSet 1 s) (hf : Spec.Finite s)
    (lmax : ℤ) (hb : lmax ≤ 2 ^ 20) (η : ℝ) (h0 : 0 ≤ η) (h1 : η ≤ 1 / 4) (hY : GoodHarm Y (max s.degreeMax (lmax - 1)) η) (M : ℝ) (hM : M ≤ 2 ^ 750)
    (hs : ∀ l m, PartsLe M (firstAt s l m)) (hN : (Spec.pairs s).card ≤ 2 ^ 24) (hL : s.degreeMax < 2 ^ 20) (P A : List PyFloat)
    (hP : CornerList P pi) (hA : CornerList A twoPi) (p2 : 2 ≤ P.length) (a2 : 2 ≤ A.length) (hn : (gridFacets P A).length ≤ 2 ^ 24) :
    ∃ x c, toImage Y s P A = .ok x ∧ fromImage Y T S x (some (P, A)) lmax = .ok (c, (P, A)) ∧ CSet 1 c ∧ Spec.Finite c ∧ (∀ l m, stores c l m ↔ |m| ≤ l ∧ l < lmax) ∧
      ∀ l m : ℤ, |m| ≤ l → l < lmax → ‖firstAt c l m - midpointCoef (synthesis s) P A l m‖ ≤
        600 * ((l : ℝ) + 1) * ((Spec.pairs s).card * ((s.degreeMax : ℝ) + 1) * (M + 1 / 2 ^ 900) + 1 / 2 ^ 900) *
          (η + ((gridFacets P A).length + (Spec.pairs s).card) / 2 ^ 50 + 1 / 2 ^ 41) := by
  have M0 : 0 ≤ M := (abs_nonneg _).trans (hs 0 0).1
  have D0 := FloatRotate.degree_nonneg h.wf
  have D0' : (0 : ℝ) ≤ s.degreeMax := by exact_mod_cast D0
  have D1 : (s.degreeMax : ℝ) + 1 ≤ 2 ^ 20 := by
    have : s.degreeMax + 1 ≤ 2 ^ 20 := by omega
    exact_mod_cast this
  have N1 : ((Spec.pairs s).card : ℝ) ≤ 2 ^ 24 := by exact_mod_cast hN
  have G1 : ((gridFacets P A).length : ℝ) ≤ 2 ^ 24 := by exact_mod_cast hn
  have ν0 : (0 : ℝ) < 1 / 2 ^ 900 := by positivity
  have ν1 : (1 : ℝ) / 2 ^ 900 ≤ 1 := by rw [div_le_one (by positivity)]; exact one_le_pow₀ (by norm_num)
  obtain ⟨x, e, r, c, px⟩ := C130_to_image Y η h0 h1 s h hf (fun l m φ θ a b => hY l m φ θ a (b.trans (le_max_left _ _))) M (hM.trans (pow_mono (by norm_num))) hs hN hL P A hP hA p2 a2
  have hl := px.length_eq
  have glen : (gridFacets P A).length = (A.length - 1) * (P.length - 1) := by
    simp [gridFacets, List.length_flatMap, List.length_zip]
  have pz := forall₂_zip px
  have syn := synthesis_le h.wf M0 hs
  have e8 : 8 * ((Spec.pairs s).card : ℝ) * ((s.degreeMax : ℝ) + 1) * (M + 1 / 2 ^ 900) = 8 * ((Spec.pairs s).card * ((s.degreeMax : ℝ) + 1) * (M + 1 / 2 ^ 900)) := by ring
  rw [e8] at pz
  have K1 : (Spec.pairs s).card * ((s.degreeMax : ℝ) + 1) * (M + 1 / 2 ^ 900) ≤ 2 ^ 796 := by
    have : M + 1 / 2 ^ 900 ≤ 2 ^ 751 := by
      have : (1 : ℝ) ≤ 2 ^ 750 := one_le_pow₀ (by norm_num)
      rw [show (2 : ℝ) ^ 751 = 2 * 2 ^ 750 by rw [← pow_succ']]
      linarith
    refine (mul_le_mul (mul_le_mul N1 D1 (by linarith) (by positivity)) this (by linarith) (by positivity)).trans ?_
    rw [← pow_add, ← pow_add]
    exact pow_mono (by norm_num)
  have sK : ∀ θ φ, ‖synthesis s θ φ‖ ≤ 2 * ((Spec.pairs s).card * ((s.degreeMax : ℝ) + 1) * (M + 1 / 2 ^ 900)) := by
    intro θ φ
    refine (syn θ φ).trans ?_
    have : 0 ≤ ((Spec.pairs s).card : ℝ) * ((s.degreeMax : ℝ) + 1) * (1 / 2 ^ 900) := by positivity
    generalize (1 : ℝ) / 2 ^ 900 = v at *
    linarith
  have K0 : 0 ≤ (Spec.pairs s).card * ((s.degreeMax : ℝ) + 1) * (M + 1 / 2 ^ 900) := by positivity
  generalize (Spec.pairs s).card * ((s.degreeMax : ℝ) + 1) * (M + 1 / 2 ^ 900) = K at *
  have N0 : (0 : ℝ) ≤ (Spec.pairs s).card := by positivity
  have n0 : (0 : ℝ) ≤ (gridFacets P A).length := by positivity
  have small : η + ((Spec.pairs s).card : ℝ) / 2 ^ 50 + 1 / 2 ^ 46 ≤ 3 / 8 := by
    have : ((Spec.pairs s).card : ℝ) / 2 ^ 50 ≤ 2 ^ 24 / 2 ^ 50 := by gcongr
    norm_num at *
    linarith
  have e3 : 8 * K * (η + (Spec.pairs s).card / 2 ^ 50 + 1 / 2 ^ 46) ≤ 3 * K := by
    have := mul_le_mul_of_nonneg_left small K0
    linarith
  have pix : ∀ z ∈ x.data, FinD z.1 ∧ FinD z.2 ∧ PartsLe (5 * K) (cval z) := by
    intro z hz
    obtain ⟨i, hi, rfl⟩ := List.getElem_of_mem hz
    have hm : ((gridFacets P A)[i]'(by omega), x.data[i]) ∈ (gridFacets P A).zip x.data := by
      rw [← List.getElem_zip (h := by rw [List.length_zip]; omega)]
      exact List.getElem_mem _
    obtain ⟨q1, q2, q3⟩ := pz _ hm
    refine ⟨q1, q2, parts_of_norm ?_⟩
    have t := norm_sub_norm_le (cval x.data[i]) (synthesis s (centreAngles (gridFacets P A)[i]).1 (centreAngles (gridFacets P A)[i]).2)
    have := sK (centreAngles (gridFacets P A)[i]).1 (centreAngles (gridFacets P A)[i]).2
    have := q3.trans e3
    simp only at this
    linarith
  obtain ⟨t, e1, e2, e4, e5, e6⟩ := C130_from_image Y T hT S hS lmax hb η h0 h1 (fun l m φ θ a b => hY l m φ θ a (b.trans (le_max_right _ _))) P A hP hA p2 a2 x r c
    (by rw [← hl, glen, r, c]) (by omega) (5 * K) (by
      refine le_trans (show 5 * K ≤ 2 ^ 3 * 2 ^ 796 by linarith) ?_
      rw [← pow_add]
      exact pow_mono (by norm_num)) pix
  refine ⟨x, t, e, e1, e2, e4, e5, fun l m hm hl' => ?_⟩
  have E0 : 0 ≤ 8 * K * (η + (Spec.pairs s).card / 2 ^ 50 + 1 / 2 ^ 46) := by positivity
  have f1 := e6 l m hm hl'
  have f2 := coef_close hP hA E0 hl.symm (fun q hq => (pz q hq).2.2) hm
  have l0 : (0 : ℝ) ≤ l := by exact_mod_cast (abs_nonneg _).trans hm
  have tri := norm_sub_le_norm_sub_add_norm_sub (firstAt t l m) (imageCoef l m ((gridFacets P A).zip x.data)) (midpointCoef (synthesis s) P A l m)
  refine tri.trans ((add_le_add f1 f2).trans ?_)
  rw [← hl]
  have g46 : (1 : ℝ) / 2 ^ 46 ≤ 1 / 2 ^ 41 := by norm_num
  have hq : η + (Spec.pairs s).card / 2 ^ 50 + 1 / 2 ^ 46 ≤ η + (((gridFacets P A).length : ℝ) + (Spec.pairs s).card) / 2 ^ 50 + 1 / 2 ^ 41 := by
    gcongr
    linarith
  have hp : η + ((gridFacets P A).length : ℝ) / 2 ^ 50 + 1 / 2 ^ 41 ≤ η + (((gridFacets P A).length : ℝ) + (Spec.pairs s).card) / 2 ^ 50 + 1 / 2 ^ 41 := by
    gcongr
    linarith
  have w0 : 0 ≤ η + (((gridFacets P A).length : ℝ) + (Spec.pairs s).card) / 2 ^ 50 + 1 / 2 ^ 41 := by positivity
  generalize η + (((gridFacets P A).length : ℝ) + (Spec.pairs s).card) / 2 ^ 50 + 1 / 2 ^ 41 = W at *
  generalize (1 : ℝ) / 2 ^ 900 = v at *
  have l1 : (0 : ℝ) ≤ (l : ℝ) + 1 := by linarith
  generalize (l : ℝ) + 1 = u at *
  have a1 : 80 * u * (5 * K + v) * (η + ((gridFacets P A).length : ℝ) / 2 ^ 50 + 1 / 2 ^ 41) ≤ 80 * u * (5 * K + v) * W :=
    mul_le_mul_of_nonneg_left hp (by positivity)
  have a3 : 20 * u * (8 * K * (η + (Spec.pairs s).card / 2 ^ 50 + 1 / 2 ^ 46)) ≤ 20 * u * (8 * K * W) := by gcongr
  have b1 : 0 ≤ u * K * W := by positivity
  have b2 : 0 ≤ u * v * W := by positivity
  refine (add_le_add a1 a3).trans ?_
  linarith

/-! ### The assumptions can be met -/

namespace FloatImage
open FloatCoords FloatEnergy FloatVisible

/-- The harmonics up to degree 2, correctly rounded. -/
noncomputable def exHarm : Harm := fun m l φ θ => (roundReal (sphY l m θ.num φ.num).re, roundReal (sphY l m θ.num φ.num).im)

theorem exHarm_good : GoodHarm exHarm 2 (1 / 2 ^ 49) := by
  intro l m φ θ hm hl _ _ _ _
  have n := sphY_le hm (θ.num : ℝ) φ.num
  have l2 : (l : ℝ) + 1 ≤ 3 := by
    have : (l : ℝ) ≤ 2 := by exact_mod_cast hl
    linarith
  have r1 := (Complex.abs_re_le_norm (sphY l m θ.num φ.num)).trans (n.trans l2)
  have r2 := (Complex.abs_im_le_norm (sphY l m θ.num φ.num)).trans (n.trans l2)
  obtain ⟨a1, a2, -⟩ := roundReal_close (r1.trans (by norm_num))
  obtain ⟨b1, b2, -⟩ := roundReal_close (r2.trans (by norm_num))
  exact ⟨a1, b1, (norm_parts a2 b2).trans (by norm_num)⟩

/-- 3 + 4j at degree 2 and order -1. -/
private def exSheet : Coefs PyComplex := ⟨[zeroJ], .cplx, [((2, -1), [(fin false 3, fin false 4)])], 2, -1⟩

private theorem exSheet_cset : CSet 1 exSheet := by
  refine ⟨wellFormed_of_WF ?_, rfl, rfl⟩
  constructor <;> simp [exSheet, Coefs.keys] <;> intros <;> rfl

private theorem exSheet_cases (l m : ℤ) : exSheet.getI (l, m) = [(fin false 3, fin false 4)] ∨ exSheet.getI (l, m) = [zeroJ] := by
  by_cases h2 : (l, m) = (2, -1)
  · rw [h2]; left; rfl
  · right
    exact Coefs.getI_of_not_mem _ _ (by
      rw [Prod.mk.injEq, not_and] at h2
      simpa [exSheet, Coefs.keys] using h2)

private theorem exSheet_ok : Spec.Finite exSheet ∧ ∀ l m, PartsLe 4 (firstAt exSheet l m) := by
  have d : ∀ n : ℕ, n < 2 ^ 53 → ∀ b : Bool, FinD (fin b (n : ℚ)) := fun n hn b => ⟨b, n, rfl, n, 0, hn, by norm_num, by norm_num, by simp⟩
  constructor
  · intro l m z hz
    rw [elem_getI] at hz
    rcases exSheet_cases l m with h | h <;> rw [h, List.mem_singleton] at hz <;> subst hz
    · exact ⟨by exact_mod_cast d 3 (by norm_num) false, by exact_mod_cast d 4 (by norm_num) false⟩
    · exact ⟨finD_zero _, finD_zero _⟩
  · intro l m
    rw [firstAt, elem_getI]
    rcases exSheet_cases l m with h | h <;> rw [h] <;> constructor <;> norm_num [cval, PyFloat.num, zeroJ]

/-- Non-vacuity of `C130_to_image`, `C130_from_image`, `C130_grid` and `C130_round`: on the grid of `ZdiGeometry(9, 17)` the integrals of 3 + 4j times a harmonic come out
within 10^-6. -/
example : ∃ P A x c, corners (some 9) (some 17) = .ok (P, A) ∧ toImage exHarm exSheet P A = .ok x ∧ fromImage exHarm exCircle exSum x (some (P, A)) 3 = .ok (c, (P, A)) ∧
    ∀ l m : ℤ, |m| ≤ l → l < 3 → ‖firstAt c l m - midpointCoef (synthesis exSheet) P A l m‖ ≤ 1 / 10 ^ 6 := by
  obtain ⟨P, A, e, cP, cA, lP, lA, -⟩ := C125_corners 9 17 (by norm_num) (by norm_num) (by norm_num) (by norm_num)
  have card : (Spec.pairs exSheet).card = 1 := by rw [pairs_eq]; rfl
  have glen : (gridFacets P A).length = 128 := by
    simp [gridFacets, List.length_flatMap, List.length_zip, lP, lA]
  obtain ⟨x, c, e1, e2, -, -, -, h⟩ := C130_round exHarm exCircle exCircle_good exSum exSum_ok exSheet exSheet_cset exSheet_ok.1 3 (by norm_num) (1 / 2 ^ 49) (by norm_num) (by norm_num)
    exHarm_good 4 (le_trans (by norm_num) (pow_mono (show 2 ≤ 750 by norm_num))) exSheet_ok.2 (by rw [card]; norm_num) (by decide) P A cP cA (by omega) (by omega) (by rw [glen]; norm_num)
  refine ⟨P, A, x, c, e, e1, e2, fun l m hm hl => (h l m hm hl).trans ?_⟩
  have d : exSheet.degreeMax = 2 := rfl
  have v : (1 : ℝ) / 2 ^ 900 ≤ 1 := by rw [div_le_one (by positivity)]; exact one_le_pow₀ (by norm_num)
  have l2 : (l : ℝ) + 1 ≤ 3 := by
    have : l ≤ 2 := by omega
    have : (l : ℝ) ≤ 2 := by exact_mod_cast this
    linarith
  have l0 : (0 : ℝ) ≤ l := by exact_mod_cast (abs_nonneg _).trans hm
  have v0 : (0 : ℝ) ≤ 1 / 2 ^ 900 := by positivity
  rw [d, card, glen]
  generalize (1 : ℝ) / 2 ^ 900 = w at *
  refine le_trans (mul_le_mul (mul_le_mul (mul_le_mul_of_nonneg_left l2 (by norm_num)) (show _ ≤ (16 : ℝ) by push_cast; linarith) (by positivity) (by norm_num)) le_rfl (by positivity) (by norm_num)) ?_
  norm_num

end FloatImage
end Verif
