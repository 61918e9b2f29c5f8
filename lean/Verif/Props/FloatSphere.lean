import Verif.Props.FloatDescribe
import Verif.Props.Describe

/-!
# Property C125: the grid of `ZdiGeometry(n, k)` and its areas in double precision
-/

set_option exponentiation.threshold 4000

namespace Verif
open Spec PyFloat FloatRange FloatSets FloatCoords FloatError FloatRound

/-- Corners from 0 to `b`, at least `2^-20` apart. -/
structure Spec.CornerList (xs : List PyFloat) (b : PyFloat) : Prop where
  finite : ∀ x ∈ xs, FinD x
  inside : ∀ x ∈ xs, 0 ≤ x.num ∧ x.num ≤ b.num
  first : ∃ x, xs.head? = some x ∧ x.num = 0
  last : xs.getLast? = some b
  apart : ∀ p ∈ xs.zip xs.tail, (p.1.num : ℝ) + 1 / 2 ^ 20 ≤ p.2.num

namespace FloatDescribe
open FloatEnergy

/-! ### The constants -/

theorem pi_close : FinD pi ∧ |(pi.num : ℝ) - Real.pi| ≤ 1 / 2 ^ 52 := FloatFib.pi_close

theorem pi_num : pi.num = 884279719003555 / 2 ^ 48 := rfl

theorem int_fd {k : ℕ} (h : k < 2 ^ 53) : FinD (ofInt (k : ℤ)) ∧ (ofInt (k : ℤ)).num = k := by
  rw [FloatFactors.ofInt_double ⟨k, 0, h, by norm_num, by norm_num, by simp⟩]
  exact ⟨⟨_, _, rfl, k, 0, h, by norm_num, by norm_num, by simp⟩, rfl⟩

theorem twoPi_fd : FinD twoPi ∧ twoPi.num = 884279719003555 / 2 ^ 47 := by
  have h2 := int_fd (k := 2) (by norm_num)
  have e : (ofInt ((2 : ℕ) : ℤ)).num * pi.num = 884279719003555 / 2 ^ 47 := by
    rw [h2.2, pi_num]; norm_num
  have hd : IsDouble (884279719003555 / 2 ^ 47) := ⟨884279719003555, -47, by norm_num, by norm_num, by norm_num, by norm_num⟩
  have := mul_num h2.1 pi_close.1 (by rw [e, abs_of_nonneg (by norm_num)]; exact hd.le_max)
  rw [e, rnd_double (by rwa [abs_of_nonneg (by norm_num)])] at this
  exact this

theorem twoPi_close : |(twoPi.num : ℝ) - 2 * Real.pi| ≤ 1 / 2 ^ 51 := by
  have h1 := pi_close.2
  have e : (twoPi.num : ℝ) = 2 * pi.num := by rw [twoPi_fd.2, pi_num]; norm_num
  rw [e, ← mul_sub, abs_mul, abs_of_pos (by norm_num : (0 : ℝ) < 2)]
  norm_num at *
  linarith

/-! ### Telescoping sums -/

theorem telescope (f : PyFloat → ℝ) : ∀ (xs : List PyFloat) (a b : PyFloat), xs.head? = some a → xs.getLast? = some b →
    ((pairs xs).map fun p => f p.2 - f p.1).sum = f b - f a := by
  intro xs
  induction xs with
  | nil => intro a b h; simp at h
  | cons x xs ih =>
    intro a b ha hb
    obtain rfl : x = a := by simpa using ha
    cases xs with
    | nil =>
      obtain rfl : x = b := by simpa using hb
      simp [pairs]
    | cons y ys =>
      have hb' : (y :: ys).getLast? = some b := by rwa [List.getLast?_cons_cons] at hb
      have := ih y b rfl hb'
      simp only [pairs, List.tail_cons, List.zip_cons_cons, List.map_cons, List.sum_cons] at this ⊢
      rw [this]
      ring

theorem sum_flat {α β : Type*} (xs : List α) (f : α → List β) (g : β → ℝ) :
    ((xs.flatMap f).map g).sum = (xs.map fun x => ((f x).map g).sum).sum := by
  induction xs with
  | nil => rfl
  | cons x xs ih => simp [List.flatMap_cons, ih]

theorem sum_diff {α : Type*} (xs : List α) {f g e : α → ℝ} (h : ∀ x ∈ xs, |f x - g x| ≤ e x) :
    |(xs.map f).sum - (xs.map g).sum| ≤ (xs.map e).sum := by
  induction xs with
  | nil => simp
  | cons x xs ih =>
    have h1 := h x (by simp)
    have h2 := ih fun y hy => h y (by simp [hy])
    simp only [List.map_cons, List.sum_cons]
    rw [abs_le] at *
    constructor <;> linarith

/-! ### One facet -/

theorem cos_gap {x y d : ℝ} (hx : 0 ≤ x) (hy : y ≤ Real.pi) (hd : 0 ≤ d) (h : x + d ≤ y) : d ^ 2 / 5 ≤ Real.cos x - Real.cos y := by
  have hpi := Real.pi_lt_d2
  have hp0 := Real.pi_pos
  rw [Real.cos_sub_cos]
  have e : -2 * Real.sin ((x + y) / 2) * Real.sin ((x - y) / 2) = 2 * Real.sin ((x + y) / 2) * Real.sin ((y - x) / 2) := by
    rw [show (x - y) / 2 = -((y - x) / 2) by ring, Real.sin_neg]; ring
  rw [e]
  have hd' : d / 2 ≤ Real.pi / 2 := by linarith
  have h0 : d / Real.pi ≤ Real.sin (d / 2) := by
    have := Real.mul_le_sin (x := d / 2) (by linarith) hd'
    calc d / Real.pi = 2 / Real.pi * (d / 2) := by field_simp
      _ ≤ _ := this
  have hq : 0 ≤ d / Real.pi := by positivity
  have h1 : d / Real.pi ≤ Real.sin ((y - x) / 2) := by
    refine h0.trans (Real.sin_le_sin_of_le_of_le_pi_div_two ?_ ?_ ?_) <;> linarith
  have h2 : d / Real.pi ≤ Real.sin ((x + y) / 2) := by
    rcases le_total ((x + y) / 2) (Real.pi / 2) with hc | hc
    · refine h0.trans (Real.sin_le_sin_of_le_of_le_pi_div_two ?_ ?_ ?_) <;> linarith
    · rw [← Real.sin_pi_sub]
      refine h0.trans (Real.sin_le_sin_of_le_of_le_pi_div_two ?_ ?_ ?_) <;> linarith
  have h3 : d / Real.pi * (d / Real.pi) ≤ Real.sin ((x + y) / 2) * Real.sin ((y - x) / 2) := mul_le_mul h2 h1 hq (hq.trans h2)
  have h4 : d ^ 2 / 5 ≤ 2 * (d / Real.pi * (d / Real.pi)) := by
    rw [show 2 * (d / Real.pi * (d / Real.pi)) = 2 * d ^ 2 / (Real.pi * Real.pi) by field_simp, div_le_div_iff₀ (by norm_num) (by positivity)]
    have : Real.pi * Real.pi ≤ 10 := by nlinarith
    have := mul_le_mul_of_nonneg_left this (sq_nonneg d)
    linarith
  linarith

/-- The difference of the cosines. -/
theorem height_ok {L : DescLib} (hL : GoodDesc L) {x y : PyFloat} (hx : FinD x) (hy : FinD y) (x0 : 0 ≤ x.num) (y1 : y.num ≤ pi.num)
    (h : (x.num : ℝ) + 1 / 2 ^ 20 ≤ y.num) :
    FinD (sub (L.cos x) (L.cos y)) ∧ 0 ≤ ((sub (L.cos x) (L.cos y)).num : ℝ) ∧ ((sub (L.cos x) (L.cos y)).num : ℝ) ≤ 2 + 1 / 2 ^ 40 ∧
      |((sub (L.cos x) (L.cos y)).num : ℝ) - (Real.cos x.num - Real.cos y.num)| ≤ 3 / 2 ^ 50 := by
  have x0' : (0 : ℝ) ≤ x.num := by exact_mod_cast x0
  have hp4 : pi.num ≤ 4 := by rw [pi_num]; norm_num
  have hpr : (pi.num : ℝ) ≤ Real.pi := by
    have := Real.pi_gt_d20
    rw [pi_num]
    push_cast
    norm_num at *
    linarith
  have y1' : (y.num : ℝ) ≤ pi.num := by exact_mod_cast y1
  have hxy : x.num ≤ y.num := by
    have : (x.num : ℝ) ≤ y.num := by
      have : (0 : ℝ) ≤ 1 / 2 ^ 20 := by positivity
      linarith
    exact_mod_cast this
  obtain ⟨c1, c2, c3⟩ := hL.cos x hx x0 ((hxy.trans y1).trans hp4)
  obtain ⟨d1, d2, d3⟩ := hL.cos y hy (x0.trans hxy) (y1.trans hp4)
  have hs : |((L.cos x).num : ℝ) - (L.cos y).num| ≤ 2 := (abs_sub _ _).trans (by linarith)
  obtain ⟨f1, f2⟩ := sub_real c1 d1 (k := 1) (by rw [pow_one]; exact hs) (by norm_num)
  have g := cos_gap x0' (y1'.trans hpr) (by positivity : (0 : ℝ) ≤ 1 / 2 ^ 20) h
  have t0 : (1 : ℝ) / 2 ^ 1000 ≤ 1 / 2 ^ 100 := by gcongr <;> norm_num
  have hc1 := Real.neg_one_le_cos (y.num : ℝ)
  have hc2 := Real.cos_le_one (x.num : ℝ)
  refine ⟨f1, ?_⟩
  generalize ((sub (L.cos x) (L.cos y)).num : ℝ) = D at *
  generalize ((L.cos x).num : ℝ) = cx at *
  generalize ((L.cos y).num : ℝ) = cy at *
  generalize Real.cos (x.num : ℝ) = CX at *
  generalize Real.cos (y.num : ℝ) = CY at *
  generalize (1 : ℝ) / 2 ^ 1000 = t at *
  clear * - c3 d3 hs f2 g t0 hc1 hc2
  generalize |cx - cy| = A at *
  rw [abs_le] at *
  norm_num at *
  refine ⟨?_, ?_, ?_, ?_⟩ <;> linarith

/-- The difference of the azimuths. -/
theorem width_ok {a b : PyFloat} (ha : FinD a) (hb : FinD b) (a0 : 0 ≤ a.num) (b1 : b.num ≤ twoPi.num) (h : (a.num : ℝ) + 1 / 2 ^ 20 ≤ b.num) :
    FinD (sub b a) ∧ 0 ≤ ((sub b a).num : ℝ) ∧ ((sub b a).num : ℝ) ≤ 63 / 10 ∧
      |((sub b a).num : ℝ) - (b.num - a.num)| ≤ (b.num - a.num) / 2 ^ 52 := by
  have a0' : (0 : ℝ) ≤ a.num := by exact_mod_cast a0
  have b1' : (b.num : ℝ) ≤ 629 / 100 := by
    have h1 : (b.num : ℝ) ≤ twoPi.num := by exact_mod_cast b1
    rw [twoPi_fd.2] at h1
    push_cast at h1
    norm_num at *
    linarith
  have h0 : (0 : ℝ) ≤ b.num - a.num := by
    have : (0 : ℝ) ≤ 1 / 2 ^ 20 := by positivity
    linarith
  obtain ⟨f1, f2⟩ := sub_real hb ha (k := 3) (by rw [abs_of_nonneg h0]; norm_num; linarith) (by norm_num)
  rw [abs_of_nonneg h0] at f2
  have t0 : (1 : ℝ) / 2 ^ 1000 ≤ 1 / 2 ^ 100 := by gcongr <;> norm_num
  refine ⟨f1, ?_⟩
  generalize ((sub b a).num : ℝ) = D at *
  have hd : (1 : ℝ) / 2 ^ 20 ≤ b.num - a.num := by linarith
  have hd2 : (b.num : ℝ) - a.num ≤ 629 / 100 := by linarith
  generalize (b.num : ℝ) - a.num = W at *
  generalize (1 : ℝ) / 2 ^ 1000 = t at *
  clear * - f2 t0 hd hd2
  rw [abs_le] at *
  norm_num at *
  refine ⟨?_, ?_, ?_, ?_⟩ <;> linarith

/-- The area of a facet. -/
theorem area_ok {h w : PyFloat} {H W : ℝ} (hh : FinD h) (hw : FinD w) (h0 : 0 ≤ (h.num : ℝ)) (h1 : (h.num : ℝ) ≤ 2 + 1 / 2 ^ 40) (h2 : |(h.num : ℝ) - H| ≤ 3 / 2 ^ 50)
    (w0 : 0 ≤ (w.num : ℝ)) (w1 : (w.num : ℝ) ≤ 63 / 10) (w2 : |(w.num : ℝ) - W| ≤ W / 2 ^ 52) (W0 : 1 / 2 ^ 20 ≤ W) :
    FinD (mul h w) ∧ 0 ≤ ((mul h w).num : ℝ) ∧ ((mul h w).num : ℝ) ≤ 16 ∧ |((mul h w).num : ℝ) - H * W| ≤ W / 2 ^ 47 := by
  have p0 : 0 ≤ (h.num : ℝ) * w.num := mul_nonneg h0 w0
  have p1 : (h.num : ℝ) * w.num ≤ 14 := by
    calc (h.num : ℝ) * w.num ≤ (2 + 1 / 2 ^ 40) * (63 / 10) := by gcongr
      _ ≤ 14 := by norm_num
  obtain ⟨f1, f2⟩ := mul_real hh hw (k := 4) (by rw [abs_of_nonneg p0]; norm_num; linarith) (by norm_num)
  rw [abs_of_nonneg p0] at f2
  have t0 : (1 : ℝ) / 2 ^ 1000 ≤ 1 / 2 ^ 100 := by gcongr <;> norm_num
  have q0 : 0 ≤ (mul h w).num := by
    have : 0 ≤ h.num * w.num := by
      have : (0 : ℝ) ≤ ((h.num * w.num : ℚ) : ℝ) := by push_cast; exact p0
      exact_mod_cast this
    refine mul_nonneg_num hh hw this ?_
    have := le_max_of_real (q := h.num * w.num) (k := 4) (by push_cast; rw [abs_of_nonneg p0]; norm_num; linarith) (by norm_num)
    exact (le_abs_self _).trans this
  have e : (h.num : ℝ) * w.num - H * W = (h.num - H) * W + h.num * (w.num - W) := by ring
  have hW : 0 ≤ W := le_trans (by positivity) W0
  have g1 : |(h.num : ℝ) * w.num - H * W| ≤ 3 / 2 ^ 50 * W + (2 + 1 / 2 ^ 40) * (W / 2 ^ 52) := by
    rw [e]
    refine (abs_add_le _ _).trans (add_le_add ?_ ?_)
    · rw [abs_mul, abs_of_nonneg hW]; exact mul_le_mul_of_nonneg_right h2 hW
    · rw [abs_mul, abs_of_nonneg h0]; exact mul_le_mul h1 w2 (abs_nonneg _) (by positivity)
  have g2 : (h.num : ℝ) * w.num ≤ (2 + 1 / 2 ^ 40) * (W + W / 2 ^ 52) := by
    refine mul_le_mul h1 ?_ w0 (by positivity)
    have := (abs_le.1 w2).2
    linarith
  refine ⟨f1, by exact_mod_cast q0, ?_⟩
  generalize ((mul h w).num : ℝ) = D at *
  generalize (h.num : ℝ) * w.num = P at *
  generalize H * W = Q at *
  generalize (1 : ℝ) / 2 ^ 1000 = t at *
  clear * - f2 t0 g1 g2 p1 W0
  rw [abs_le] at *
  norm_num at *
  refine ⟨?_, ?_, ?_⟩ <;> linarith

theorem pair_mem {xs : List PyFloat} {p : PyFloat × PyFloat} (h : p ∈ pairs xs) : p.1 ∈ xs ∧ p.2 ∈ xs := by
  obtain ⟨h1, h2⟩ := List.of_mem_zip (a := p.1) (b := p.2) h
  exact ⟨h1, List.mem_of_mem_tail h2⟩

theorem pairs_length (xs : List PyFloat) : (pairs xs).length = xs.length - 1 := by
  simp [pairs, List.length_zip]

end FloatDescribe

open FloatDescribe FloatEnergy in
/-- **C125.** The areas of the facets in double precision: none is negative, each is right up to rounding, and together they cover the
sphere. -/
theorem C125_areas (L : DescLib) (hL : GoodDesc L) (P A : List PyFloat) (hP : CornerList P pi) (hA : CornerList A twoPi) (p2 : 2 ≤ P.length)
    (a2 : 2 ≤ A.length) (pn : P.length ≤ 2 ^ 20) (hn : (P.length - 1) * (A.length - 1) ≤ 2 ^ 24) :
    Covers (areas L P A) ∧ (areas L P A).length = (A.length - 1) * (P.length - 1) ∧
      ∀ a ∈ pairs A, ∀ p ∈ pairs P, mul (sub (L.cos p.1) (L.cos p.2)) (sub a.2 a.1) ∈ areas L P A ∧
        |((mul (sub (L.cos p.1) (L.cos p.2)) (sub a.2 a.1)).num : ℝ) - (Real.cos p.1.num - Real.cos p.2.num) * (a.2.num - a.1.num)| ≤
          (a.2.num - a.1.num) / 2 ^ 47 := by
  have key : ∀ a ∈ pairs A, ∀ p ∈ pairs P, FinD (mul (sub (L.cos p.1) (L.cos p.2)) (sub a.2 a.1)) ∧
      0 ≤ ((mul (sub (L.cos p.1) (L.cos p.2)) (sub a.2 a.1)).num : ℝ) ∧ ((mul (sub (L.cos p.1) (L.cos p.2)) (sub a.2 a.1)).num : ℝ) ≤ 16 ∧
      |((mul (sub (L.cos p.1) (L.cos p.2)) (sub a.2 a.1)).num : ℝ) - (Real.cos p.1.num - Real.cos p.2.num) * (a.2.num - a.1.num)| ≤
        (a.2.num - a.1.num) / 2 ^ 47 := by
    intro a ha p hp
    obtain ⟨m1, m2⟩ := pair_mem ha
    obtain ⟨n1, n2⟩ := pair_mem hp
    obtain ⟨f1, f2, f3, f4⟩ := height_ok hL (hP.finite _ n1) (hP.finite _ n2) (hP.inside _ n1).1 (hP.inside _ n2).2 (hP.apart p hp)
    obtain ⟨g1, g2, g3, g4⟩ := width_ok (hA.finite _ m1) (hA.finite _ m2) (hA.inside _ m1).1 (hA.inside _ m2).2 (hA.apart a ha)
    exact area_ok f1 g1 f2 f3 f4 g2 g3 g4 (by have := hA.apart a ha; linarith)
  have hlen : (areas L P A).length = (A.length - 1) * (P.length - 1) := by
    simp [areas, List.length_flatMap, pairs_length]
  have hne : areas L P A ≠ [] := by
    intro h
    rw [h, List.length_nil] at hlen
    have : 0 < (A.length - 1) * (P.length - 1) := Nat.mul_pos (by omega) (by omega)
    omega
  refine ⟨⟨hne, by rw [hlen, mul_comm]; exact hn, ?_, ?_⟩, hlen, ?_⟩
  · intro x hx
    obtain ⟨a, ha, hx⟩ := List.mem_flatMap.1 hx
    obtain ⟨p, hp, rfl⟩ := List.mem_map.1 hx
    obtain ⟨k1, k2, k3, -⟩ := key a ha p hp
    exact ⟨k1, k2, k3⟩
  · obtain ⟨p0, hp0, ep⟩ := hP.first
    obtain ⟨a0, ha0, ea⟩ := hA.first
    have tP := telescope (fun x => -Real.cos x.num) P p0 pi hp0 hP.last
    have tA := telescope (fun x => (x.num : ℝ)) A a0 twoPi ha0 hA.last
    simp only [ep, ea, Rat.cast_zero, Real.cos_zero, sub_zero, sub_neg_eq_add] at tP tA
    have sd : |((areas L P A).map fun a => (a.num : ℝ)).sum - ((pairs A).map fun a => ((pairs P).map fun p =>
        (Real.cos p.1.num - Real.cos p.2.num) * ((a.2.num : ℝ) - a.1.num)).sum).sum| ≤
        ((pairs A).map fun a => ((2 : ℝ) ^ 20 / 2 ^ 47) * ((a.2.num : ℝ) - a.1.num)).sum := by
      rw [areas, sum_flat]
      refine sum_diff _ fun a ha => ?_
      rw [List.map_map]
      refine (sum_diff (pairs P) (e := fun _ => ((a.2.num : ℝ) - a.1.num) / 2 ^ 47) fun p hp => (key a ha p hp).2.2.2).trans ?_
      rw [List.map_const', List.sum_replicate, pairs_length, nsmul_eq_mul]
      have h1 : ((P.length - 1 : ℕ) : ℝ) ≤ 2 ^ 20 := by exact_mod_cast (by omega : P.length - 1 ≤ 2 ^ 20)
      have h2 : (0 : ℝ) ≤ (a.2.num : ℝ) - a.1.num := by
        have := hA.apart a ha
        have : (0 : ℝ) ≤ 1 / 2 ^ 20 := by positivity
        linarith
      calc ((P.length - 1 : ℕ) : ℝ) * (((a.2.num : ℝ) - a.1.num) / 2 ^ 47) ≤ 2 ^ 20 * (((a.2.num : ℝ) - a.1.num) / 2 ^ 47) := by gcongr
        _ = _ := by ring
    rw [List.sum_map_mul_left, tA] at sd
    have e1 : ∀ a ∈ pairs A, ((pairs P).map fun p => (Real.cos p.1.num - Real.cos p.2.num) * ((a.2.num : ℝ) - a.1.num)).sum =
        (-Real.cos pi.num + 1) * ((a.2.num : ℝ) - a.1.num) := by
      intro a _
      rw [List.sum_map_mul_right, ← tP]
      congr 2
      apply List.map_congr_left
      intro p _
      ring
    rw [List.map_congr_left e1, List.sum_map_mul_left, tA] at sd
    have c1 : |Real.cos pi.num + 1| ≤ 1 / 2 ^ 52 := by
      have := Real.abs_cos_sub_cos_le (pi.num : ℝ) Real.pi
      rw [Real.cos_pi, sub_neg_eq_add] at this
      exact this.trans pi_close.2
    have c2 := twoPi_close
    have c3 : |(-Real.cos pi.num + 1) * (twoPi.num : ℝ) - 4 * Real.pi| ≤ 1 / 2 ^ 40 := by
      have e : (-Real.cos pi.num + 1) * (twoPi.num : ℝ) - 4 * Real.pi = -(Real.cos pi.num + 1) * twoPi.num + 2 * (twoPi.num - 2 * Real.pi) := by ring
      rw [e]
      refine (abs_add_le _ _).trans ?_
      rw [abs_mul, abs_neg, abs_mul, abs_of_pos (by norm_num : (0 : ℝ) < 2)]
      have t7 : |(twoPi.num : ℝ)| ≤ 7 := by
        rw [twoPi_fd.2]; push_cast; rw [abs_of_pos (by norm_num)]; norm_num
      have := mul_le_mul c1 t7 (abs_nonneg _) (by positivity)
      norm_num at *
      linarith
    have t7 : (twoPi.num : ℝ) ≤ 7 := by rw [twoPi_fd.2]; push_cast; norm_num
    have hp : (12 : ℝ) < 4 * Real.pi := by linarith [Real.pi_gt_three]
    rw [div_sub_one (by linarith), abs_div, abs_of_pos (by linarith : (0 : ℝ) < 4 * Real.pi), div_le_iff₀ (by linarith)]
    generalize ((areas L P A).map fun a => (a.num : ℝ)).sum = Sa at *
    generalize (-Real.cos pi.num + 1) * (twoPi.num : ℝ) = B at *
    clear * - sd c3 t7 hp
    rw [abs_le] at *
    norm_num at *
    constructor <;> linarith
  · intro a ha p hp
    exact ⟨List.mem_flatMap.2 ⟨a, ha, List.mem_map.2 ⟨p, hp, rfl⟩⟩, (key a ha p hp).2.2.2⟩

namespace FloatDescribe
open FloatEnergy

/-! ### The corners -/

theorem num_double {x : PyFloat} (h : FinD x) : rnd x.num = x.num := by
  obtain ⟨s, a, rfl, ha⟩ := h
  refine rnd_double ?_
  have h0 := ha.nonneg
  cases s <;> simpa [PyFloat.num, abs_of_nonneg h0] using ha

/-- One entry of `np.linspace`. -/
theorem entry_ok {b : PyFloat} (hb : FinD b) (b3 : 3 ≤ (b.num : ℝ)) (b7 : (b.num : ℝ) ≤ 7) {N i : ℕ} (N1 : 1 ≤ N) (N2 : N ≤ 2 ^ 20) (hi : i < N) :
    FinD (add (mul (ofInt i) (div b (ofInt (N : ℤ)))) (fin false 0)) ∧
      |((add (mul (ofInt i) (div b (ofInt (N : ℤ)))) (fin false 0)).num : ℝ) - i * b.num / N| ≤ 1 / 2 ^ 48 ∧
      (i = 0 → (add (mul (ofInt i) (div b (ofInt (N : ℤ)))) (fin false 0)).num = 0) := by
  obtain ⟨n1, n2⟩ := int_fd (k := N) (lt_of_le_of_lt N2 (by norm_num))
  obtain ⟨i1, i2⟩ := int_fd (k := i) (lt_of_lt_of_le hi (N2.trans (by norm_num)))
  have hN : (1 : ℝ) ≤ N := by exact_mod_cast N1
  have hiN : (i : ℝ) ≤ N := by exact_mod_cast hi.le
  have i0 : (0 : ℝ) ≤ i := by positivity
  have q0 : 0 ≤ (b.num : ℝ) / N := by positivity
  have q7 : (b.num : ℝ) / N ≤ 7 := (div_le_self (by linarith) hN).trans b7
  have hdn := div_num hb n1 (by rw [n2]; exact_mod_cast (by omega : N ≠ 0)) (le_max_of_real (k := 3) (by
    rw [n2]; push_cast; rw [abs_of_nonneg q0]; norm_num; linarith) (by norm_num))
  have hde := real_err (b.num / (ofInt (N : ℤ)).num)
  rw [← hdn.2, n2] at hde
  push_cast at hde
  rw [abs_of_nonneg q0] at hde
  have hd := hdn.1
  have iq : (i : ℝ) * ((b.num : ℝ) / N) ≤ 7 := by
    have : (i : ℝ) * ((b.num : ℝ) / N) ≤ N * ((b.num : ℝ) / N) := by gcongr
    rw [mul_div_cancel₀ _ (by linarith)] at this
    linarith
  have iq0 : 0 ≤ (i : ℝ) * ((b.num : ℝ) / N) := by positivity
  have i20 : (i : ℝ) ≤ 2 ^ 20 := hiN.trans (by exact_mod_cast N2)
  have t0 : (1 : ℝ) / 2 ^ 1000 ≤ 1 / 2 ^ 100 := by gcongr <;> norm_num
  have t1 : (0 : ℝ) ≤ 1 / 2 ^ 1000 := by positivity
  generalize hs : div b (ofInt (N : ℤ)) = s at *
  have is : |(i : ℝ) * s.num - i * ((b.num : ℝ) / N)| ≤ 7 / 2 ^ 53 + 1 / 2 ^ 80 := by
    rw [← mul_sub, abs_mul, abs_of_nonneg i0]
    calc (i : ℝ) * |(s.num : ℝ) - b.num / N| ≤ i * ((b.num : ℝ) / N / 2 ^ 53 + 1 / 2 ^ 1000) := by gcongr
      _ = i * ((b.num : ℝ) / N) / 2 ^ 53 + i * (1 / 2 ^ 1000) := by ring
      _ ≤ 7 / 2 ^ 53 + 2 ^ 20 * (1 / 2 ^ 100) := by gcongr
      _ = _ := by norm_num
  have is8 : |(i : ℝ) * s.num| ≤ 2 ^ 3 := by
    generalize (i : ℝ) * s.num = u at *
    generalize (i : ℝ) * ((b.num : ℝ) / N) = w at *
    clear * - is iq iq0
    rw [abs_le] at *
    norm_num at *
    constructor <;> linarith
  have hm := mul_num i1 hd (le_max_of_real (k := 3) (by rw [i2]; push_cast; exact is8) (by norm_num))
  have hme := real_err ((ofInt (i : ℤ)).num * s.num)
  rw [← hm.2, i2] at hme
  push_cast at hme
  have hm8 : |((mul (ofInt (i : ℤ)) s).num : ℝ)| ≤ 2 ^ 4 := by
    generalize ((mul (ofInt (i : ℤ)) s).num : ℝ) = m at *
    generalize (1 : ℝ) / 2 ^ 1000 = t at *
    have := abs_sub_abs_le_abs_sub m ((i : ℝ) * s.num)
    clear * - this is8 hme t0
    norm_num at *
    linarith
  have z : FinD (fin false 0) := ⟨_, _, rfl, 0, 0, by norm_num, by norm_num, by norm_num, by simp⟩
  have z0 : (fin false 0).num = 0 := rfl
  have ha := add_num hm.1 z (le_max_of_real (k := 4) (by rw [z0]; push_cast; rw [add_zero]; exact hm8) (by norm_num))
  rw [z0, add_zero, num_double hm.1] at ha
  refine ⟨ha.1, ?_, ?_⟩
  · rw [ha.2, mul_div_assoc]
    generalize ((mul (ofInt (i : ℤ)) s).num : ℝ) = m at *
    generalize (i : ℝ) * s.num = u at *
    generalize (i : ℝ) * ((b.num : ℝ) / N) = w at *
    generalize (1 : ℝ) / 2 ^ 1000 = t at *
    clear * - is is8 hme t0
    generalize |u| = U at *
    rw [abs_le] at *
    norm_num at *
    constructor <;> linarith
  · intro h
    rw [ha.2, hm.2, i2, h]
    simp [rnd_zero]

/-- `np.linspace(0, b, n)`. -/
theorem linspace_ok {b : PyFloat} (hb : FinD b) (b3 : 3 ≤ (b.num : ℝ)) (b7 : (b.num : ℝ) ≤ 7) {n : ℕ} (n2 : 2 ≤ n) (hn : n ≤ 2 ^ 20) :
    ∃ xs, linspace b n = .ok xs ∧ CornerList xs b ∧ xs.length = n ∧
      ∀ i : ℕ, ∀ x, xs[i]? = some x → |(x.num : ℝ) - i * b.num / (n - 1 : ℕ)| ≤ 1 / 2 ^ 48 := by
  obtain ⟨N, rfl⟩ : ∃ N, n = N + 1 := ⟨n - 1, by omega⟩
  have N1 : 1 ≤ N := by omega
  have N2 : N ≤ 2 ^ 20 := by omega
  let f : ℕ → PyFloat := fun i => add (mul (ofInt i) (div b (ofInt (N : ℤ)))) (fin false 0)
  have key := fun i (hi : i < N) => entry_ok hb b3 b7 N1 N2 hi
  have hN : (1 : ℝ) ≤ N := by exact_mod_cast N1
  have hN2 : (N : ℝ) ≤ 2 ^ 20 := by exact_mod_cast N2
  have e : linspace b ((N + 1 : ℕ) : ℤ) = .ok ((List.range N).map f ++ [b]) := by
    rw [linspace, if_neg (by omega), if_neg (by omega), if_neg (by omega)]
    have : ((N + 1 : ℕ) : ℤ) - 1 = N := by push_cast; ring
    rw [this]
    simp [f]
  have get : ∀ i : ℕ, ∀ x, ((List.range N).map f ++ [b])[i]? = some x → (i < N ∧ x = f i) ∨ (i = N ∧ x = b) := by
    intro i x h
    rcases lt_trichotomy i N with hi | hi | hi
    · left
      rw [List.getElem?_append_left (by simpa using hi)] at h
      simp [hi] at h
      exact ⟨hi, h.symm⟩
    · right
      subst hi
      simp at h
      exact ⟨rfl, h.symm⟩
    · rw [List.getElem?_eq_none (by simp; omega)] at h
      cases h
  have near : ∀ i : ℕ, ∀ x, ((List.range N).map f ++ [b])[i]? = some x → |(x.num : ℝ) - i * b.num / N| ≤ 1 / 2 ^ 48 := by
    intro i x h
    rcases get i x h with ⟨hi, rfl⟩ | ⟨rfl, rfl⟩
    · exact (key i hi).2.1
    · rw [mul_div_cancel_left₀ _ (by linarith), sub_self, abs_zero]; positivity
  have step : (3 : ℝ) / 2 ^ 20 ≤ b.num / N := by
    rw [div_le_div_iff₀ (by positivity) (by linarith)]
    nlinarith
  refine ⟨_, e, ⟨?_, ?_, ?_, by simp, ?_⟩, by simp, by simpa using near⟩
  · intro x hx
    obtain ⟨i, hi⟩ := List.mem_iff_getElem?.1 hx
    rcases get i x hi with ⟨h, rfl⟩ | ⟨-, rfl⟩
    · exact (key i h).1
    · exact hb
  · intro x hx
    obtain ⟨i, hi⟩ := List.mem_iff_getElem?.1 hx
    have h1 := near i x hi
    rcases get i x hi with ⟨h, rfl⟩ | ⟨-, rfl⟩
    · have u : (i : ℝ) * b.num / N ≤ b.num - b.num / N := by
        have : ((i : ℝ) + 1) * b.num / N ≤ N * b.num / N := by
          have : (i : ℝ) + 1 ≤ N := by exact_mod_cast h
          gcongr
        rw [mul_div_cancel_left₀ _ (by linarith : (N : ℝ) ≠ 0), add_mul, add_div, one_mul] at this
        linarith
      constructor
      · rcases Nat.eq_zero_or_pos i with h0 | h0
        · rw [(key i h).2.2 h0]
        · have l : b.num / N ≤ (i : ℝ) * b.num / N := by
            have : (1 : ℝ) ≤ i := by exact_mod_cast h0
            gcongr
            nlinarith
          have : (0 : ℝ) ≤ (f i).num := by
            generalize ((f i).num : ℝ) = x at *
            generalize (i : ℝ) * b.num / N = w at *
            generalize (b.num : ℝ) / N = q at *
            clear * - h1 l step
            rw [abs_le] at h1
            norm_num at *
            linarith
          exact_mod_cast this
      · have : ((f i).num : ℝ) ≤ b.num := by
          generalize ((f i).num : ℝ) = x at *
          generalize (i : ℝ) * b.num / N = w at *
          generalize (b.num : ℝ) / N = q at *
          generalize (b.num : ℝ) = B at *
          clear * - h1 u step
          rw [abs_le] at h1
          norm_num at *
          linarith
        exact_mod_cast this
    · have : (0 : ℝ) ≤ x.num := by linarith
      exact ⟨by exact_mod_cast this, le_rfl⟩
  · refine ⟨f 0, ?_, (key 0 (by omega)).2.2 rfl⟩
    obtain ⟨M, rfl⟩ : ∃ M, N = M + 1 := ⟨N - 1, by omega⟩
    simp [List.range_succ_eq_map]
  · intro p hp
    obtain ⟨i, hi⟩ := List.mem_iff_getElem?.1 hp
    rw [List.getElem?_zip_eq_some, List.getElem?_tail] at hi
    have h1 := near i _ hi.1
    have h2 := near (i + 1) _ hi.2
    push_cast at h2
    rw [add_mul, add_div, one_mul] at h2
    generalize (p.1.num : ℝ) = x at *
    generalize (p.2.num : ℝ) = y at *
    generalize (i : ℝ) * b.num / N = w at *
    generalize (b.num : ℝ) / N = q at *
    clear * - h1 h2 step
    rw [abs_le] at h1 h2
    norm_num at *
    linarith

/-- The corners go around only once. -/
theorem once_ok {xs : List PyFloat} {b : PyFloat} (hb : FinD b) (h : CornerList xs b) : checkOnce xs b = .ok () := by
  have hbm : b ∈ xs := List.mem_of_getLast? h.last
  have hne : xs ≠ [] := List.ne_nil_of_mem hbm
  obtain ⟨z, hz, z0⟩ := h.first
  have hzm : z ∈ xs := List.mem_of_head? hz
  obtain ⟨hi, e1, m1, a1⟩ := maximum_fin hne h.finite
  obtain ⟨lo, e2, m2, a2⟩ := minimum_fin hne h.finite
  have k1 : hi.num = b.num := le_antisymm (h.inside _ m1).2 (a1 _ hbm)
  have k2 : lo.num = 0 := le_antisymm ((a2 _ hzm).trans z0.le) (h.inside _ m2).1
  have b0 : 0 ≤ b.num := (h.inside _ hbm).1
  have hmax : |b.num| ≤ maxDouble := by
    obtain ⟨s, a, rfl, ha⟩ := hb
    have h0 := ha.nonneg
    cases s <;> simpa [PyFloat.num, abs_of_nonneg h0] using ha.le_max
  have hs := sub_num (h.finite _ m1) (h.finite _ m2) (by rw [k1, k2, sub_zero]; exact hmax)
  rw [k1, k2, sub_zero, num_double hb] at hs
  have hf := fabs_fd hs.1
  rw [checkOnce, e1, e2]
  simp only [bind, Except.bind, resAssert]
  rw [if_pos ((FloatClose.le_fin hf.1 hb).2 (le_of_eq (by rw [hf.2, hs.2, abs_of_nonneg b0])))]
  rfl

end FloatDescribe

open FloatDescribe in
/-- **C125.** The corners of `ZdiGeometry(n, k)` in double precision: they start at exactly 0, increase, end at exactly `np.pi` and
`2 * np.pi`, are where they should be to 15 digits, and pass the assertions. -/
theorem C125_corners (n k : ℕ) (n2 : 2 ≤ n) (k2 : 2 ≤ k) (hn : n ≤ 2 ^ 20) (hk : k ≤ 2 ^ 20) :
    ∃ P A, corners (some n) (some k) = .ok (P, A) ∧ CornerList P pi ∧ CornerList A twoPi ∧ P.length = n ∧ A.length = k ∧
      (∀ i : ℕ, ∀ x, P[i]? = some x → |(x.num : ℝ) - i * Real.pi / (n - 1 : ℕ)| ≤ 1 / 2 ^ 47) ∧
      (∀ i : ℕ, ∀ x, A[i]? = some x → |(x.num : ℝ) - i * (2 * Real.pi) / (k - 1 : ℕ)| ≤ 1 / 2 ^ 47) := by
  have hp : (3 : ℝ) ≤ pi.num ∧ (pi.num : ℝ) ≤ 7 := by rw [pi_num]; push_cast; norm_num
  have ht : (3 : ℝ) ≤ twoPi.num ∧ (twoPi.num : ℝ) ≤ 7 := by rw [twoPi_fd.2]; push_cast; norm_num
  obtain ⟨P, e1, c1, l1, f1⟩ := linspace_ok pi_close.1 hp.1 hp.2 n2 hn
  obtain ⟨A, e2, c2, l2, f2⟩ := linspace_ok twoPi_fd.1 ht.1 ht.2 k2 hk
  have shift : ∀ (m : ℕ) (xs : List PyFloat) (c C : ℝ), xs.length = m → 2 ≤ m → |c - C| ≤ 1 / 2 ^ 51 → (∀ i : ℕ, ∀ x, xs[i]? = some x → |(x.num : ℝ) - i * c / (m - 1 : ℕ)| ≤ 1 / 2 ^ 48) →
      ∀ i : ℕ, ∀ x, xs[i]? = some x → |(x.num : ℝ) - i * C / (m - 1 : ℕ)| ≤ 1 / 2 ^ 47 := by
    intro m xs c C hl hm hc h i x hx
    have h1 := h i x hx
    have him : i ≤ m - 1 := by
      have := (List.getElem?_eq_some_iff.1 hx).1
      omega
    have hm1 : (0 : ℝ) < (m - 1 : ℕ) := by exact_mod_cast (by omega : 0 < m - 1)
    have q : (i : ℝ) / (m - 1 : ℕ) ≤ 1 := by
      rw [div_le_one hm1]; exact_mod_cast him
    have q0 : 0 ≤ (i : ℝ) / (m - 1 : ℕ) := by positivity
    have h2 : |(i : ℝ) * c / (m - 1 : ℕ) - i * C / (m - 1 : ℕ)| ≤ 1 / 2 ^ 51 := by
      rw [show (i : ℝ) * c / (m - 1 : ℕ) - i * C / (m - 1 : ℕ) = i / (m - 1 : ℕ) * (c - C) by ring, abs_mul, abs_of_nonneg q0]
      calc (i : ℝ) / (m - 1 : ℕ) * |c - C| ≤ 1 * (1 / 2 ^ 51) := by gcongr
        _ = _ := one_mul _
    have := abs_sub_le (x.num : ℝ) (i * c / (m - 1 : ℕ)) (i * C / (m - 1 : ℕ))
    clear * - this h1 h2
    norm_num at *
    linarith
  refine ⟨P, A, ?_, c1, c2, l1, l2, shift n P _ _ l1 n2 ?_ f1, shift k A _ _ l2 k2 twoPi_close f2⟩
  · simp only [corners, e1, e2, bind, Except.bind, once_ok pi_close.1 c1, once_ok twoPi_fd.1 c2, pure, Except.pure]
  · refine pi_close.2.trans ?_
    norm_num

namespace FloatDescribe

theorem linspace_some (b : PyFloat) (n : ℤ) (h : 0 ≤ n) : ∃ p, linspace b n = .ok p ∧ (p.length : ℤ) = n := by
  rw [linspace, if_neg (by omega)]
  split_ifs with h0 h1
  · exact ⟨_, rfl, by simp [h0]⟩
  · exact ⟨_, rfl, by simp [h1]⟩
  · refine ⟨_, rfl, ?_⟩
    simp
    omega

end FloatDescribe

open FloatDescribe in
/-- **C125.** The defaults: 65 polar corners, twice as many azimuths as polar corners; an azimuth count alone raises TypeError. -/
theorem C125_corners_default (n k : ℤ) : corners (some n) none = (if n < 0 then .error .value else corners (some n) (some (2 * n))) ∧
    corners none none = corners (some 65) (some 130) ∧ corners none (some k) = .error .type := by
  refine ⟨?_, ?_, rfl⟩
  · split_ifs with h
    · simp [corners, linspace, h, bind, Except.bind]
    · obtain ⟨p, hp, hl⟩ := linspace_some pi n (by omega)
      simp [corners, hp, bind, Except.bind, hl]
  · have gen : ∀ m q : ℤ, (64 : ℤ) + 1 = m → 2 * m = q → corners none none = corners (some m) (some q) := by
      rintro m q hm rfl
      obtain ⟨p, hp, hl⟩ := linspace_some pi m (by omega)
      have e : corners none none = (linspace pi m).bind fun p => (linspace twoPi (2 * p.length)).bind fun a => (checkOnce p pi).bind fun _ =>
          (checkOnce a twoPi).bind fun _ => .ok (p, a) := by
        subst hm
        rfl
      rw [e]
      simp only [corners, hp, hl, bind, Except.bind, pure, Except.pure]
    exact gen 65 130 (by norm_num) (by norm_num)

open FloatDescribe in
/-- **C125.** Without corners there is no grid: counts that are not positive raise ValueError. -/
theorem C125_corners_refused (n k : ℤ) (h : n ≤ 0 ∨ k ≤ 0 ∧ n ≤ 2 ^ 20) : corners (some n) (some k) = .error .value := by
  have neg : ∀ b (m : ℤ), m < 0 → linspace b m = .error .value := fun b m hm => by rw [linspace, if_pos hm]
  have zero : ∀ b, linspace b 0 = .ok [] := fun b => rfl
  have ex : ∀ b (m : ℤ), 0 ≤ m → ∃ xs, linspace b m = .ok xs := by
    intro b m hm
    obtain ⟨p, hp, -⟩ := linspace_some b m hm
    exact ⟨p, hp⟩
  have none' : ∀ b, checkOnce [] b = .error .value := fun b => rfl
  by_cases hn : n < 0
  · simp [corners, neg pi n hn, bind, Except.bind]
  by_cases hk : k < 0
  · obtain ⟨p, hp⟩ := ex pi n (by omega)
    simp [corners, hp, neg twoPi k hk, bind, Except.bind]
  obtain ⟨a, ha⟩ := ex twoPi k (by omega)
  by_cases hn0 : n = 0
  · subst hn0
    simp [corners, zero, ha, none', bind, Except.bind]
  have hk0 : k = 0 := by omega
  subst hk0
  have good : ∃ p, linspace pi n = .ok p ∧ checkOnce p pi = .ok () := by
    by_cases h1 : n = 1
    · subst h1
      refine ⟨_, rfl, ?_⟩
      have i0 := int_fd (k := 0) (by norm_num)
      have m0 := mul_num i0.1 pi_close.1 (by rw [i0.2]; simpa using FloatRange.isDouble_zero.le_max)
      have z : FinD (fin false 0) := ⟨_, _, rfl, 0, 0, by norm_num, by norm_num, by norm_num, by simp⟩
      rw [i0.2, show ((0 : ℕ) : ℚ) = 0 from Nat.cast_zero, zero_mul, rnd_zero] at m0
      have a0 := add_num m0.1 z (by rw [m0.2]; simpa [PyFloat.num] using FloatRange.isDouble_zero.le_max)
      rw [m0.2, show (fin false 0).num = 0 from rfl, add_zero, rnd_zero] at a0
      change checkOnce [add (mul (ofInt ((0 : ℕ) : ℤ)) pi) (fin false 0)] pi = .ok ()
      generalize add (mul (ofInt ((0 : ℕ) : ℤ)) pi) (fin false 0) = x at *
      have s0 := sub_num a0.1 a0.1 (by rw [sub_self, abs_zero]; exact FloatRange.isDouble_zero.le_max)
      rw [sub_self, rnd_zero] at s0
      have hf := fabs_fd s0.1
      simp only [checkOnce, maximum, minimum, List.foldl_nil, bind, Except.bind, resAssert]
      rw [if_pos ((FloatClose.le_fin hf.1 pi_close.1).2 (by rw [hf.2, s0.2, pi_num]; norm_num))]
      rfl
    · obtain ⟨m, rfl⟩ := Int.eq_ofNat_of_zero_le (by omega : 0 ≤ n)
      obtain ⟨p, hp, hc, -⟩ := linspace_ok pi_close.1 (by rw [pi_num]; push_cast; norm_num) (by rw [pi_num]; push_cast; norm_num) (n := m) (by omega) (by omega)
      exact ⟨p, hp, once_ok pi_close.1 hc⟩
  obtain ⟨p, hp, hc⟩ := good
  simp [corners, hp, zero, hc, none', bind, Except.bind]

/-! ### The description of a magnetogram -/

namespace FloatDescribe
open FloatEnergy

theorem zero_fd : FinD (fin false 0) := ⟨_, _, rfl, 0, 0, by norm_num, by norm_num, by norm_num, by simp⟩

theorem zero_add_num {x : PyFloat} (h : FinD x) : FinD (add (fin false 0) x) ∧ (add (fin false 0) x).num = x.num := by
  have hmax : |x.num| ≤ maxDouble := by
    obtain ⟨s, a, rfl, ha⟩ := h
    have h0 := ha.nonneg
    cases s <;> simpa [PyFloat.num, abs_of_nonneg h0] using ha.le_max
  have := add_num zero_fd h (by rw [show (fin false 0).num = 0 from rfl, zero_add]; exact hmax)
  rwa [show (fin false 0).num = 0 from rfl, zero_add, num_double h] at this

/-- The sum of the poloidal and the toroidal part. -/
theorem total_ok {x y : PyFloat} (hx : FieldValue 50 x) (hy : FieldValue 50 y) :
    FieldValue 52 (add (add (fin false 0) x) y) ∧ |((add (add (fin false 0) x) y).num : ℝ) - (x.num + y.num)| ≤ |(x.num : ℝ) + y.num| / 2 ^ 53 + 1 / 2 ^ 1000 := by
  have z := zero_add_num hx.1
  have h2 : |(x.num : ℝ) + y.num| ≤ 2 ^ 51 := (abs_add_le _ _).trans (by have := hx.2; have := hy.2; norm_num at *; linarith)
  have := add_real z.1 hy.1 (k := 51) (by rw [z.2]; exact h2) (by norm_num)
  rw [z.2] at this
  refine ⟨⟨this.1, ?_⟩, this.2⟩
  have h3 := this.2
  have t0 : (1 : ℝ) / 2 ^ 1000 ≤ 1 := by rw [div_le_one (by positivity)]; exact one_le_pow₀ (by norm_num)
  generalize ((add (add (fin false 0) x) y).num : ℝ) = D at *
  generalize (x.num : ℝ) + y.num = q at *
  generalize (1 : ℝ) / 2 ^ 1000 = t at *
  have := abs_sub_abs_le_abs_sub D q
  clear * - this h2 h3 t0
  norm_num at *
  linarith

/-- The field strength of a facet. -/
theorem strength_ok {L : DescLib} (hL : GoodDesc L) {r p a : PyFloat} (hr : FieldValue 52 r) (hp : FieldValue 52 p) (ha : FieldValue 52 a) :
    FieldValue 60 (strengthAt L r p a) ∧ 0 ≤ (strengthAt L r p a).num ∧
      |((strengthAt L r p a).num : ℝ) ^ 2 - ((r.num : ℝ) ^ 2 + p.num ^ 2 + a.num ^ 2)| ≤ ((r.num : ℝ) ^ 2 + p.num ^ 2 + a.num ^ 2) / 2 ^ 47 + 1 / 2 ^ 900 := by
  have sqm : ∀ x : PyFloat, FieldValue 52 x → FinD (mul x x) ∧ 0 ≤ (mul x x).num ∧ |((mul x x).num : ℝ) - (x.num : ℝ) ^ 2| ≤ (x.num : ℝ) ^ 2 / 2 ^ 53 + 1 / 2 ^ 1000 ∧
      (x.num : ℝ) ^ 2 ≤ 2 ^ 104 := by
    intro x hx
    have h1 : (x.num : ℝ) ^ 2 ≤ 2 ^ 104 := by
      rw [← sq_abs]
      calc |(x.num : ℝ)| ^ 2 ≤ (2 ^ 52) ^ 2 := pow_le_pow_left₀ (abs_nonneg _) hx.2 2
        _ = _ := by norm_num
    have h2 : (x.num : ℝ) * x.num = (x.num : ℝ) ^ 2 := by ring
    have h0 : 0 ≤ (x.num : ℝ) ^ 2 := sq_nonneg _
    have := mul_real hx.1 hx.1 (k := 104) (by rw [h2, abs_of_nonneg h0]; exact h1) (by norm_num)
    rw [h2, abs_of_nonneg h0] at this
    refine ⟨this.1, mul_nonneg_num hx.1 hx.1 (mul_self_nonneg _) ?_, this.2, h1⟩
    exact (le_abs_self _).trans (le_max_of_real (k := 104) (by push_cast; rw [h2, abs_of_nonneg h0]; exact h1) (by norm_num))
  obtain ⟨r1, r2, r3, r4⟩ := sqm r hr
  obtain ⟨p1, p2, p3, p4⟩ := sqm p hp
  obtain ⟨a1, a2, a3, a4⟩ := sqm a ha
  have z := zero_add_num r1
  have t0 : (1 : ℝ) / 2 ^ 1000 ≤ 1 / 2 ^ 900 / 2 ^ 20 := by
    rw [div_div, ← pow_add]; gcongr <;> norm_num
  have t1 : (0 : ℝ) ≤ 1 / 2 ^ 900 := by positivity
  have t2 : (1 : ℝ) / 2 ^ 900 ≤ 1 := by rw [div_le_one (by positivity)]; exact one_le_pow₀ (by norm_num)
  have r2' : (0 : ℝ) ≤ (mul r r).num := by exact_mod_cast r2
  have p2' : (0 : ℝ) ≤ (mul p p).num := by exact_mod_cast p2
  have a2' : (0 : ℝ) ≤ (mul a a).num := by exact_mod_cast a2
  have sum2 : ((mul r r).num : ℝ) + (mul p p).num ≤ 2 ^ 106 := by
    generalize ((mul r r).num : ℝ) = R at *
    generalize ((mul p p).num : ℝ) = P at *
    generalize (r.num : ℝ) ^ 2 = u at *
    generalize (p.num : ℝ) ^ 2 = v at *
    generalize (1 : ℝ) / 2 ^ 1000 = t at *
    generalize (1 : ℝ) / 2 ^ 900 = t' at *
    clear * - r3 r4 p3 p4 t0 t2
    rw [abs_le] at *
    norm_num at *
    linarith
  have n1 : (0 : ℝ) ≤ (mul r r).num + (mul p p).num := add_nonneg r2' p2'
  have s1 := add_real z.1 p1 (k := 106) (by rw [z.2, abs_of_nonneg n1]; exact sum2) (by norm_num)
  have s1n := add_num z.1 p1 (le_max_of_real (k := 106) (by push_cast; rw [z.2, abs_of_nonneg n1]; exact sum2) (by norm_num))
  rw [z.2, abs_of_nonneg n1] at s1
  have s10 : 0 ≤ (add (add (fin false 0) (mul r r)) (mul p p)).num := by
    rw [s1n.2, z.2]; exact rnd_nonneg (add_nonneg r2 p2)
  have s10' : (0 : ℝ) ≤ (add (add (fin false 0) (mul r r)) (mul p p)).num := by exact_mod_cast s10
  have sum3 : ((add (add (fin false 0) (mul r r)) (mul p p)).num : ℝ) + (mul a a).num ≤ 2 ^ 108 := by
    have h := s1.2
    generalize ((add (add (fin false 0) (mul r r)) (mul p p)).num : ℝ) = D at *
    generalize ((mul r r).num : ℝ) + (mul p p).num = q at *
    generalize ((mul a a).num : ℝ) = A at *
    generalize (a.num : ℝ) ^ 2 = v at *
    generalize (1 : ℝ) / 2 ^ 1000 = t at *
    generalize (1 : ℝ) / 2 ^ 900 = t' at *
    clear * - h sum2 a3 a4 t0 t2
    rw [abs_le] at *
    norm_num at *
    linarith
  have n2 := add_nonneg s10' a2'
  have s2 := add_real s1.1 a1 (k := 108) (by rw [abs_of_nonneg n2]; exact sum3) (by norm_num)
  have s2n := add_num s1.1 a1 (le_max_of_real (k := 108) (by push_cast; rw [abs_of_nonneg n2]; exact sum3) (by norm_num))
  rw [abs_of_nonneg n2] at s2
  have s20 : 0 ≤ (add (add (add (fin false 0) (mul r r)) (mul p p)) (mul a a)).num := by
    rw [s2n.2]; exact rnd_nonneg (add_nonneg s10 a2)
  have s20' : (0 : ℝ) ≤ (add (add (add (fin false 0) (mul r r)) (mul p p)) (mul a a)).num := by exact_mod_cast s20
  obtain ⟨q1, q2, q3⟩ := hL.sqrt _ s2.1 s20
  have q4 := root_sq s20' q3
  have e : strengthAt L r p a = L.sqrt (add (add (add (fin false 0) (mul r r)) (mul p p)) (mul a a)) := rfl
  rw [e]
  have u0 := sq_nonneg (r.num : ℝ)
  have v0 := sq_nonneg (p.num : ℝ)
  have w0 := sq_nonneg (a.num : ℝ)
  have h1 := s1.2
  have h2 := s2.2
  clear e s1 s2 s1n s2n q3
  have big : ((L.sqrt (add (add (add (fin false 0) (mul r r)) (mul p p)) (mul a a))).num : ℝ) ^ 2 ≤ (2 ^ 60) ^ 2 := by
    generalize ((L.sqrt (add (add (add (fin false 0) (mul r r)) (mul p p)) (mul a a))).num : ℝ) ^ 2 = Q at *
    generalize ((add (add (add (fin false 0) (mul r r)) (mul p p)) (mul a a)).num : ℝ) = D₂ at *
    generalize ((add (add (fin false 0) (mul r r)) (mul p p)).num : ℝ) + (mul a a).num = q at *
    generalize (1 : ℝ) / 2 ^ 1000 = t at *
    generalize (1 : ℝ) / 2 ^ 900 = t' at *
    clear * - h2 q4 sum3 t0 t2
    rw [abs_le] at *
    norm_num at *
    linarith
  refine ⟨⟨q1, abs_le_of_sq_le_sq big (by positivity)⟩, q2, ?_⟩
  generalize ((L.sqrt (add (add (add (fin false 0) (mul r r)) (mul p p)) (mul a a))).num : ℝ) ^ 2 = Q at *
  generalize ((add (add (add (fin false 0) (mul r r)) (mul p p)) (mul a a)).num : ℝ) = D₂ at *
  generalize ((add (add (fin false 0) (mul r r)) (mul p p)).num : ℝ) = D₁ at *
  generalize ((mul r r).num : ℝ) = R at *
  generalize ((mul p p).num : ℝ) = P at *
  generalize ((mul a a).num : ℝ) = A at *
  generalize (r.num : ℝ) ^ 2 = u at *
  generalize (p.num : ℝ) ^ 2 = v at *
  generalize (a.num : ℝ) ^ 2 = w at *
  generalize (1 : ℝ) / 2 ^ 1000 = t at *
  generalize (1 : ℝ) / 2 ^ 900 = t' at *
  clear * - h1 h2 q4 r3 p3 a3 u0 v0 w0 t0 t1
  rw [abs_le] at *
  norm_num at *
  constructor <;> linarith

end FloatDescribe

/-- The total of a poloidal and a toroidal part at every facet. -/
def Spec.IsTotal (v : List PyFloat × List PyFloat) (total : List PyFloat) : Prop :=
  total.length = v.1.length ∧ ∀ (i : ℕ) (x y z : PyFloat), v.1[i]? = some x → v.2[i]? = some y → total[i]? = some z →
    |(z.num : ℝ) - (x.num + y.num)| ≤ |(x.num : ℝ) + y.num| / 2 ^ 53 + 1 / 2 ^ 1000

/-- The strength of a field with the given components at every facet. -/
def Spec.IsStrength (r p a total : List PyFloat) : Prop :=
  total.length = r.length ∧ ∀ (i : ℕ) (x y z w : PyFloat), r[i]? = some x → p[i]? = some y → a[i]? = some z → total[i]? = some w →
    0 ≤ w.num ∧ |(w.num : ℝ) ^ 2 - ((x.num : ℝ) ^ 2 + y.num ^ 2 + z.num ^ 2)| ≤ ((x.num : ℝ) ^ 2 + y.num ^ 2 + z.num ^ 2) / 2 ^ 47 + 1 / 2 ^ 900

namespace FloatDescribe

theorem mem_of_get {xs : List PyFloat} {i : ℕ} {x : PyFloat} (h : xs[i]? = some x) : x ∈ xs := List.mem_iff_getElem?.2 ⟨i, h⟩

theorem accumulated_ok {v : List PyFloat × List PyFloat} (hl : v.1.length = v.2.length) (h1 : ∀ x ∈ v.1, FieldValue 50 x) (h2 : ∀ x ∈ v.2, FieldValue 50 x) :
    IsTotal v (accumulated v) ∧ ∀ x ∈ accumulated v, FieldValue 52 x := by
  refine ⟨⟨by simp [accumulated, hl], ?_⟩, ?_⟩
  · intro i x y z hx hy hz
    have : (v.1.zip v.2)[i]? = some (x, y) := List.getElem?_zip_eq_some.2 ⟨hx, hy⟩
    rw [accumulated, List.getElem?_map, this] at hz
    obtain rfl := Option.some.inj hz
    exact (total_ok (h1 x (mem_of_get hx)) (h2 y (mem_of_get hy))).2
  · intro z hz
    obtain ⟨x, hx, rfl⟩ := List.mem_map.1 hz
    obtain ⟨m1, m2⟩ := List.of_mem_zip (a := x.1) (b := x.2) hx
    exact (total_ok (h1 _ m1) (h2 _ m2)).1

theorem strengths_ok {L : DescLib} (hL : GoodDesc L) {r p a : List PyFloat} (hp : p.length = r.length) (ha : a.length = r.length)
    (h1 : ∀ x ∈ r, FieldValue 52 x) (h2 : ∀ x ∈ p, FieldValue 52 x) (h3 : ∀ x ∈ a, FieldValue 52 x) :
    IsStrength r p a (strength L r p a) ∧ ∀ x ∈ strength L r p a, FieldValue 60 x := by
  refine ⟨⟨by simp [strength, hp, ha], ?_⟩, ?_⟩
  · intro i x y z w hx hy hz hw
    have e1 : (p.zip a)[i]? = some (y, z) := List.getElem?_zip_eq_some.2 ⟨hy, hz⟩
    have e2 : (r.zip (p.zip a))[i]? = some (x, y, z) := List.getElem?_zip_eq_some.2 ⟨hx, e1⟩
    rw [strength, List.getElem?_map, e2] at hw
    obtain rfl := Option.some.inj hw
    exact (strength_ok hL (h1 x (mem_of_get hx)) (h2 y (mem_of_get hy)) (h3 z (mem_of_get hz))).2
  · intro z hz
    obtain ⟨x, hx, rfl⟩ := List.mem_map.1 hz
    obtain ⟨m1, m2⟩ := List.of_mem_zip (a := x.1) (b := x.2) hx
    obtain ⟨m3, m4⟩ := List.of_mem_zip (a := x.2.1) (b := x.2.2) m2
    exact (strength_ok hL (h1 _ m1) (h2 _ m3) (h3 _ m4)).1

end FloatDescribe

open FloatDescribe FloatEnergy in
/-- **C125.** `numerical_description` in double precision: all ten entries are reported in this order, and each describes its array. -/
theorem C125_description (L : DescLib) (hL : GoodDesc L) (S : List PyFloat → PyFloat) (hS : ∀ xs, IsNpSum xs (S xs)) (areas : List PyFloat)
    (hA : Covers areas) (v : Values) (hl : ∀ w ∈ [v.radial.1, v.radial.2, v.polar.1, v.polar.2, v.azimuthal.1, v.azimuthal.2], w.length = areas.length)
    (hv : ∀ w ∈ [v.radial.1, v.radial.2, v.polar.1, v.polar.2, v.azimuthal.1, v.azimuthal.2], ∀ x ∈ w, FieldValue 50 x) :
    ∃ R P A F out, numericalDescription L S areas v = .ok out ∧ out.map Prod.fst = descriptionKeys ∧ IsTotal v.radial R ∧ IsTotal v.polar P ∧
      IsTotal v.azimuthal A ∧ IsStrength R P A F ∧
      List.Forall₂ (fun values o => Describes areas values o.2)
        [v.radial.1, v.radial.2, R, v.polar.1, v.polar.2, P, v.azimuthal.1, v.azimuthal.2, A, F] out := by
  simp only [List.mem_cons, List.not_mem_nil, or_false, forall_eq_or_imp, forall_eq] at hl hv
  obtain ⟨l1, l2, l3, l4, l5, l6⟩ := hl
  obtain ⟨v1, v2, v3, v4, v5, v6⟩ := hv
  obtain ⟨tR, bR⟩ := accumulated_ok (l1.trans l2.symm) v1 v2
  obtain ⟨tP, bP⟩ := accumulated_ok (l3.trans l4.symm) v3 v4
  obtain ⟨tA, bA⟩ := accumulated_ok (l5.trans l6.symm) v5 v6
  have nR := tR.1.trans l1
  have nP := tP.1.trans l3
  have nA := tA.1.trans l5
  obtain ⟨tF, bF⟩ := strengths_ok hL (nP.trans nR.symm) (nA.trans nR.symm) bR bP bA
  have nF := tF.1.trans nR
  have up : ∀ {k : ℕ} {w : List PyFloat}, k ≤ 60 → (∀ x ∈ w, FieldValue k x) → ∀ x ∈ w, FieldValue 60 x :=
    fun hk h x hx => ⟨(h x hx).1, (h x hx).2.trans (pow_le_pow_right₀ (by norm_num) hk)⟩
  have d := fun (w : List PyFloat) (n : w.length = areas.length) (b : ∀ x ∈ w, FieldValue 60 x) => C125_describe L hL S hS areas w n b hA
  obtain ⟨s1, e1, k1⟩ := d _ l1 (up (by norm_num) v1)
  obtain ⟨s2, e2, k2⟩ := d _ l2 (up (by norm_num) v2)
  obtain ⟨s3, e3, k3⟩ := d _ nR (up (by norm_num) bR)
  obtain ⟨s4, e4, k4⟩ := d _ l3 (up (by norm_num) v3)
  obtain ⟨s5, e5, k5⟩ := d _ l4 (up (by norm_num) v4)
  obtain ⟨s6, e6, k6⟩ := d _ nP (up (by norm_num) bP)
  obtain ⟨s7, e7, k7⟩ := d _ l5 (up (by norm_num) v5)
  obtain ⟨s8, e8, k8⟩ := d _ l6 (up (by norm_num) v6)
  obtain ⟨s9, e9, k9⟩ := d _ nA (up (by norm_num) bA)
  obtain ⟨s10, e10, k10⟩ := d _ nF bF
  refine ⟨_, _, _, _, [("radial-poloidal", s1), ("radial-toroidal", s2), ("radial", s3), ("polar-poloidal", s4), ("polar-toroidal", s5), ("polar", s6),
    ("azimuthal-poloidal", s7), ("azimuthal-toroidal", s8), ("azimuthal", s9), ("field strength", s10)], ?_, rfl, tR, tP, tA, tF, ?_⟩
  · simp only [numericalDescription, FloatDescribe.direction, e1, e2, e3, e4, e5, e6, e7, e8, e9, e10, bind, Except.bind, pure, Except.pure]
    rfl
  · exact .cons k1 (.cons k2 (.cons k3 (.cons k4 (.cons k5 (.cons k6 (.cons k7 (.cons k8 (.cons k9 (.cons k10 .nil)))))))))

open FloatDescribe FloatEnergy in
/-- **C125.** From the numbers of corners to the report: for any grid `ZdiGeometry(n, k)` of up to `2^24` facets and any field of up to
`2^50` the description is complete and no assertion fails. -/
theorem C125_geometry (L : DescLib) (hL : GoodDesc L) (S : List PyFloat → PyFloat) (hS : ∀ xs, IsNpSum xs (S xs)) (n k : ℕ) (n2 : 2 ≤ n)
    (k2 : 2 ≤ k) (hn : n ≤ 2 ^ 20) (hk : k ≤ 2 ^ 20) (hc : (n - 1) * (k - 1) ≤ 2 ^ 24) :
    ∃ P A, corners (some n) (some k) = .ok (P, A) ∧ Covers (areas L P A) ∧ ∀ v : Values,
      (∀ w ∈ [v.radial.1, v.radial.2, v.polar.1, v.polar.2, v.azimuthal.1, v.azimuthal.2],
        w.length = (k - 1) * (n - 1) ∧ ∀ x ∈ w, FieldValue 50 x) →
      ∃ out, numericalDescription L S (areas L P A) v = .ok out ∧ out.map Prod.fst = descriptionKeys := by
  obtain ⟨P, A, e, hP, hA, lP, lA, -⟩ := C125_corners n k n2 k2 hn hk
  obtain ⟨hCov, hlen, -⟩ := C125_areas L hL P A hP hA (by omega) (by omega) (by omega) (by rw [lP, lA]; exact hc)
  rw [lP, lA] at hlen
  refine ⟨P, A, e, hCov, fun v hv => ?_⟩
  obtain ⟨R, P', A', F, out, h1, h2, -⟩ := C125_description L hL S hS _ hCov v (fun w hw => by rw [hlen]; exact (hv w hw).1) fun w hw => (hv w hw).2
  exact ⟨out, h1, h2⟩

/-! ### Fields that are not finite -/

namespace FloatDescribe
open FloatEnergy

/-- Not below zero, or nan. -/
def Up : PyFloat → Prop
  | fin s a => 0 ≤ (fin s a).num
  | inf s => s = false
  | nan => True

theorem up_ofMag {q : ℚ} (h : 0 ≤ q) : Up (ofMag false q) := by
  unfold ofMag
  split_ifs
  · rfl
  · simpa [Up, PyFloat.num] using fl0_nonneg h

theorem Up.add {x y : PyFloat} (hx : Up x) (hy : Up y) : Up (PyFloat.add x y) := by
  cases x with
  | nan => trivial
  | inf s =>
    cases y with
    | nan => trivial
    | inf t => obtain rfl : s = false := hx; obtain rfl : t = false := hy; rfl
    | fin t b => exact hx
  | fin s a =>
    cases y with
    | nan => trivial
    | inf t => exact hy
    | fin t b =>
      have h : 0 ≤ (fin s a).num + (fin t b).num := add_nonneg hx hy
      simp only [PyFloat.add]
      split_ifs with h0
      · simp [Up, PyFloat.num]
      · rw [decide_eq_false (not_lt.2 h)]
        exact up_ofMag (abs_nonneg _)

theorem tree_up : ∀ t : SumTree, (∀ x ∈ t.terms, Up x) → Up (t.sum id)
  | .leaf x, h => h x (by simp [SumTree.terms])
  | .node a b, h => (tree_up a fun x hx => h x (by simp [SumTree.terms, hx])).add (tree_up b fun x hx => h x (by simp [SumTree.terms, hx]))

theorem tree_nonfin : ∀ t : SumTree, (∃ x ∈ t.terms, isFin x = false) → isFin (t.sum id) = false
  | .leaf x, ⟨y, hy, h⟩ => by
    obtain rfl : y = x := by simpa [SumTree.terms] using hy
    exact h
  | .node a b, ⟨x, hx, h⟩ => by
    rcases List.mem_append.1 hx with hx | hx
    · exact nonfin_add (Or.inl (tree_nonfin a ⟨x, hx, h⟩))
    · exact nonfin_add (Or.inr (tree_nonfin b ⟨x, hx, h⟩))

theorem tree_nan : ∀ t : SumTree, nan ∈ t.terms → t.sum id = nan
  | .leaf x, h => by
    obtain rfl : nan = x := by simpa [SumTree.terms] using h
    rfl
  | .node a b, h => by
    rcases List.mem_append.1 h with h | h
    · simp [SumTree.sum, tree_nan a h, PyFloat.add]
    · simp [SumTree.sum, tree_nan b h, FloatEnergy.add_nan]

theorem np_nan {xs : List PyFloat} {v : PyFloat} (h : IsNpSum xs v) (hx : nan ∈ xs) : v = nan := by
  rcases h with ⟨rfl, -⟩ | ⟨-, t, ss, hp, rfl⟩
  · cases hx
  · exact tree_nan t (hp.mem_iff.2 (List.mem_append_left _ hx))

theorem np_up {xs : List PyFloat} {v : PyFloat} (h : IsNpSum xs v) (hu : ∀ x ∈ xs, Up x) (hx : ∃ x ∈ xs, isFin x = false) : v = nan ∨ v = inf false := by
  rcases h with ⟨rfl, -⟩ | ⟨-, t, ss, hp, rfl⟩
  · simp at hx
  · obtain ⟨x, hx, h⟩ := hx
    have h1 := tree_nonfin t ⟨x, hp.mem_iff.2 (List.mem_append_left _ hx), h⟩
    have h2 := tree_up t fun y hy => by
      rcases List.mem_append.1 (hp.mem_iff.1 hy) with hy | hy
      · exact hu y hy
      · obtain ⟨s, -, rfl⟩ := List.mem_map.1 hy
        cases s <;> simp [Up, PyFloat.num]
    revert h1 h2
    generalize t.sum id = w
    cases w with
    | nan => simp
    | inf s => intro _ h; obtain rfl : s = false := h; exact Or.inr rfl
    | fin s a => intro h; cases h

theorem up_term {v a : PyFloat} (hv : isFin v = true → FinD v) (ha : FinD a) (a0 : 0 ≤ a.num) : Up (mul (FloatParker.fabs v) a) := by
  obtain ⟨s, q, rfl, hq⟩ := ha
  have hq0 := hq.nonneg
  cases v with
  | nan => trivial
  | inf t =>
    simp only [FloatParker.fabs, mul]
    split_ifs with h
    · trivial
    · cases s with
      | false => rfl
      | true =>
        simp only [PyFloat.num] at a0
        exact absurd (le_antisymm (by simpa using a0) hq0) h
  | fin t b =>
    obtain ⟨t', b', e, hb⟩ := hv rfl
    obtain ⟨rfl, rfl⟩ : t = t' ∧ b = b' := by injection e with h1 h2; exact ⟨h1, h2⟩
    have hb0 := hb.nonneg
    simp only [FloatParker.fabs, mul]
    cases s with
    | false => exact up_ofMag (mul_nonneg hb0 hq0)
    | true =>
      have : q = 0 := le_antisymm (by simpa [PyFloat.num] using a0) hq0
      rw [this, mul_zero, ofMag]
      rw [fl0_zero, if_neg (by norm_num)]
      simp [Up, PyFloat.num]

theorem nonfin_term {v a : PyFloat} (hv : isFin v = false) : isFin (mul (FloatParker.fabs v) a) = false := by
  cases v <;> cases a <;> simp_all [isFin, mul, FloatParker.fabs]
  split_ifs <;> rfl

end FloatDescribe

open FloatDescribe in
/-- **C125.** A grid with a single polar or azimuthal corner has no facets, and describing a field on it raises ValueError. -/
theorem C125_no_facets (L : DescLib) (S : List PyFloat → PyFloat) (n k : ℤ) (h : n = 1 ∧ 1 ≤ k ∧ k ≤ 2 ^ 20 ∨ k = 1 ∧ 1 ≤ n ∧ n ≤ 2 ^ 20) : ∃ P A,
    corners (some n) (some k) = .ok (P, A) ∧ areas L P A = [] ∧ numericalDescription L S (areas L P A) ⟨([], []), ([], []), ([], [])⟩ = .error .value := by
  have single : ∀ b, FinD b → 0 < b.num → ∃ x, linspace b 1 = .ok [x] ∧ checkOnce [x] b = .ok () := by
    intro b hb b0
    have z : FinD (ofInt 0) ∧ (ofInt 0).num = 0 := by simpa using int_fd (k := 0) (by norm_num)
    have m : FinD (mul (ofInt 0) b) ∧ (mul (ofInt 0) b).num = 0 := by
      have := mul_num z.1 hb (by rw [z.2, zero_mul, abs_zero]; exact isDouble_zero.le_max)
      rwa [z.2, zero_mul, rnd_zero] at this
    have a : FinD (add (mul (ofInt 0) b) (fin false 0)) ∧ (add (mul (ofInt 0) b) (fin false 0)).num = 0 := by
      have e0 : (fin false 0).num = 0 := rfl
      have := add_num m.1 zero_fd (by rw [m.2, e0, zero_add, abs_zero]; exact isDouble_zero.le_max)
      rwa [m.2, e0, zero_add, rnd_zero] at this
    refine ⟨add (mul (ofInt 0) b) (fin false 0), rfl, ?_⟩
    generalize add (mul (ofInt 0) b) (fin false 0) = x at *
    have sb : FinD (sub x x) ∧ (sub x x).num = 0 := by
      have := sub_num a.1 a.1 (by rw [a.2, sub_zero, abs_zero]; exact isDouble_zero.le_max)
      rwa [a.2, sub_zero, rnd_zero] at this
    have ab := fabs_fd sb.1
    change resAssert (FloatClose.le (FloatParker.fabs (sub x x)) b = true) = _
    rw [resAssert, if_pos]
    · rfl
    · rw [FloatClose.le_fin ab.1 hb, ab.2, sb.2, abs_zero]
      exact_mod_cast b0.le
  have many : ∀ b, FinD b → (3 : ℝ) ≤ b.num → (b.num : ℝ) ≤ 7 → ∀ m : ℤ, 1 ≤ m → m ≤ 2 ^ 20 → ∃ xs, linspace b m = .ok xs ∧ checkOnce xs b = .ok () := by
    intro b hb b3 b7 m m1 m2
    obtain ⟨j, rfl⟩ := Int.eq_ofNat_of_zero_le (by omega : 0 ≤ m)
    rcases Nat.lt_or_ge j 2 with hj | hj
    · obtain rfl : j = 1 := by omega
      obtain ⟨x, e1, e2⟩ := single b hb (by have : (0 : ℝ) < b.num := by linarith
                                            exact_mod_cast this)
      exact ⟨[x], e1, e2⟩
    · obtain ⟨xs, e1, e2, -⟩ := linspace_ok hb b3 b7 hj (by exact_mod_cast m2)
      exact ⟨xs, e1, once_ok hb e2⟩
  have hp : (3 : ℝ) ≤ pi.num ∧ (pi.num : ℝ) ≤ 7 := by rw [pi_num]; push_cast; norm_num
  have ht : (3 : ℝ) ≤ twoPi.num ∧ (twoPi.num : ℝ) ≤ 7 := by rw [twoPi_fd.2]; push_cast; norm_num
  obtain ⟨n1, n2, k1, k2⟩ : 1 ≤ n ∧ n ≤ 2 ^ 20 ∧ 1 ≤ k ∧ k ≤ 2 ^ 20 := by
    rcases h with ⟨rfl, h1, h2⟩ | ⟨rfl, h1, h2⟩
    · exact ⟨le_rfl, by norm_num, h1, h2⟩
    · exact ⟨h1, h2, le_rfl, by norm_num⟩
  obtain ⟨P, e1, e2⟩ := many pi pi_close.1 hp.1 hp.2 n n1 n2
  obtain ⟨A, e3, e4⟩ := many twoPi twoPi_fd.1 ht.1 ht.2 k k1 k2
  have hA : areas L P A = [] := by
    rcases h with ⟨rfl, -, -⟩ | ⟨rfl, -, -⟩
    · have : P = [add (mul (ofInt 0) pi) (fin false 0)] := (Except.ok.inj e1).symm
      rw [this]
      simp [areas, FloatDescribe.pairs]
    · have : A = [add (mul (ofInt 0) twoPi) (fin false 0)] := (Except.ok.inj e3).symm
      rw [this]
      simp [areas, FloatDescribe.pairs]
  refine ⟨P, A, ?_, hA, ?_⟩
  · simp only [corners, e1, e2, e3, e4, bind, Except.bind]
    rfl
  · rw [hA]
    rfl

open FloatDescribe FloatEnergy in
/-- **C125.** A nan or an infinity among the values never reaches the report: the assertion fails. -/
theorem C125_nonfinite (L : DescLib) (hr : L.root nan = nan) (hs : L.square nan = nan) (S : List PyFloat → PyFloat) (hS : ∀ xs, IsNpSum xs (S xs))
    (areas values : List PyFloat) (hl : values.length = areas.length) (ha : ∀ a ∈ areas, FinD a ∧ 0 ≤ a.num)
    (hv : ∀ v ∈ values, isFin v = true → FinD v) (h : ∃ v ∈ values, isFin v = false) : describe L S areas values = .error .assertion := by
  obtain ⟨v, hvm, hvf⟩ := h
  obtain ⟨a, ham⟩ : ∃ a, (v, a) ∈ values.zip areas := by
    obtain ⟨i, hi⟩ := List.mem_iff_getElem?.1 hvm
    have hi' := (List.getElem?_eq_some_iff.1 hi).1
    refine ⟨areas[i]'(by omega), List.mem_iff_getElem?.2 ⟨i, List.getElem?_zip_eq_some.2 ⟨hi, ?_⟩⟩⟩
    exact List.getElem?_eq_getElem _
  have hm : mean S areas values = nan ∨ mean S areas values = inf false := by
    have := np_up (hS ((values.zip areas).map fun x => mul (FloatParker.fabs x.1) x.2)) (fun y hy => by
      obtain ⟨x, hx, rfl⟩ := List.mem_map.1 hy
      obtain ⟨m1, m2⟩ := List.of_mem_zip (a := x.1) (b := x.2) hx
      exact up_term (hv _ m1) (ha _ m2).1 (ha _ m2).2) ⟨_, List.mem_map.2 ⟨_, ham, rfl⟩, nonfin_term hvf⟩
    rw [mean]
    rcases this with e | e
    · rw [e]; exact Or.inl rfl
    · rw [e]; exact Or.inr rfl
  have hd : deviation (mean S areas values) v = nan := by
    rcases hm with e | e <;> rw [e] <;> cases v <;> first | rfl | (cases hvf)
  have hst : std L S areas values (mean S areas values) = nan := by
    rw [std, np_nan (hS _) (List.mem_map.2 ⟨_, ham, by rw [hd]; rfl⟩)]
    exact hr
  obtain ⟨hi, e⟩ : ∃ hi, maximum (values.map FloatParker.fabs) = .ok hi := by
    cases values with
    | nil => cases hvm
    | cons x xs => exact ⟨_, rfl⟩
  have hc : ∀ x, close x nan = false := by
    intro x
    cases x <;> simp [close, isFin, FloatClose.eq]
  simp only [describe, e, bind, Except.bind, hst, hs, FloatEnergy.add_nan, hc, resAssert]
  rfl

/-! ### The assumptions can be met -/

namespace FloatDescribe
open FloatEnergy

/-- A correctly rounded square root. -/
noncomputable def rootOf : PyFloat → PyFloat
  | fin s a => roundReal (Real.sqrt (fin s a).num)
  | inf _ => inf false
  | nan => nan

/-- Correctly rounded functions. -/
noncomputable def exDesc : DescLib where
  cos x := roundReal (Real.cos x.num)
  sqrt := rootOf
  square x := mul x x
  root := rootOf

theorem round_nonneg {x : ℝ} (h : 0 ≤ x) : 0 ≤ (roundReal x).num := by
  rw [roundReal, if_neg (not_lt.2 h)]
  have := (exists_nearest x).choose_spec.1.nonneg
  change 0 ≤ nearestReal x at this
  simpa [PyFloat.num] using this

theorem rootOf_ok {x : PyFloat} (hx : FinD x) (h : 0 ≤ x.num) :
    FinD (rootOf x) ∧ 0 ≤ (rootOf x).num ∧ |((rootOf x).num : ℝ) - Real.sqrt x.num| ≤ Real.sqrt x.num / 2 ^ 50 := by
  obtain ⟨s, a, rfl, ha⟩ := hx
  rw [rootOf]
  refine and_left_comm.1 ⟨round_nonneg (Real.sqrt_nonneg _), ?_⟩
  have hd : IsDouble |(fin s a).num| := by
    have h0 := ha.nonneg
    cases s <;> simpa [PyFloat.num, abs_of_nonneg h0] using ha
  rw [abs_of_nonneg h] at hd
  generalize (fin s a).num = q at *
  rcases h.eq_or_lt with rfl | hq
  · rw [Rat.cast_zero, Real.sqrt_zero, FloatParker.round_zero]
    exact ⟨⟨_, _, rfl, isDouble_zero⟩, by simp [PyFloat.num]⟩
  · have up : q ≤ 2 ^ (1024 : ℤ) := hd.le_max.trans maxDouble_lt.le
    obtain ⟨N, rfl⟩ := hd.multiple
    have hN : (1 : ℚ) ≤ N := by
      rcases Nat.eq_zero_or_pos N with h0 | h0
      · simp [h0] at hq
      · exact_mod_cast h0
    have low : (2 : ℚ) ^ (-1074 : ℤ) ≤ N * 2 ^ (-1074 : ℤ) := le_mul_of_one_le_left (by positivity) hN
    generalize (N : ℚ) * 2 ^ (-1074 : ℤ) = q at *
    have up' : (q : ℝ) ≤ 2 ^ (1024 : ℤ) := by
      have : (q : ℝ) ≤ (((2 : ℚ) ^ (1024 : ℤ) : ℚ) : ℝ) := Rat.cast_le.2 up
      rwa [Rat.cast_zpow, Rat.cast_ofNat] at this
    have low' : (2 : ℝ) ^ (-1074 : ℤ) ≤ q := by
      have : (((2 : ℚ) ^ (-1074 : ℤ) : ℚ) : ℝ) ≤ q := Rat.cast_le.2 low
      rwa [Rat.cast_zpow, Rat.cast_ofNat] at this
    have s0 := Real.sqrt_nonneg (q : ℝ)
    have r := FloatParker.round_rel (x := Real.sqrt q) (by
      rw [abs_of_nonneg s0]
      refine Real.le_sqrt_of_sq_le (le_trans ?_ low')
      rw [← zpow_natCast, ← zpow_mul]
      exact zpow_le_zpow_right₀ (by norm_num) (by norm_num)) (by
      rw [abs_of_nonneg s0]
      refine Real.sqrt_le_iff.2 ⟨by positivity, up'.trans ?_⟩
      rw [← zpow_natCast, ← zpow_mul]
      exact zpow_le_zpow_right₀ (by norm_num) (by norm_num))
    rw [abs_of_nonneg s0] at r
    exact ⟨r.1, r.2.trans (by gcongr <;> norm_num)⟩

theorem exDesc_good : GoodDesc exDesc where
  cos x _ _ _ := by
    have h := roundReal_close (x := Real.cos x.num) ((Real.abs_cos_le_one _).trans (by norm_num))
    exact ⟨h.1, by exact_mod_cast h.2.2 (Real.abs_cos_le_one _), h.2.1⟩
  square x hx h := by
    have e : (x.num : ℝ) * x.num = (x.num : ℝ) ^ 2 := by ring
    have h1 : (x.num : ℝ) ^ 2 ≤ 2 ^ 400 := by
      rw [← sq_abs]
      calc |(x.num : ℝ)| ^ 2 ≤ (2 ^ 200) ^ 2 := pow_le_pow_left₀ (abs_nonneg _) h 2
        _ = _ := by rw [← pow_mul]
    have := mul_real hx hx (k := 400) (by rw [e, abs_of_nonneg (sq_nonneg _)]; exact h1) (by norm_num)
    rw [e, abs_of_nonneg (sq_nonneg (x.num : ℝ))] at this
    refine ⟨this.1, this.2.trans ?_⟩
    have : (x.num : ℝ) ^ 2 / 2 ^ 53 ≤ (x.num : ℝ) ^ 2 / 2 ^ 50 := by gcongr <;> norm_num
    exact add_le_add_left this _
  root _ hx h := rootOf_ok hx h
  sqrt _ hx h := rootOf_ok hx h

private theorem exValue (s : Bool) (k : ℕ) (hk : k < 2 ^ 10) : FieldValue 50 (fin s k) := by
  refine ⟨⟨_, _, rfl, k, 0, by omega, by norm_num, by norm_num, by simp⟩, ?_⟩
  have h : (k : ℝ) ≤ 2 ^ 50 := by
    have : (k : ℝ) ≤ 2 ^ 10 := by exact_mod_cast hk.le
    exact this.trans (by norm_num)
  cases s <;> simpa [PyFloat.num] using h

/-- Two facets with 3 and −2 Gauss. -/
private def exPair : List PyFloat := [fin false (3 : ℕ), fin true (2 : ℕ)]

private theorem exPair_ok : ∀ x ∈ exPair, FieldValue 50 x := by
  intro x hx
  simp only [exPair, List.mem_cons, List.not_mem_nil, or_false] at hx
  rcases hx with rfl | rfl
  · exact exValue false 3 (by norm_num)
  · exact exValue true 2 (by norm_num)

example := C125_corners 65 130 (by norm_num) (by norm_num) (by norm_num) (by norm_num)

example : ∃ P A, corners (some 2) (some 3) = .ok (P, A) ∧ ∃ s, describe exDesc exSum (areas exDesc P A) exPair = .ok s ∧
    Describes (areas exDesc P A) exPair s := by
  obtain ⟨P, A, e, hP, hA, lP, lA, -⟩ := C125_corners 2 3 (by norm_num) (by norm_num) (by norm_num) (by norm_num)
  obtain ⟨hC, hlen, -⟩ := C125_areas exDesc exDesc_good P A hP hA (by omega) (by omega) (by omega) (by rw [lP, lA]; norm_num)
  rw [lP, lA] at hlen
  exact ⟨P, A, e, C125_describe exDesc exDesc_good exSum exSum_ok _ exPair (by rw [hlen]; rfl)
    (fun v hv => ⟨(exPair_ok v hv).1, (exPair_ok v hv).2.trans (by norm_num)⟩) hC⟩

example : ∃ P A, corners (some 2) (some 3) = .ok (P, A) ∧ ∃ out, numericalDescription exDesc exSum (areas exDesc P A)
    ⟨(exPair, exPair), (exPair, exPair), (exPair, exPair)⟩ = .ok out ∧ out.map Prod.fst = descriptionKeys := by
  obtain ⟨P, A, e, -, h⟩ := C125_geometry exDesc exDesc_good exSum exSum_ok 2 3 (by norm_num) (by norm_num) (by norm_num) (by norm_num) (by norm_num)
  refine ⟨P, A, e, h _ ?_⟩
  simp only [List.mem_cons, List.not_mem_nil, or_false, or_self, forall_eq]
  exact ⟨rfl, exPair_ok⟩

example : ∃ P A, corners (some 1) (some 7) = .ok (P, A) ∧ areas exDesc P A = [] ∧
    numericalDescription exDesc exSum (areas exDesc P A) ⟨([], []), ([], []), ([], [])⟩ = .error .value :=
  C125_no_facets exDesc exSum 1 7 (by norm_num)

example : describe exDesc exSum [fin false 6, fin false 6] [inf true, fin false 0] = .error .assertion := by
  have six : FinD (fin false 6) ∧ 0 ≤ (fin false 6).num :=
    ⟨⟨_, _, rfl, 6, 0, by norm_num, by norm_num, by norm_num, by simp⟩, by simp [PyFloat.num]⟩
  refine C125_nonfinite exDesc rfl rfl exSum exSum_ok _ _ rfl (by simpa using six) ?_ ⟨inf true, by simp, rfl⟩
  intro v hv hf
  simp only [List.mem_cons, List.not_mem_nil, or_false] at hv
  rcases hv with rfl | rfl
  · cases hf
  · exact zero_fd

end FloatDescribe

end Verif
