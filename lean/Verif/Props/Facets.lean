import Verif.Model.Facets
import Verif.Lemmas.Rotation
import Verif.Props.Maps

/-!
# C93: the corners of the facets in space; flat facets
-/

namespace Verif
open Geometry

namespace Spec

/-- From one point to another. -/
def edge (a b : ℝ × ℝ × ℝ) : ℝ × ℝ × ℝ := (b.1 - a.1, b.2.1 - a.2.1, b.2.2 - a.2.2)

/-- The scalar product. -/
def dotP (v w : ℝ × ℝ × ℝ) : ℝ := v.1 * w.1 + v.2.1 * w.2.1 + v.2.2 * w.2.2

/-- The area of a triangle, by Lagrange's identity for the cross product of two sides. -/
noncomputable def triangleArea (a b c : ℝ × ℝ × ℝ) : ℝ :=
  Real.sqrt (dotP (edge a b) (edge a b) * dotP (edge a c) (edge a c) - dotP (edge a b) (edge a c) ^ 2) / 2

/-- The area of a flat quadrangle with corners `a`, `b`, `c`, `d` in this order. -/
noncomputable def quadArea (a b c d : ℝ × ℝ × ℝ) : ℝ := triangleArea a b c + triangleArea a c d

end Spec

open Spec

namespace Facets

/-- The corner at the given angles. -/
noncomputable def pnt (θ φ : ℝ) : ℝ × ℝ × ℝ := rectFromSpherical 1 θ φ

theorem at2_corners (P A : List ℝ) (j i : ℕ) (hi : i < P.length) (hj : j < A.length) :
    at2 (meshgrid P A).cornersCartesian j i = some (rectFromSpherical 1 P[i] A[j]) := by
  simp [at2, Geom.cornersCartesian, map2, meshgrid, List.getElem?_zipWith, hi, hj]

theorem dot_pnt (θ θ' φ φ' : ℝ) : dotP (pnt θ φ) (pnt θ' φ')
    = Real.sin θ * Real.sin θ' * Real.cos (φ - φ') + Real.cos θ * Real.cos θ' := by
  simp only [dotP, pnt, rectFromSpherical, Real.cos_sub]
  ring

theorem dot_edge (v a b : ℝ × ℝ × ℝ) : dotP v (edge a b) = dotP v b - dotP v a := by
  simp only [dotP, edge]; ring

theorem dot_edges (o a b : ℝ × ℝ × ℝ) : dotP (edge o a) (edge o b) = dotP a b - dotP o a - dotP o b + dotP o o := by
  simp only [dotP, edge]; ring

/-- The slanted height of a facet. -/
theorem height_eq (p q d : ℝ) : (Real.cos q - Real.cos p) ^ 2 + (Real.sin q - Real.sin p) ^ 2 * Real.cos d ^ 2
    = 4 * Real.sin ((q - p) / 2) ^ 2 * (Real.sin ((p + q) / 2) ^ 2 + Real.cos ((p + q) / 2) ^ 2 * Real.cos d ^ 2) := by
  rw [Real.cos_sub_cos, Real.sin_sub_sin, add_comm q p]
  ring

theorem gram_one (p q φ d : ℝ) :
    dotP (edge (pnt p (φ - d)) (pnt p (φ + d))) (edge (pnt p (φ - d)) (pnt p (φ + d)))
        * dotP (edge (pnt p (φ - d)) (pnt q (φ + d))) (edge (pnt p (φ - d)) (pnt q (φ + d)))
      - dotP (edge (pnt p (φ - d)) (pnt p (φ + d))) (edge (pnt p (φ - d)) (pnt q (φ + d))) ^ 2
      = 4 * Real.sin p ^ 2 * Real.sin d ^ 2 * ((Real.cos q - Real.cos p) ^ 2 + (Real.sin q - Real.sin p) ^ 2 * Real.cos d ^ 2) := by
  have u := Real.sin_sq_add_cos_sq φ
  simp only [dotP, edge, pnt, rectFromSpherical, Real.cos_sub, Real.sin_sub, Real.cos_add, Real.sin_add]
  generalize Real.sin φ = x at *
  generalize Real.cos φ = y at *
  generalize Real.sin p = a
  generalize Real.cos p = a'
  generalize Real.sin q = b
  generalize Real.cos q = b'
  generalize Real.sin d = e
  generalize Real.cos d = e'
  have h : ∀ N, N = x ^ 2 + y ^ 2 → N = 1 → 4 * a ^ 2 * e ^ 2 * ((b' - a') ^ 2 * N + (b - a) ^ 2 * e' ^ 2 * N ^ 2)
      = 4 * a ^ 2 * e ^ 2 * ((b' - a') ^ 2 + (b - a) ^ 2 * e' ^ 2) := by
    intro N _ h1
    rw [h1]; ring
  rw [← h _ rfl u]
  ring

theorem gram_two (p q φ d : ℝ) :
    dotP (edge (pnt p (φ - d)) (pnt q (φ + d))) (edge (pnt p (φ - d)) (pnt q (φ + d)))
        * dotP (edge (pnt p (φ - d)) (pnt q (φ - d))) (edge (pnt p (φ - d)) (pnt q (φ - d)))
      - dotP (edge (pnt p (φ - d)) (pnt q (φ + d))) (edge (pnt p (φ - d)) (pnt q (φ - d))) ^ 2
      = 4 * Real.sin q ^ 2 * Real.sin d ^ 2 * ((Real.cos q - Real.cos p) ^ 2 + (Real.sin q - Real.sin p) ^ 2 * Real.cos d ^ 2) := by
  have u := Real.sin_sq_add_cos_sq φ
  simp only [dotP, edge, pnt, rectFromSpherical, Real.cos_sub, Real.sin_sub, Real.cos_add, Real.sin_add]
  generalize Real.sin φ = x at *
  generalize Real.cos φ = y at *
  generalize Real.sin p = a
  generalize Real.cos p = a'
  generalize Real.sin q = b
  generalize Real.cos q = b'
  generalize Real.sin d = e
  generalize Real.cos d = e'
  have h : ∀ N, N = x ^ 2 + y ^ 2 → N = 1 → 4 * b ^ 2 * e ^ 2 * ((b' - a') ^ 2 * N + (b - a) ^ 2 * e' ^ 2 * N ^ 2)
      = 4 * b ^ 2 * e ^ 2 * ((b' - a') ^ 2 + (b - a) ^ 2 * e' ^ 2) := by
    intro N _ h1
    rw [h1]; ring
  rw [← h _ rfl u]
  ring

/-- The area of a flat facet. -/
theorem quad_eq {p q d : ℝ} (hp : 0 ≤ Real.sin p) (hq : 0 ≤ Real.sin q) (hd : 0 ≤ Real.sin d) (hh : 0 ≤ Real.sin ((q - p) / 2)) (φ : ℝ) :
    quadArea (pnt p (φ - d)) (pnt p (φ + d)) (pnt q (φ + d)) (pnt q (φ - d))
      = 4 * Real.sin d * Real.sin ((q - p) / 2) * Real.cos ((q - p) / 2) * Real.sin ((p + q) / 2)
        * Real.sqrt (Real.sin ((p + q) / 2) ^ 2 + Real.cos ((p + q) / 2) ^ 2 * Real.cos d ^ 2) := by
  have key : ∀ {w : ℝ}, 0 ≤ w → Real.sqrt (4 * w ^ 2 * Real.sin d ^ 2 * ((Real.cos q - Real.cos p) ^ 2
      + (Real.sin q - Real.sin p) ^ 2 * Real.cos d ^ 2)) = 4 * w * Real.sin d * Real.sin ((q - p) / 2)
        * Real.sqrt (Real.sin ((p + q) / 2) ^ 2 + Real.cos ((p + q) / 2) ^ 2 * Real.cos d ^ 2) := by
    intro w hw
    rw [height_eq, show ∀ Q : ℝ, 4 * w ^ 2 * Real.sin d ^ 2 * (4 * Real.sin ((q - p) / 2) ^ 2 * Q)
      = (4 * w * Real.sin d * Real.sin ((q - p) / 2)) ^ 2 * Q from fun Q => by ring,
      Real.sqrt_mul (by positivity), Real.sqrt_sq (by positivity)]
  rw [quadArea, triangleArea, triangleArea, gram_one, gram_two, key hp, key hq]
  have e : Real.sin p + Real.sin q = 2 * Real.sin ((p + q) / 2) * Real.cos ((q - p) / 2) := by
    have h1 : Real.sin p = Real.sin ((p + q) / 2 - (q - p) / 2) := by congr 1; ring
    have h2 : Real.sin q = Real.sin ((p + q) / 2 + (q - p) / 2) := by congr 1; ring
    rw [h1, h2, Real.sin_sub, Real.sin_add]
    ring
  linear_combination (2 * Real.sin d * Real.sin ((q - p) / 2)
        * Real.sqrt (Real.sin ((p + q) / 2) ^ 2 + Real.cos ((p + q) / 2) ^ 2 * Real.cos d ^ 2)) * e

/-- The four corners of a facet and what the class says about it. -/
theorem facet {P A : List ℝ} {g : Geom} (h : Geom.init (.arr P) (.arr A) = .ok g) {i j : ℕ} (hi : i + 1 < P.length)
    (hj : j + 1 < A.length) : ∃ φ d, φ = (A[j] + A[j + 1]) / 2 ∧ d = (A[j + 1] - A[j]) / 2 ∧
      at2 g.cornersCartesian j i = some (pnt P[i] (φ - d)) ∧ at2 g.cornersCartesian (j + 1) i = some (pnt P[i] (φ + d)) ∧
      at2 g.cornersCartesian (j + 1) (i + 1) = some (pnt P[i + 1] (φ + d)) ∧
      at2 g.cornersCartesian j (i + 1) = some (pnt P[i + 1] (φ - d)) := by
  obtain ⟨rfl, _, _⟩ := init_arr h
  refine ⟨_, _, rfl, rfl, ?_⟩
  have e1 : (A[j] + A[j + 1]) / 2 - (A[j + 1] - A[j]) / 2 = A[j] := by ring
  have e2 : (A[j] + A[j + 1]) / 2 + (A[j + 1] - A[j]) / 2 = A[j + 1] := by ring
  rw [e1, e2]
  exact ⟨at2_corners P A j i _ _, at2_corners P A (j + 1) i _ _, at2_corners P A (j + 1) (i + 1) _ _, at2_corners P A j (i + 1) _ _⟩

/-- The range of the azimuths. -/
theorem init_range {P A : List ℝ} {g : Geom} (h : Geom.init (.arr P) (.arr A) = .ok g) {x y : ℝ} (hx : x ∈ A) (hy : y ∈ A) :
    x - y ≤ 2 * Real.pi := by
  rw [Geom.init] at h
  simp only [corners, bind, Except.bind, CornerArg.values, pure, Except.pure, Option.getD_some] at h
  rcases hp : extent (some P) with e | e
  · rw [hp] at h; cases h
  rw [hp] at h
  simp only [resAssert] at h
  split_ifs at h with h1
  · rcases ha : extent (some A) with e' | e'
    · rw [ha] at h; cases h
    rw [ha] at h
    simp only at h
    split_ifs at h with h2
    · rw [extent] at ha
      rcases hM : A.max? with _ | M
      · rw [hM] at ha; cases ha
      rcases hm : A.min? with _ | m
      · rw [hM, hm] at ha; cases ha
      rw [hM, hm] at ha
      obtain rfl := Except.ok.inj ha
      have b1 := (List.max?_eq_some_iff.1 hM).2 x hx
      have b2 := (List.min?_eq_some_iff.1 hm).2 y hy
      have := le_abs_self (M - m)
      linarith
    · cases h

/-- Signs of the quantities of a facet. -/
theorem signs {P A : List ℝ} {g : Geom} (h : Geom.init (.arr P) (.arr A) = .ok g) (iP : Increasing P)
    (iA : Increasing A) (h0 : ∀ p ∈ P, 0 ≤ p ∧ p ≤ Real.pi) {i j : ℕ} (hi : i + 1 < P.length) (hj : j + 1 < A.length) :
    0 ≤ Real.sin P[i] ∧ 0 ≤ Real.sin P[i + 1] ∧ 0 < (A[j + 1] - A[j]) / 2 ∧ (A[j + 1] - A[j]) / 2 ≤ Real.pi ∧
    0 < Real.sin ((P[i + 1] - P[i]) / 2) ∧ 0 ≤ Real.cos ((P[i + 1] - P[i]) / 2) ∧ 0 < Real.sin ((P[i] + P[i + 1]) / 2) ∧
    0 < (P[i] + P[i + 1]) / 2 ∧ (P[i] + P[i + 1]) / 2 < Real.pi := by
  have p1 := h0 _ (List.getElem_mem (show i < P.length by omega))
  have p2 := h0 _ (List.getElem_mem hi)
  have p3 : P[i] < P[i + 1] := List.pairwise_iff_getElem.1 iP i (i + 1) (by omega) hi (by omega)
  have a3 : A[j] < A[j + 1] := List.pairwise_iff_getElem.1 iA j (j + 1) (by omega) hj (by omega)
  have a4 := init_range h (List.getElem_mem hj) (List.getElem_mem (show j < A.length by omega))
  have hpi := Real.pi_pos
  refine ⟨Real.sin_nonneg_of_nonneg_of_le_pi p1.1 p1.2, Real.sin_nonneg_of_nonneg_of_le_pi p2.1 p2.2, by linarith, by linarith,
    Real.sin_pos_of_pos_of_lt_pi (by linarith) (by linarith), Real.cos_nonneg_of_neg_pi_div_two_le_of_le (by linarith) (by linarith),
    Real.sin_pos_of_pos_of_lt_pi (by linarith) (by linarith), by linarith, by linarith⟩

theorem dot_slant (p q φ d s : ℝ) (hs : Real.cos s = Real.cos d) :
    dotP (pnt ((p + q) / 2) φ) (edge (pnt p (φ - s)) (pnt q (φ - s)))
      = 2 * Real.sin ((q - p) / 2) * Real.cos ((p + q) / 2) * Real.sin ((p + q) / 2) * (Real.cos d - 1) := by
  rw [dot_edge, dot_pnt, dot_pnt, sub_sub_cancel, hs]
  have h1 := Real.sin_sub_sin q p
  have h2 := Real.cos_sub_cos q p
  rw [add_comm q p] at h1 h2
  linear_combination (Real.sin ((p + q) / 2) * Real.cos d) * h1 + Real.cos ((p + q) / 2) * h2

theorem dot_level (p θ φ d : ℝ) : dotP (pnt θ φ) (edge (pnt p (φ - d)) (pnt p (φ + d))) = 0 := by
  rw [dot_edge, dot_pnt, dot_pnt, sub_sub_cancel, sub_add_cancel_left, Real.cos_neg]
  ring

theorem slant_zero {p q φ d s : ℝ} (hs : Real.cos s = Real.cos d) (h1 : 0 < Real.sin ((q - p) / 2)) (h2 : 0 < Real.sin ((p + q) / 2))
    (h3 : 0 < (p + q) / 2) (h4 : (p + q) / 2 < Real.pi) (d0 : 0 < d) (d1 : d ≤ Real.pi) :
    dotP (pnt ((p + q) / 2) φ) (edge (pnt p (φ - s)) (pnt q (φ - s))) = 0 ↔ (p + q) / 2 = Real.pi / 2 := by
  rw [dot_slant p q φ d s hs]
  have hc : Real.cos d - 1 ≠ 0 := by
    have := Real.cos_lt_cos_of_nonneg_of_le_pi (le_refl 0) d1 d0
    rw [Real.cos_zero] at this
    linarith
  constructor
  · intro h
    have : Real.cos ((p + q) / 2) = 0 := by
      rcases mul_eq_zero.1 h with h | h
      · rcases mul_eq_zero.1 h with h | h
        · rcases mul_eq_zero.1 h with h | h
          · linarith
          · exact h
        · exact absurd h h2.ne'
      · exact absurd h hc
    rw [← Real.cos_pi_div_two] at this
    exact Real.injOn_cos ⟨h3.le, h4.le⟩ ⟨by linarith [Real.pi_pos], by linarith [Real.pi_pos]⟩ this
  · intro h
    rw [h, Real.cos_pi_div_two]
    ring

theorem sum_cos_nodes {N : ℕ} (hN : 2 ≤ N) : ∑ j ∈ Finset.range N, Real.cos (Riemann.node (2 * Real.pi) N j) = 0 ∧
    ∑ j ∈ Finset.range N, Real.sin (Riemann.node (2 * Real.pi) N j) = 0 := by
  have hN' : (N : ℝ) ≠ 0 := by have : (2 : ℝ) ≤ N := by exact_mod_cast hN
                               linarith
  have hs : 2 * Real.sin (Real.pi / N) ≠ 0 := by
    have h2 : (2 : ℝ) ≤ N := by exact_mod_cast hN
    have : 0 < Real.sin (Real.pi / N) := by
      refine Real.sin_pos_of_pos_of_lt_pi (by have := Real.pi_pos; positivity) ?_
      rw [div_lt_iff₀ (by linarith)]
      nlinarith [Real.pi_pos]
    positivity
  have e1 : ∀ j : ℕ, 2 * Real.sin (Real.pi / N) * Real.cos (Riemann.node (2 * Real.pi) N j)
      = Real.sin (((j + 1 : ℕ) : ℝ) * (2 * Real.pi / N)) - Real.sin ((j : ℝ) * (2 * Real.pi / N)) := by
    intro j
    have a : (((j + 1 : ℕ) : ℝ) * (2 * Real.pi / N) + (j : ℝ) * (2 * Real.pi / N)) / 2 = Riemann.node (2 * Real.pi) N j := by
      rw [Riemann.node]; push_cast; ring
    have b : (((j + 1 : ℕ) : ℝ) * (2 * Real.pi / N) - (j : ℝ) * (2 * Real.pi / N)) / 2 = Real.pi / N := by
      push_cast; ring
    rw [Real.sin_sub_sin, a, b]
  have e2 : ∀ j : ℕ, 2 * Real.sin (Real.pi / N) * Real.sin (Riemann.node (2 * Real.pi) N j)
      = -(Real.cos (((j + 1 : ℕ) : ℝ) * (2 * Real.pi / N)) - Real.cos ((j : ℝ) * (2 * Real.pi / N))) := by
    intro j
    have a : (((j + 1 : ℕ) : ℝ) * (2 * Real.pi / N) + (j : ℝ) * (2 * Real.pi / N)) / 2 = Riemann.node (2 * Real.pi) N j := by
      rw [Riemann.node]; push_cast; ring
    have b : (((j + 1 : ℕ) : ℝ) * (2 * Real.pi / N) - (j : ℝ) * (2 * Real.pi / N)) / 2 = Real.pi / N := by
      push_cast; ring
    rw [Real.cos_sub_cos, a, b]
    ring
  have f : (N : ℝ) * (2 * Real.pi / N) = 2 * Real.pi := by field_simp
  constructor
  · refine (mul_eq_zero.1 ?_).resolve_left hs
    rw [Finset.mul_sum, Finset.sum_congr rfl fun j _ => e1 j,
      Finset.sum_range_sub (fun j : ℕ => Real.sin ((j : ℝ) * (2 * Real.pi / N))), f]
    simp
  · refine (mul_eq_zero.1 ?_).resolve_left hs
    rw [Finset.mul_sum, Finset.sum_congr rfl fun j _ => e2 j, Finset.sum_neg_distrib,
      Finset.sum_range_sub (fun j : ℕ => Real.cos ((j : ℝ) * (2 * Real.pi / N))), f]
    simp

/-- The facets north and south of the equator balance. -/
theorem sum_polar {q : ℕ} (hq : 1 ≤ q) : ∑ i ∈ Finset.range q, (Real.cos ((i : ℝ) * (Real.pi / q))
    - Real.cos (((i : ℝ) + 1) * (Real.pi / q))) * Real.cos (Riemann.node Real.pi q i) = 0 := by
  have hq' : (q : ℝ) ≠ 0 := by exact_mod_cast (show q ≠ 0 by omega)
  have key : ∀ i : ℕ, (Real.cos ((i : ℝ) * (Real.pi / q)) - Real.cos (((i : ℝ) + 1) * (Real.pi / q)))
      * Real.cos (Riemann.node Real.pi q i) * (2 * Real.cos (Real.pi / (2 * q)))
      = Real.cos ((i : ℝ) * (Real.pi / q)) ^ 2 - Real.cos (((i + 1 : ℕ) : ℝ) * (Real.pi / q)) ^ 2 := by
    intro i
    have h := Real.cos_add_cos ((i : ℝ) * (Real.pi / q)) (((i : ℝ) + 1) * (Real.pi / q))
    have a : ((i : ℝ) * (Real.pi / q) + ((i : ℝ) + 1) * (Real.pi / q)) / 2 = Riemann.node Real.pi q i := by
      rw [Riemann.node]; ring
    have b : ((i : ℝ) * (Real.pi / q) - ((i : ℝ) + 1) * (Real.pi / q)) / 2 = -(Real.pi / (2 * q)) := by field_simp; ring
    rw [a, b, Real.cos_neg] at h
    push_cast
    linear_combination -(Real.cos ((i : ℝ) * (Real.pi / q)) - Real.cos (((i : ℝ) + 1) * (Real.pi / q))) * h
  rcases Nat.lt_or_ge q 2 with h | h
  · obtain rfl : q = 1 := by omega
    have : Riemann.node Real.pi 1 0 = Real.pi / 2 := by rw [Riemann.node]; norm_num; ring
    simp [this]
  · have hc : 2 * Real.cos (Real.pi / (2 * q)) ≠ 0 := by
      have h2 : (2 : ℝ) ≤ q := by exact_mod_cast h
      have : 0 < Real.cos (Real.pi / (2 * q)) := by
        refine Real.cos_pos_of_mem_Ioo ⟨by have := Real.pi_pos; have : 0 < Real.pi / (2 * q) := by positivity
                                           linarith, ?_⟩
        rw [div_lt_div_iff₀ (by positivity) two_pos]
        nlinarith [Real.pi_pos]
      positivity
    refine (mul_eq_zero.1 ?_).resolve_right hc
    rw [Finset.sum_mul, Finset.sum_congr rfl fun i _ => key i, Finset.sum_range_sub']
    have f : (q : ℝ) * (Real.pi / q) = Real.pi := by field_simp
    rw [f]
    simp

end Facets

open Facets

/-- **C93.** The corners are the points of the unit sphere at the corner angles. -/
theorem C93_corners (P A : List ℝ) (g : Geom) (h : Geom.init (.arr P) (.arr A) = .ok g) (i j : ℕ) (hi : i < P.length)
    (hj : j < A.length) : ∃ v, at2 g.cornersCartesian j i = some v ∧ ‖vec v‖ = 1 ∧
      v = (Real.sin P[i] * Real.cos A[j], Real.sin P[i] * Real.sin A[j], Real.cos P[i]) := by
  obtain ⟨rfl, _, _⟩ := init_arr h
  refine ⟨_, at2_corners P A j i hi hj, ?_, by simp [rectFromSpherical]⟩
  rw [EuclideanSpace.norm_eq, Real.sqrt_eq_one]
  have u := Real.sin_sq_add_cos_sq P[i]
  have u' := Real.sin_sq_add_cos_sq A[j]
  simp [vec, Fin.sum_univ_three, rectFromSpherical]
  linear_combination Real.sin P[i] ^ 2 * u' + u

/-- **C93.** The mesh of a full-sphere grid is closed: the first and the last meridian coincide, and so do the corners at either
pole. -/
theorem C93_closed (n k : ℕ) (hn : 2 ≤ n) (hk : 2 ≤ k) (g : Geom) (h : Geom.init (.int n) (.int k) = .ok g) :
    (∀ i < n, at2 g.cornersCartesian 0 i = at2 g.cornersCartesian (k - 1) i) ∧
    ∀ j < k, at2 g.cornersCartesian j 0 = some (0, 0, 1) ∧ at2 g.cornersCartesian j (n - 1) = some (0, 0, -1) := by
  rw [Maps.full_grid hn hk h]
  have e : ∀ {b : ℝ} {n : ℕ} (hn : 2 ≤ n) (h : n - 1 < (lin b n).length), (lin b n)[n - 1] = b := by
    intro b n hn h
    have hn' : (n : ℝ) - 1 ≠ 0 := by
      have : (2 : ℝ) ≤ n := by exact_mod_cast hn
      linarith
    rw [lin_get, Nat.cast_sub (by omega), Nat.cast_one]
    field_simp
  have e0 : ∀ {b : ℝ} {n : ℕ} (h : 0 < (lin b n).length), (lin b n)[0] = 0 := by
    intro b n h
    rw [lin_get]
    simp
  have ln := lin_length Real.pi n
  have lk := lin_length (2 * Real.pi) k
  refine ⟨fun i hi => ?_, fun j hj => ⟨?_, ?_⟩⟩
  · rw [at2_corners _ _ 0 i (by omega) (by omega), at2_corners _ _ (k - 1) i (by omega) (by omega), e hk, e0]
    simp [rectFromSpherical]
  · rw [at2_corners _ _ j 0 (by omega) (by omega), e0]
    simp [rectFromSpherical]
  · rw [at2_corners _ _ j (n - 1) (by omega) (by omega), e hn]
    simp [rectFromSpherical]

/-- **C93.** The four corners of a facet lie in one plane. -/
theorem C93_flat (P A : List ℝ) (g : Geom) (h : Geom.init (.arr P) (.arr A) = .ok g) (i j : ℕ) (hi : i + 1 < P.length)
    (hj : j + 1 < A.length) : ∃ a b c d, at2 g.cornersCartesian j i = some a ∧ at2 g.cornersCartesian (j + 1) i = some b ∧
      at2 g.cornersCartesian (j + 1) (i + 1) = some c ∧ at2 g.cornersCartesian j (i + 1) = some d ∧
      ∃ N, N ≠ 0 ∧ dotP N (edge a b) = 0 ∧ dotP N (edge a c) = 0 ∧ dotP N (edge a d) = 0 := by
  obtain ⟨φ, d, hφ, hd, h1, h2, h3, h4⟩ := facet h hi hj
  refine ⟨_, _, _, _, h1, h2, h3, h4, ?_⟩
  generalize P[i] = p
  generalize P[i + 1] = q
  by_cases hs : Real.sin ((p + q) / 2) = 0
  · have e : Real.cos q = Real.cos p := by
      have := Real.cos_sub_cos q p
      rw [add_comm q p, hs] at this
      linarith
    refine ⟨(0, 0, 1), by simp, ?_⟩
    simp [dotP, edge, pnt, rectFromSpherical, e]
  · refine ⟨(Real.sin ((p + q) / 2) * Real.cos φ, Real.sin ((p + q) / 2) * Real.sin φ, Real.cos ((p + q) / 2) * Real.cos d), ?_, ?_⟩
    · intro h0
      simp only [Prod.mk_eq_zero, mul_eq_zero, hs, false_or] at h0
      have := Real.sin_sq_add_cos_sq φ
      rw [h0.1, h0.2.1] at this
      norm_num at this
    · have k : ∀ θ s, Real.cos s = Real.cos d → dotP (Real.sin ((p + q) / 2) * Real.cos φ, Real.sin ((p + q) / 2) * Real.sin φ,
          Real.cos ((p + q) / 2) * Real.cos d) (pnt θ (φ - s)) = Real.cos d * Real.cos ((p + q) / 2 - θ) := by
        intro θ s hs
        have u := Real.sin_sq_add_cos_sq φ
        rw [Real.cos_sub, ← hs]
        simp only [dotP, pnt, rectFromSpherical, Real.cos_sub, Real.sin_sub]
        linear_combination (Real.sin ((p + q) / 2) * Real.sin θ * Real.cos s) * u
      have c : Real.cos ((p + q) / 2 - q) = Real.cos ((p + q) / 2 - p) := by
        rw [← Real.cos_neg]; congr 1; ring
      have m : ∀ θ, pnt θ (φ + d) = pnt θ (φ - -d) := fun θ => by rw [sub_neg_eq_add]
      simp only [dot_edge, m]
      rw [k p d rfl, k q d rfl, k p (-d) (Real.cos_neg d), k q (-d) (Real.cos_neg d), c]
      simp

/-- **C93.** `unit_normals` is perpendicular to the flat facet exactly for the facets with their middle on the equator. -/
theorem C93_normals (P A : List ℝ) (g : Geom) (h : Geom.init (.arr P) (.arr A) = .ok g) (iP : Increasing P)
    (iA : Increasing A) (h0 : ∀ p ∈ P, 0 ≤ p ∧ p ≤ Real.pi) (i j : ℕ) (hi : i + 1 < P.length) (hj : j + 1 < A.length) :
    ∃ N a b c d, at2 g.unitNormals j i = some N ∧ at2 g.cornersCartesian j i = some a ∧
      at2 g.cornersCartesian (j + 1) i = some b ∧ at2 g.cornersCartesian (j + 1) (i + 1) = some c ∧
      at2 g.cornersCartesian j (i + 1) = some d ∧ dotP N (edge a b) = 0 ∧ dotP N (edge d c) = 0 ∧
      (dotP N (edge a d) = 0 ↔ (P[i] + P[i + 1]) / 2 = Real.pi / 2) ∧
      (dotP N (edge b c) = 0 ↔ (P[i] + P[i + 1]) / 2 = Real.pi / 2) := by
  obtain ⟨φ, d, hφ, hd, h1, h2, h3, h4⟩ := facet h hi hj
  obtain ⟨_, _, s1, s2, s3, _, s4, s5, s6⟩ := signs h iP iA h0 hi hj
  refine ⟨_, _, _, _, _, (C46_facets P A g h i j hi hj).2.2.2, h1, h2, h3, h4, ?_⟩
  rw [← hφ]
  rw [← hd] at s1 s2
  have m : ∀ θ, pnt θ (φ + d) = pnt θ (φ - -d) := fun θ => by rw [sub_neg_eq_add]
  refine ⟨dot_level _ _ _ _, dot_level _ _ _ _, slant_zero rfl s3 s4 s5 s6 s1 s2, ?_⟩
  rw [m, m]
  exact slant_zero (Real.cos_neg d) s3 s4 s5 s6 s1 s2

/-- **C93.** The area of the flat facet, and that `areas` is larger. -/
theorem C93_areas (P A : List ℝ) (g : Geom) (h : Geom.init (.arr P) (.arr A) = .ok g) (iP : Increasing P)
    (iA : Increasing A) (h0 : ∀ p ∈ P, 0 ≤ p ∧ p ≤ Real.pi) (i j : ℕ) (hi : i + 1 < P.length) (hj : j + 1 < A.length) :
    ∃ a b c d s, at2 g.cornersCartesian j i = some a ∧ at2 g.cornersCartesian (j + 1) i = some b ∧
      at2 g.cornersCartesian (j + 1) (i + 1) = some c ∧ at2 g.cornersCartesian j (i + 1) = some d ∧
      at2 g.areas j i = some s ∧ quadArea a b c d < s ∧ 
      quadArea a b c d = s * (Real.sin ((A[j + 1] - A[j]) / 2) / ((A[j + 1] - A[j]) / 2)) * Real.cos ((P[i + 1] - P[i]) / 2)
        * Real.sqrt (1 - Real.cos ((P[i] + P[i + 1]) / 2) ^ 2 * Real.sin ((A[j + 1] - A[j]) / 2) ^ 2) := by
  obtain ⟨φ, d, hφ, hd, h1, h2, h3, h4⟩ := facet h hi hj
  obtain ⟨s7, s8, s1, s2, s3, s9, s4, s5, s6⟩ := signs h iP iA h0 hi hj
  refine ⟨_, _, _, _, _, h1, h2, h3, h4, (C46_facets P A g h i j hi hj).2.2.1, ?_⟩
  have hb : A[j + 1] - A[j] = 2 * d := by rw [hd]; ring
  rw [← hd] at s1 s2 ⊢
  rw [hb]
  have sd := Real.sin_nonneg_of_nonneg_of_le_pi s1.le s2
  rw [quad_eq s7 s8 sd s3.le, Real.cos_sub_cos]
  generalize hp : P[i] = p at *
  generalize hq : P[i + 1] = q at *
  have e1 : Real.sin ((p - q) / 2) = -Real.sin ((q - p) / 2) := by rw [← Real.sin_neg]; congr 1; ring
  have e2 : Real.sin ((p + q) / 2) ^ 2 + Real.cos ((p + q) / 2) ^ 2 * Real.cos d ^ 2
      = 1 - Real.cos ((p + q) / 2) ^ 2 * Real.sin d ^ 2 := by
    have u := Real.sin_sq_add_cos_sq ((p + q) / 2)
    have u' := Real.sin_sq_add_cos_sq d
    linear_combination u + Real.cos ((p + q) / 2) ^ 2 * u'
  rw [e1, e2]
  have r1 : Real.sqrt (1 - Real.cos ((p + q) / 2) ^ 2 * Real.sin d ^ 2) ≤ 1 := by
    have : 0 ≤ Real.cos ((p + q) / 2) ^ 2 * Real.sin d ^ 2 := by positivity
    rw [Real.sqrt_le_left zero_le_one]
    linarith
  have r0 := Real.sqrt_nonneg (1 - Real.cos ((p + q) / 2) ^ 2 * Real.sin d ^ 2)
  generalize Real.sqrt (1 - Real.cos ((p + q) / 2) ^ 2 * Real.sin d ^ 2) = Q at *
  have c1 := Real.cos_le_one ((q - p) / 2)
  have lt := Real.sin_lt s1
  constructor
  · have a1 : Real.cos ((q - p) / 2) * Q ≤ 1 := mul_le_one₀ c1 r0 r1
    have a2 : 0 < 4 * Real.sin ((q - p) / 2) * Real.sin ((p + q) / 2) := by positivity
    have a3 : Real.sin d * (Real.cos ((q - p) / 2) * Q) < d := by
      calc Real.sin d * (Real.cos ((q - p) / 2) * Q) ≤ Real.sin d * 1 := mul_le_mul_of_nonneg_left a1 sd
        _ < d := by linarith
    have := mul_lt_mul_of_pos_left a3 a2
    linarith
  · field_simp
    ring

/-- **C93.** The facets of a full-sphere grid with at least two meridians balance: their areas times their normals add up to zero,
so that the same area is visible from opposite directions. -/
theorem C93_opposite (n k : ℕ) (hn : 2 ≤ n) (hk : 3 ≤ k) (g : Geom) (h : Geom.init (.int n) (.int k) = .ok g) (d : ℝ × ℝ × ℝ)
    (hd : d ≠ 0) : sum2 (map2 (· * ·) g.areas (g.projFrac d)) = sum2 (map2 (· * ·) g.areas (g.projFrac (-d))) := by
  have _ := hd
  obtain ⟨q, rfl⟩ : ∃ q, n = q + 1 := ⟨n - 1, by omega⟩
  obtain ⟨N, rfl⟩ : ∃ N, k = N + 1 := ⟨k - 1, by omega⟩
  rw [Maps.full_grid hn (by omega) h, areas_eq, projFrac_eq, projFrac_eq, map2_grid, map2_grid, Rotation.sum2_full,
    Rotation.sum2_full, ← sub_eq_zero, ← Finset.sum_sub_distrib]
  have e : ‖vec (-d)‖ = ‖vec d‖ := by
    have : vec (-d) = -vec d := by ext i; fin_cases i <;> simp [vec]
    rw [this, norm_neg]
  have hx : ∀ u : ℝ, max 0 u - max 0 (-u) = u := by
    intro u
    rcases le_total u 0 with hu | hu
    · rw [max_eq_left hu, max_eq_right (by linarith)]; ring
    · rw [max_eq_right hu, max_eq_left (by linarith)]; ring
  have hin : ∀ j ∈ Finset.range N, (∑ i ∈ Finset.range q, (Real.cos ((i : ℝ) * (Real.pi / q)) - Real.cos (((i : ℝ) + 1) * (Real.pi / q)))
        * (((j : ℝ) + 1) * (2 * Real.pi / N) - (j : ℝ) * (2 * Real.pi / N))
        * max 0 (dot3 d (rectFromSpherical 1 (mid ((i : ℝ) * (Real.pi / q), ((i : ℝ) + 1) * (Real.pi / q)))
          (mid ((j : ℝ) * (2 * Real.pi / N), ((j : ℝ) + 1) * (2 * Real.pi / N)))) / ‖vec d‖))
      - (∑ i ∈ Finset.range q, (Real.cos ((i : ℝ) * (Real.pi / q)) - Real.cos (((i : ℝ) + 1) * (Real.pi / q)))
        * (((j : ℝ) + 1) * (2 * Real.pi / N) - (j : ℝ) * (2 * Real.pi / N))
        * max 0 (dot3 (-d) (rectFromSpherical 1 (mid ((i : ℝ) * (Real.pi / q), ((i : ℝ) + 1) * (Real.pi / q)))
          (mid ((j : ℝ) * (2 * Real.pi / N), ((j : ℝ) + 1) * (2 * Real.pi / N)))) / ‖vec (-d)‖))
      = 2 * Real.pi / N / ‖vec d‖ * (∑ i ∈ Finset.range q, (Real.cos ((i : ℝ) * (Real.pi / q)) - Real.cos (((i : ℝ) + 1) * (Real.pi / q)))
        * Real.sin (Riemann.node Real.pi q i)) * (d.1 * Real.cos (Riemann.node (2 * Real.pi) N j) + d.2.1 * Real.sin (Riemann.node (2 * Real.pi) N j)) := by
    intro j _
    rw [← Finset.sum_sub_distrib]
    have t : ∀ i ∈ Finset.range q, (Real.cos ((i : ℝ) * (Real.pi / q)) - Real.cos (((i : ℝ) + 1) * (Real.pi / q)))
        * (((j : ℝ) + 1) * (2 * Real.pi / N) - (j : ℝ) * (2 * Real.pi / N))
        * max 0 (dot3 d (rectFromSpherical 1 (mid ((i : ℝ) * (Real.pi / q), ((i : ℝ) + 1) * (Real.pi / q)))
          (mid ((j : ℝ) * (2 * Real.pi / N), ((j : ℝ) + 1) * (2 * Real.pi / N)))) / ‖vec d‖)
      - (Real.cos ((i : ℝ) * (Real.pi / q)) - Real.cos (((i : ℝ) + 1) * (Real.pi / q)))
        * (((j : ℝ) + 1) * (2 * Real.pi / N) - (j : ℝ) * (2 * Real.pi / N))
        * max 0 (dot3 (-d) (rectFromSpherical 1 (mid ((i : ℝ) * (Real.pi / q), ((i : ℝ) + 1) * (Real.pi / q)))
          (mid ((j : ℝ) * (2 * Real.pi / N), ((j : ℝ) + 1) * (2 * Real.pi / N)))) / ‖vec (-d)‖)
      = 2 * Real.pi / N / ‖vec d‖ * (d.1 * Real.cos (Riemann.node (2 * Real.pi) N j) + d.2.1 * Real.sin (Riemann.node (2 * Real.pi) N j))
          * ((Real.cos ((i : ℝ) * (Real.pi / q)) - Real.cos (((i : ℝ) + 1) * (Real.pi / q))) * Real.sin (Riemann.node Real.pi q i))
        + 2 * Real.pi / N / ‖vec d‖ * d.2.2
          * ((Real.cos ((i : ℝ) * (Real.pi / q)) - Real.cos (((i : ℝ) + 1) * (Real.pi / q))) * Real.cos (Riemann.node Real.pi q i)) := by
      intro i _
      rw [e, Rotation.mid_step, Rotation.mid_step]
      have n1 : dot3 (-d) (rectFromSpherical 1 (Riemann.node Real.pi q i) (Riemann.node (2 * Real.pi) N j)) / ‖vec d‖
          = -(dot3 d (rectFromSpherical 1 (Riemann.node Real.pi q i) (Riemann.node (2 * Real.pi) N j)) / ‖vec d‖) := by
        simp only [dot3, Prod.fst_neg, Prod.snd_neg]
        ring
      rw [n1, ← mul_sub, hx]
      simp only [dot3, rectFromSpherical]
      ring
    rw [Finset.sum_congr rfl t, Finset.sum_add_distrib, ← Finset.mul_sum, ← Finset.mul_sum, sum_polar (by omega)]
    ring
  rw [Finset.sum_congr rfl hin, ← Finset.mul_sum, Finset.sum_add_distrib, ← Finset.mul_sum, ← Finset.mul_sum,
    (sum_cos_nodes (by omega)).1, (sum_cos_nodes (by omega)).2]
  ring

/-- **C93.** With two azimuthal corners there is one column of facets, facing one way: nothing is visible from the other side. -/
theorem C93_lopsided (n : ℕ) (hn : 2 ≤ n) (g : Geom) (h : Geom.init (.int n) (.int 2) = .ok g) :
    sum2 (map2 (· * ·) g.areas (g.projFrac (1, 0, 0))) = 0 ∧ 0 < sum2 (map2 (· * ·) g.areas (g.projFrac (-1, 0, 0))) := by
  obtain ⟨q, rfl⟩ : ∃ q, n = q + 1 := ⟨n - 1, by omega⟩
  have hq : (0 : ℝ) < q := by exact_mod_cast (show 0 < q by omega)
  have hg := Maps.full_grid hn (le_refl 2) (by exact_mod_cast h)
  have v1 : ‖vec (1, 0, 0)‖ = 1 := by rw [norm_vec]; norm_num
  have v2 : ‖vec (-1, 0, 0)‖ = 1 := by rw [norm_vec]; norm_num
  have nd : Riemann.node (2 * Real.pi) 1 0 = Real.pi := by rw [Riemann.node]; norm_num; ring
  have np : ∀ i ∈ Finset.range q, 0 < Real.sin (Riemann.node Real.pi q i) := by
    intro i hi
    have hi' : (i : ℝ) + 1 ≤ q := by exact_mod_cast Finset.mem_range.1 hi
    have hpi := Real.pi_pos
    rw [Riemann.node]
    refine Real.sin_pos_of_pos_of_lt_pi (by positivity) ?_
    rw [mul_div_assoc', div_lt_iff₀ hq]
    nlinarith
  have ar : ∀ i ∈ Finset.range q, 0 < Real.cos ((i : ℝ) * (Real.pi / q)) - Real.cos (((i : ℝ) + 1) * (Real.pi / q)) := by
    intro i hi
    have hi' : (i : ℝ) + 1 ≤ q := by exact_mod_cast Finset.mem_range.1 hi
    have hpi := Real.pi_pos
    have : 0 < Real.pi / q := by positivity
    have := Real.cos_lt_cos_of_nonneg_of_le_pi (x := (i : ℝ) * (Real.pi / q)) (y := ((i : ℝ) + 1) * (Real.pi / q)) (by positivity)
      (by rw [mul_div_assoc', div_le_iff₀ hq]; nlinarith) (by nlinarith)
    linarith
  rw [hg, areas_eq, projFrac_eq, projFrac_eq, map2_grid, map2_grid, show (2 : ℕ) = 1 + 1 from rfl, Rotation.sum2_full,
    Rotation.sum2_full, Finset.sum_range_one, Finset.sum_range_one, v1, v2]
  simp only [Rotation.mid_step, nd, dot3, rectFromSpherical, Real.cos_pi, Real.sin_pi]
  constructor
  · refine Finset.sum_eq_zero fun i hi => ?_
    rw [max_eq_left (by have := np i hi; linarith), mul_zero]
  · refine Finset.sum_pos (fun i hi => ?_) ⟨0, Finset.mem_range.2 (by omega)⟩
    rw [max_eq_right (by have := np i hi; linarith)]
    have := np i hi
    have a := ar i hi
    have hpi := Real.pi_pos
    have e : ((((0 : ℕ) : ℝ) + 1) * (2 * Real.pi / ((1 : ℕ) : ℝ)) - ((0 : ℕ) : ℝ) * (2 * Real.pi / ((1 : ℕ) : ℝ))) = 2 * Real.pi := by
      push_cast; ring
    rw [e]
    refine mul_pos (mul_pos a (by positivity)) (by linarith)

/-- A case meeting the hypotheses of `C93_normals` and `C93_areas`: facet 0, 1 of a grid of two by two facets. -/
example : ∃ P A g, Geom.init (.arr P) (.arr A) = .ok g ∧ Increasing P ∧ Increasing A ∧ (∀ p ∈ P, 0 ≤ p ∧ p ≤ Real.pi) ∧
    0 + 1 < P.length ∧ 1 + 1 < A.length := by
  obtain ⟨g, _, _, _, _, P, A, h, lP, lA, iP, iA, eP, eA⟩ := C46_full_sphere 3 3 (by omega) (by omega)
  refine ⟨P, A, g, h, iP, iA, fun p hp => ?_, by omega, by omega⟩
  obtain ⟨i, hi, rfl⟩ := List.mem_iff_getElem.1 hp
  rw [eP i hi]
  have hpi := Real.pi_pos
  have : (i : ℝ) ≤ 2 := by exact_mod_cast (show i ≤ 2 by omega)
  constructor
  · norm_num; positivity
  · norm_num; nlinarith

end Verif
