import Verif.Props.Longitudinal
import Verif.Lemmas.Riemann

/-!
# The longitudinal field from equidistant azimuths
-/

namespace Verif
open Geometry Spec

namespace Rotation
open Zdi Riemann

theorem sum_range_list (n : ℕ) (f : ℕ → ℝ) : ((List.range n).map f).sum = ∑ i ∈ Finset.range n, f i := by
  induction n with
  | zero => simp
  | succ n ih => rw [List.range_succ, Finset.sum_range_succ, List.map_append, List.sum_append, ih]; simp

/-- The facets of an equidistant grid. -/
theorem steps_lin (b : ℝ) (N : ℕ) :
    steps (lin b (N + 1)) = (List.range N).map fun (j : ℕ) => ((j : ℝ) * (b / N), ((j : ℝ) + 1) * (b / N)) := by
  apply List.ext_getElem?
  intro i
  by_cases h : i < N
  · rw [steps_get _ i (by rw [lin_length]; omega), List.getElem?_map, List.getElem?_range h]
    simp [lin_get]
  · rw [List.getElem?_eq_none (by simp [steps, lin_length]; omega), List.getElem?_eq_none (by simp; omega)]

theorem mid_step (b : ℝ) (N j : ℕ) : mid ((j : ℝ) * (b / N), ((j : ℝ) + 1) * (b / N)) = node b N j := by
  rw [mid, node]; ring

/-- A sum over the facets of a full-sphere grid. -/
theorem sum2_full (q N : ℕ) (f : ℝ × ℝ → ℝ × ℝ → ℝ) : sum2 (grid (lin Real.pi (q + 1)) (lin (2 * Real.pi) (N + 1)) f)
    = ∑ j ∈ Finset.range N, ∑ i ∈ Finset.range q, f ((i : ℝ) * (Real.pi / q), ((i : ℝ) + 1) * (Real.pi / q))
        ((j : ℝ) * (2 * Real.pi / N), ((j : ℝ) + 1) * (2 * Real.pi / N)) := by
  rw [sum2_grid, steps_lin, steps_lin, List.map_map, sum_range_list]
  refine Finset.sum_congr rfl fun j _ => ?_
  simp only [Function.comp, List.map_map, sum_range_list]

/-- Over a full period it does not matter where a sum begins. -/
theorem sum_shift {N : ℕ} {h : ℤ → ℝ} (hp : ∀ x, h (x + N) = h x) (c : ℤ) :
    ∑ i ∈ Finset.range N, h (c + i) = ∑ i ∈ Finset.range N, h i := by
  have step : ∀ c : ℤ, ∑ i ∈ Finset.range N, h (c + 1 + i) = ∑ i ∈ Finset.range N, h (c + i) := by
    intro c
    have e1 := Finset.sum_range_succ (fun i : ℕ => h (c + i)) N
    have e2 := Finset.sum_range_succ' (fun i : ℕ => h (c + i)) N
    rw [e1] at e2
    have e3 : h (c + (0 : ℕ)) = h (c + N) := by rw [hp]; simp
    rw [e3] at e2
    have e4 : ∀ i : ℕ, h (c + ((i + 1 : ℕ) : ℤ)) = h (c + 1 + i) := by
      intro i
      congr 1
      push_cast
      ring
    simp only [e4] at e2
    linarith
  induction c with
  | zero => simp
  | succ c ih => rw [step, ih]
  | pred c ih =>
    rw [← ih, ← step]
    simp

theorem sum_reflect {N : ℕ} {h : ℤ → ℝ} (hp : ∀ x, h (x + N) = h x) (c : ℤ) :
    ∑ i ∈ Finset.range N, h (c - i) = ∑ i ∈ Finset.range N, h i := by
  rw [← Finset.sum_range_reflect, ← sum_shift hp (c - N + 1)]
  refine Finset.sum_congr rfl fun i hi => ?_
  have := Finset.mem_range.1 hi
  congr 1
  omega

/-- Equidistant azimuths annihilate all orders that are not multiples of their number. -/
theorem sum_expi_zero {N : ℕ} {m : ℤ} (h : ¬ (N : ℤ) ∣ m) : ∑ j ∈ Finset.range N, expi m (node (2 * Real.pi) N j) = 0 := by
  rcases Nat.eq_zero_or_pos N with rfl | hN
  · simp
  have hN0 : (N : ℂ) ≠ 0 := by exact_mod_cast hN.ne'
  set w : ℂ := Complex.exp (Complex.I * m * (2 * Real.pi / N)) with hw
  have e : ∀ i, expi m (node (2 * Real.pi) N i) = Complex.exp (Complex.I * m * (Real.pi / N)) * w ^ i := by
    intro i
    rw [hw, ← Complex.exp_nat_mul, ← Complex.exp_add, expi, node]
    congr 1
    push_cast
    ring
  simp only [e]
  rw [← Finset.mul_sum]
  have hwk : w ^ N = 1 := by
    rw [hw, ← Complex.exp_nat_mul, ← Complex.exp_int_mul_two_pi_mul_I m]
    congr 1
    field_simp
  have hw1 : w ≠ 1 := by
    intro h1
    rw [hw, Complex.exp_eq_one_iff] at h1
    obtain ⟨n, hn⟩ := h1
    have hpi : (Real.pi : ℂ) ≠ 0 := by exact_mod_cast Real.pi_ne_zero
    have h2 : (m : ℂ) = n * N := by
      have h3 : (2 * Real.pi * Complex.I : ℂ) ≠ 0 := by simp [hpi]
      apply mul_left_cancel₀ h3
      field_simp at hn
      linear_combination 2 * Real.pi * Complex.I * hn
    exact h ⟨n, by rw [mul_comm]; exact_mod_cast h2⟩
  rw [geom_sum_eq hw1, hwk, sub_self, zero_div, mul_zero]

theorem sum_harm {N : ℕ} (w : ZRow → ℂ) (p : ℕ → ℕ → ℝ → ℝ) (z : Zdi) (θ : ℝ) :
    ∑ j ∈ Finset.range N, harm w p z θ (node (2 * Real.pi) N j)
      = ∑ j ∈ Finset.range N, harm w p (z.filter fun r => decide ((N : ℤ) ∣ r.m)) θ (node (2 * Real.pi) N j) := by
  induction z with
  | nil => simp
  | cons r z ih =>
    have e : ∀ φ, harm w p (r :: z) θ φ = w r * (p r.l.toNat r.m.toNat θ : ℝ) * expi r.m φ + harm w p z θ φ := by
      intro φ; simp [harm]
    simp only [e, Finset.sum_add_distrib, ih]
    by_cases h : (N : ℤ) ∣ r.m
    · rw [List.filter_cons_of_pos (by simpa using h)]
      have e' : ∀ φ, harm w p (r :: z.filter fun r => decide ((N : ℤ) ∣ r.m)) θ φ
          = w r * (p r.l.toNat r.m.toNat θ : ℝ) * expi r.m φ + harm w p (z.filter fun r => decide ((N : ℤ) ∣ r.m)) θ φ := by
        intro φ; simp [harm]
      simp only [e', Finset.sum_add_distrib]
    · rw [List.filter_cons_of_neg (by simpa using h), ← Finset.mul_sum, sum_expi_zero h]
      simp

/-! ### The geometry -/

/-- Components of the observer's direction along the radial, polar and azimuthal unit vectors at polar angle `t` and an azimuth
`δ` ahead of the observer's. -/
noncomputable def kr (θ t δ : ℝ) : ℝ := Real.sin t * Real.sin θ * Real.cos δ + Real.cos t * Real.cos θ
noncomputable def kp (θ t δ : ℝ) : ℝ := Real.cos t * Real.sin θ * Real.cos δ - Real.sin t * Real.cos θ
noncomputable def ka (θ δ : ℝ) : ℝ := -(Real.sin θ * Real.sin δ)

theorem dot_dir (θ φ t ψ : ℝ) : dot3 (rectFromSpherical 1 θ φ) (rectFromSpherical 1 t ψ) = kr θ t (ψ - φ) := by
  simp only [dot3, rectFromSpherical, kr, Real.cos_sub]; ring

theorem dot_field (θ φ t ψ fr fp fa : ℝ) :
    dot3 (toCartesian t ψ fr fp fa 0, toCartesian t ψ fr fp fa 1, toCartesian t ψ fr fp fa 2) (rectFromSpherical 1 θ φ)
      = fr * kr θ t (ψ - φ) + fp * kp θ t (ψ - φ) + fa * ka θ (ψ - φ) := by
  simp [dot3, rectFromSpherical, kr, kp, ka, Real.cos_sub, Real.sin_sub, toCartesian, sphToRectMatrix, Matrix.mulVec,
    dotProduct, Fin.sum_univ_three]
  ring

theorem norm_dir (θ φ : ℝ) : ‖vec (rectFromSpherical 1 θ φ)‖ = 1 := by
  rw [norm_vec, Real.sqrt_eq_one]
  simp only [rectFromSpherical]
  have a := Real.sin_sq_add_cos_sq θ
  have b := Real.sin_sq_add_cos_sq φ
  linear_combination Real.sin θ ^ 2 * b + a

/-- Weight of a facet of band `i`. -/
noncomputable def wt (q N i : ℕ) (θ δ : ℝ) : ℝ :=
  (Real.cos ((i : ℝ) * (Real.pi / q)) - Real.cos (((i : ℝ) + 1) * (Real.pi / q))) * (2 * Real.pi / N)
    * max 0 (kr θ (node Real.pi q i) δ)

/-- Azimuth of a facet from an observer at an equidistant azimuth. -/
noncomputable def off (N : ℕ) (x : ℤ) : ℝ := ((x : ℝ) + 1 / 2) * (2 * Real.pi / N)

theorem off_eq (N j i : ℕ) : node (2 * Real.pi) N j - (i : ℝ) * (2 * Real.pi / N) = off N ((j : ℤ) - i) := by
  rw [node, off]; push_cast; ring

theorem off_period {N : ℕ} (hN : N ≠ 0) (x : ℤ) : off N (x + N) = off N x + 2 * Real.pi := by
  have : (N : ℝ) ≠ 0 := by exact_mod_cast hN
  rw [off, off]; push_cast; field_simp; ring

theorem kr_off {N : ℕ} (hN : N ≠ 0) (θ t : ℝ) (x : ℤ) : kr θ t (off N (x + N)) = kr θ t (off N x) := by
  rw [off_period hN, kr, kr, Real.cos_add_two_pi]

theorem kp_off {N : ℕ} (hN : N ≠ 0) (θ t : ℝ) (x : ℤ) : kp θ t (off N (x + N)) = kp θ t (off N x) := by
  rw [off_period hN, kp, kp, Real.cos_add_two_pi]

theorem ka_off {N : ℕ} (hN : N ≠ 0) (θ : ℝ) (x : ℤ) : ka θ (off N (x + N)) = ka θ (off N x) := by
  rw [off_period hN, ka, ka, Real.sin_add_two_pi]

theorem wt_off {N : ℕ} (hN : N ≠ 0) (q i : ℕ) (θ : ℝ) (x : ℤ) : wt q N i θ (off N (x + N)) = wt q N i θ (off N x) := by
  rw [wt, wt, kr_off hN]

/-- The field in cartesian components at the facets. -/
noncomputable def cartF (br bp ba : ℝ → ℝ → ℝ) (p a : ℝ × ℝ) : ℝ × ℝ × ℝ :=
  let v := toCartesian (mid p) (mid a) (br (mid p) (mid a)) (bp (mid p) (mid a)) (ba (mid p) (mid a))
  (v 0, v 1, v 2)

/-- The longitudinal field from an equidistant azimuth. -/
theorem long_eq (q N : ℕ) (θ : ℝ) (br bp ba : ℝ → ℝ → ℝ) (k : ℕ) :
    longitudinal (meshgrid (lin Real.pi (q + 1)) (lin (2 * Real.pi) (N + 1)))
        (grid (lin Real.pi (q + 1)) (lin (2 * Real.pi) (N + 1)) (cartF br bp ba)) θ ((k : ℝ) * (2 * Real.pi / N))
      = (∑ j ∈ Finset.range N, ∑ i ∈ Finset.range q,
          (br (node Real.pi q i) (node (2 * Real.pi) N j) * kr θ (node Real.pi q i) (off N ((j : ℤ) - k))
            + bp (node Real.pi q i) (node (2 * Real.pi) N j) * kp θ (node Real.pi q i) (off N ((j : ℤ) - k))
            + ba (node Real.pi q i) (node (2 * Real.pi) N j) * ka θ (off N ((j : ℤ) - k)))
          * wt q N i θ (off N ((j : ℤ) - k)))
        / ∑ j ∈ Finset.range N, ∑ i ∈ Finset.range q, wt q N i θ (off N ((j : ℤ) - k)) := by
  have hw : ∀ i j : ℕ, weight (rectFromSpherical 1 θ ((k : ℝ) * (2 * Real.pi / N)))
      ((i : ℝ) * (Real.pi / q), ((i : ℝ) + 1) * (Real.pi / q)) ((j : ℝ) * (2 * Real.pi / N), ((j : ℝ) + 1) * (2 * Real.pi / N))
      = wt q N i θ (off N ((j : ℤ) - k)) := by
    intro i j
    rw [weight, norm_dir, div_one, mid_step, mid_step, dot_dir, off_eq, wt]
    ring
  rw [longitudinal_eq, sum2_full, sum2_full]
  simp only [hw]
  congr 1
  refine Finset.sum_congr rfl fun j _ => Finset.sum_congr rfl fun i _ => ?_
  rw [cartF]
  simp only [mid_step]
  rw [dot_field, off_eq]

/-- The visible area is the same from all equidistant azimuths. -/
theorem area_const {q N : ℕ} (hN : N ≠ 0) (θ : ℝ) (k : ℕ) :
    ∑ j ∈ Finset.range N, ∑ i ∈ Finset.range q, wt q N i θ (off N ((j : ℤ) - k))
      = ∑ j ∈ Finset.range N, ∑ i ∈ Finset.range q, wt q N i θ (off N (j : ℤ)) := by
  rw [← sum_shift (h := fun x => ∑ i ∈ Finset.range q, wt q N i θ (off N x)) (fun x => by simp only [wt_off hN]) (-(k : ℤ))]
  refine Finset.sum_congr rfl fun j _ => ?_
  rw [show (j : ℤ) - k = -(k : ℤ) + j by ring]

/-- The sum over a rotation, as a sum over the bands of their azimuthal sums. -/
theorem rotation_sum {q N : ℕ} (hN : N ≠ 0) (θ : ℝ) : ∃ cr cp ca : ℕ → ℝ, ∀ br bp ba : ℝ → ℝ → ℝ,
    ∑ k ∈ Finset.range N, longitudinal (meshgrid (lin Real.pi (q + 1)) (lin (2 * Real.pi) (N + 1)))
        (grid (lin Real.pi (q + 1)) (lin (2 * Real.pi) (N + 1)) (cartF br bp ba)) θ ((k : ℝ) * (2 * Real.pi / N))
      = ∑ i ∈ Finset.range q, (cr i * ∑ j ∈ Finset.range N, br (node Real.pi q i) (node (2 * Real.pi) N j)
          + cp i * ∑ j ∈ Finset.range N, bp (node Real.pi q i) (node (2 * Real.pi) N j)
          + ca i * ∑ j ∈ Finset.range N, ba (node Real.pi q i) (node (2 * Real.pi) N j)) := by
  set D := ∑ j ∈ Finset.range N, ∑ i ∈ Finset.range q, wt q N i θ (off N (j : ℤ)) with hD
  refine ⟨fun i => (∑ x ∈ Finset.range N, kr θ (node Real.pi q i) (off N (x : ℤ)) * wt q N i θ (off N (x : ℤ))) / D,
    fun i => (∑ x ∈ Finset.range N, kp θ (node Real.pi q i) (off N (x : ℤ)) * wt q N i θ (off N (x : ℤ))) / D,
    fun i => (∑ x ∈ Finset.range N, ka θ (off N (x : ℤ)) * wt q N i θ (off N (x : ℤ))) / D, fun br bp ba => ?_⟩
  simp only [long_eq, area_const hN, ← hD]
  rw [← Finset.sum_div]
  have e : ∀ i, ((∑ x ∈ Finset.range N, kr θ (node Real.pi q i) (off N (x : ℤ)) * wt q N i θ (off N (x : ℤ))) / D
        * ∑ j ∈ Finset.range N, br (node Real.pi q i) (node (2 * Real.pi) N j)
      + (∑ x ∈ Finset.range N, kp θ (node Real.pi q i) (off N (x : ℤ)) * wt q N i θ (off N (x : ℤ))) / D
        * ∑ j ∈ Finset.range N, bp (node Real.pi q i) (node (2 * Real.pi) N j)
      + (∑ x ∈ Finset.range N, ka θ (off N (x : ℤ)) * wt q N i θ (off N (x : ℤ))) / D
        * ∑ j ∈ Finset.range N, ba (node Real.pi q i) (node (2 * Real.pi) N j))
      = (∑ j ∈ Finset.range N, ∑ k ∈ Finset.range N,
          (br (node Real.pi q i) (node (2 * Real.pi) N j) * kr θ (node Real.pi q i) (off N ((j : ℤ) - k))
            + bp (node Real.pi q i) (node (2 * Real.pi) N j) * kp θ (node Real.pi q i) (off N ((j : ℤ) - k))
            + ba (node Real.pi q i) (node (2 * Real.pi) N j) * ka θ (off N ((j : ℤ) - k)))
          * wt q N i θ (off N ((j : ℤ) - k))) / D := by
    intro i
    have f1 : ∀ j : ℕ, ∑ k ∈ Finset.range N,
        kr θ (node Real.pi q i) (off N ((j : ℤ) - k)) * wt q N i θ (off N ((j : ℤ) - k))
        = ∑ x ∈ Finset.range N, kr θ (node Real.pi q i) (off N (x : ℤ)) * wt q N i θ (off N (x : ℤ)) := fun j =>
      sum_reflect (h := fun x => kr θ (node Real.pi q i) (off N x) * wt q N i θ (off N x))
        (fun x => by simp only [wt_off hN, kr_off hN]) j
    have f2 : ∀ j : ℕ, ∑ k ∈ Finset.range N,
        kp θ (node Real.pi q i) (off N ((j : ℤ) - k)) * wt q N i θ (off N ((j : ℤ) - k))
        = ∑ x ∈ Finset.range N, kp θ (node Real.pi q i) (off N (x : ℤ)) * wt q N i θ (off N (x : ℤ)) := fun j =>
      sum_reflect (h := fun x => kp θ (node Real.pi q i) (off N x) * wt q N i θ (off N x))
        (fun x => by simp only [wt_off hN, kp_off hN]) j
    have f3 : ∀ j : ℕ, ∑ k ∈ Finset.range N, ka θ (off N ((j : ℤ) - k)) * wt q N i θ (off N ((j : ℤ) - k))
        = ∑ x ∈ Finset.range N, ka θ (off N (x : ℤ)) * wt q N i θ (off N (x : ℤ)) := fun j =>
      sum_reflect (h := fun x => ka θ (off N x) * wt q N i θ (off N x)) (fun x => by simp only [wt_off hN, ka_off hN]) j
    simp only [add_mul, mul_assoc, Finset.sum_add_distrib]
    simp only [← Finset.mul_sum, f1, f2, f3, ← Finset.sum_mul]
    ring
  simp only [e]
  rw [← Finset.sum_div]
  congr 1
  rw [Finset.sum_comm, Finset.sum_comm (s := Finset.range q)]
  refine Finset.sum_congr rfl fun j _ => ?_
  rw [Finset.sum_comm]

/-- A field that does not depend on azimuth looks the same from all equidistant azimuths. -/
theorem axisymmetric_const {q N : ℕ} (hN : N ≠ 0) (θ : ℝ) (br bp ba : ℝ → ℝ) (k : ℕ) :
    longitudinal (meshgrid (lin Real.pi (q + 1)) (lin (2 * Real.pi) (N + 1)))
        (grid (lin Real.pi (q + 1)) (lin (2 * Real.pi) (N + 1)) (cartF (fun t _ => br t) (fun t _ => bp t) fun t _ => ba t))
        θ ((k : ℝ) * (2 * Real.pi / N))
      = longitudinal (meshgrid (lin Real.pi (q + 1)) (lin (2 * Real.pi) (N + 1)))
        (grid (lin Real.pi (q + 1)) (lin (2 * Real.pi) (N + 1)) (cartF (fun t _ => br t) (fun t _ => bp t) fun t _ => ba t))
        θ 0 := by
  have h0 := long_eq q N θ (fun t _ => br t) (fun t _ => bp t) (fun t _ => ba t) 0
  rw [Nat.cast_zero, zero_mul] at h0
  rw [h0, long_eq, area_const hN, area_const hN]
  congr 1
  set h : ℤ → ℝ := fun x => ∑ i ∈ Finset.range q,
    (br (node Real.pi q i) * kr θ (node Real.pi q i) (off N x) + bp (node Real.pi q i) * kp θ (node Real.pi q i) (off N x)
      + ba (node Real.pi q i) * ka θ (off N x)) * wt q N i θ (off N x) with hh
  have hp : ∀ x, h (x + N) = h x := by
    intro x
    simp only [hh, wt_off hN, kr_off hN, kp_off hN, ka_off hN]
  have e : ∀ k : ℕ, ∑ j ∈ Finset.range N, h ((j : ℤ) - k) = ∑ j ∈ Finset.range N, h (j : ℤ) := by
    intro k
    rw [← sum_shift hp (-(k : ℤ))]
    refine Finset.sum_congr rfl fun j _ => ?_
    rw [show (j : ℤ) - k = -(k : ℤ) + j by ring]
  exact (e k).trans (e 0).symm

end Rotation
end Verif
