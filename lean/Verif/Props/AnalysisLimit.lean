import Verif.Props.Analysis
import Verif.Props.Parseval

/-!
# C67: the analysis recovers the coefficients of a sampled magnetogram in the limit of fine grids
-/

namespace Verif
open Spec Geometry Image Coefs Legendre Zdi Parseval Riemann Analysis Filter Topology intervalIntegral

namespace Spec

/-- The total of a coefficient over the rows of one pair (the fields add repeated rows). -/
noncomputable def coefAt (z : Zdi) (f : ZRow → ℂ) (l m : ℤ) : ℂ :=
  (z.map fun r => if r.l = l ∧ r.m = m then f r else 0).sum

/-- The part of a coefficient that is visible in the field: the real part for order 0. -/
noncomputable def visible (m : ℤ) (x : ℂ) : ℂ := if m = 0 then (x.re : ℂ) else x

end Spec

namespace Analysis

/-- Evaluate the magnetogram on a full-sphere grid of `N` by `K` facets and analyse the result. -/
noncomputable def resample (z : Zdi) (N K : ℕ) (L : ℤ) : Res (Coefs ℂ) := do
  let g ← Geom.init (.int (N + 1)) (.int (K + 1))
  let fr ← evalAt g (fun θ φ => .ok (radial z θ φ))
  let fp ← evalAt g (polar z)
  let fa ← evalAt g (azimuthal z)
  latlonCoeffs g.centers.1 g.centers.2 fr fp fa none L

/-- ... and make a magnetogram of it. -/
noncomputable def resampleZdi (z : Zdi) (N K : ℕ) (L : ℤ) : Res Zdi := do
  let s ← resample z N K L
  Zdi.fromCoefficients s

theorem lin_mid (b : ℝ) (n i : ℕ) (hi : i < n) :
    mid ((lin b (n + 1)).getD i 0, (lin b (n + 1)).getD (i + 1) 0) = node b n i := by
  have h1 : i < (lin b (n + 1)).length := by rw [lin_length]; omega
  have h2 : i + 1 < (lin b (n + 1)).length := by rw [lin_length]; omega
  rw [List.getD_eq_getElem?_getD, List.getD_eq_getElem?_getD, List.getElem?_eq_getElem h1, List.getElem?_eq_getElem h2]
  simp only [Option.getD_some, lin_get, mid, node]
  push_cast
  rw [add_sub_cancel_right]
  ring

theorem centers_lin (N K : ℕ) : (meshgrid (lin Real.pi (N + 1)) (lin (2 * Real.pi) (K + 1))).centers
    = (arrOf K N fun _ i => node Real.pi N i, arrOf K N fun j _ => node (2 * Real.pi) K j) := by
  rw [centers_eq, grid_mk, grid_mk, lin_length, lin_length]
  simp only [Nat.add_sub_cancel]
  rw [mk_congr fun j _ i hi => lin_mid Real.pi N i hi, mk_congr fun j hj i _ => lin_mid (2 * Real.pi) K j hj]

theorem evalAt_ok {N K : ℕ} {g : Geom} {θ φ : ℕ → ℕ → ℝ} (hc : g.centers = (arrOf K N θ, arrOf K N φ)) (f : ℝ → ℝ → Res ℝ)
    (v : ℝ → ℝ → ℝ) (h : ∀ j < K, ∀ i < N, f (θ j i) (φ j i) = .ok (v (θ j i) (φ j i))) :
    evalAt g f = .ok (arrOf K N fun j i => v (θ j i) (φ j i)) := by
  rw [evalAt, hc, map2_mk]
  have : (arrOf K N fun j i => v (θ j i) (φ j i))
      = (arrOf K N fun j i => (θ j i, φ j i)).map fun row => row.map fun c => v c.1 c.2 := by
    simp [arrOf, Function.comp_def]
  rw [this]
  apply mapM_pure_ok
  intro r hr
  obtain ⟨j, hj, rfl⟩ := List.mem_map.1 hr
  apply mapM_pure_ok
  intro c hc
  obtain ⟨i, hi, rfl⟩ := List.mem_map.1 hc
  exact h j (List.mem_range.1 hj) i (List.mem_range.1 hi)

theorem cInit_arrOf {α : Type} (n k : ℕ) (f : ℕ → ℕ → α) : cInit (arrOf n (k + 1) f) = arrOf n k f := by
  rw [cInit, arrOf, List.map_map, arrOf]
  refine List.map_congr_left fun j _ => ?_
  simp [List.range_succ]

theorem cTail_arrOf {α : Type} (n k : ℕ) (f : ℕ → ℕ → α) : cTail (arrOf n (k + 1) f) = arrOf n k fun j i => f j (i + 1) := by
  rw [cTail, arrOf, List.map_map, arrOf]
  refine List.map_congr_left fun j _ => ?_
  simp [List.range_succ_eq_map, Function.comp_def]

theorem rInit_arrOf {α : Type} (n k : ℕ) (f : ℕ → ℕ → α) : rInit (arrOf (n + 1) k f) = arrOf n k f := by
  simp [rInit, arrOf, List.range_succ]

theorem rTail_arrOf {α : Type} (n k : ℕ) (f : ℕ → ℕ → α) : rTail (arrOf (n + 1) k f) = arrOf n k fun j i => f (j + 1) i := by
  simp [rTail, arrOf, List.range_succ_eq_map, Function.comp_def]

theorem mean_const {n k : ℕ} (hn : 0 < n) (hk : 0 < k) (c : ℝ) (f : ℕ → ℕ → ℝ) (h : ∀ j < n, ∀ i < k, f j i = c) :
    mean (arrOf n k f).flatten = c := by
  rw [mk_congr h, mean]
  have h1 : (arrOf n k fun _ _ => c).flatten.sum = n * (k * c) := by
    have := sum_flat n k (fun _ _ => c) (id : ℝ → ℝ)
    rw [List.map_id] at this
    rw [this]; simp
  have h2 : (((arrOf n k fun _ _ => c).flatten.length : ℕ) : ℝ) = n * k := by
    rw [List.length_flatten, arrOf, List.map_map]
    simp [Function.comp_def]
  have hn' : (n : ℝ) ≠ 0 := by positivity
  have hk' : (k : ℝ) ≠ 0 := by positivity
  rw [h1, h2]; field_simp

theorem pseudoArea_lin {N K : ℕ} (hN : 2 ≤ N) (hK : 2 ≤ K) :
    pseudoArea (arrOf K N fun _ i => node Real.pi N i) (arrOf K N fun j _ => node (2 * Real.pi) K j)
      = Real.pi / N * (2 * Real.pi / K) := by
  obtain ⟨n, rfl⟩ : ∃ n, N = n + 1 := ⟨N - 1, by omega⟩
  obtain ⟨k, rfl⟩ : ∃ k, K = k + 1 := ⟨K - 1, by omega⟩
  rw [pseudoArea, cInit_arrOf, cTail_arrOf, rInit_arrOf, rTail_arrOf, map2_mk, map2_mk,
    mean_const (by omega) (by omega) (Real.pi / ((n + 1 : ℕ) : ℝ)),
    mean_const (by omega) (by omega) (2 * Real.pi / ((k + 1 : ℕ) : ℝ))]
  · intro j _ i _; simp only [node]; push_cast; ring
  · intro j _ i _; simp only [node]; push_cast; ring

/-- A coefficient plus, for order 0, its conjugate. -/
noncomputable def dbl (m : ℤ) (x : ℂ) : ℂ := x + if m = 0 then (starRingEnd ℂ) x else 0

theorem dbl_real (m : ℤ) (x : ℂ) (p : ℝ) : dbl m (x * p) = dbl m x * p := by
  rw [dbl, dbl]; split_ifs
  · rw [map_mul, Complex.conj_ofReal]; ring
  · ring

theorem dbl_I (m : ℤ) (x : ℂ) : dbl m (Complex.I * m * x) = Complex.I * m * dbl m x := by
  rw [dbl, dbl]
  by_cases h : m = 0
  · subst h; simp
  · simp [h]

theorem twice_dbl (m : ℤ) (x : ℂ) : twice m * dbl m x = 2 * visible m x := by
  rw [twice, dbl, visible]
  split_ifs
  · rw [Complex.add_conj]; push_cast; ring
  · ring

/-- Rows of order `m` with weights. -/
noncomputable def ordSum (z : Zdi) (m : ℤ) (f : ZRow → ℂ) : ℂ := (z.map fun r => if r.m = m then f r else 0).sum

theorem ordSum_cons (r : ZRow) (z : Zdi) (m : ℤ) (f : ZRow → ℂ) :
    ordSum (r :: z) m f = (if r.m = m then f r else 0) + ordSum z m f := by simp [ordSum]

theorem ordSum_mul (z : Zdi) (m : ℤ) (c : ℂ) (f : ZRow → ℂ) : ordSum z m (fun r => c * f r) = c * ordSum z m f := by
  induction z with
  | nil => simp [ordSum]
  | cons r z ih => rw [ordSum_cons, ordSum_cons, ih]; split_ifs <;> ring

theorem ordSum_add (z : Zdi) (m : ℤ) (f g : ZRow → ℂ) : ordSum z m (fun r => f r + g r) = ordSum z m f + ordSum z m g := by
  induction z with
  | nil => simp [ordSum]
  | cons r z ih => rw [ordSum_cons, ordSum_cons, ordSum_cons, ih]; split_ifs <;> ring

theorem ordSum_congr {z : Zdi} {m : ℤ} {f g : ZRow → ℂ} (h : ∀ r ∈ z, r.m = m → f r = g r) : ordSum z m f = ordSum z m g := by
  rw [ordSum, ordSum]
  refine congrArg List.sum (List.map_congr_left fun r hr => ?_)
  split_ifs with e
  · exact h r hr e
  · rfl

theorem ordSum_sum {ι : Type} (z : Zdi) (m : ℤ) (T : Finset ι) (f : ι → ZRow → ℂ) :
    ∑ i ∈ T, ordSum z m (f i) = ordSum z m fun r => ∑ i ∈ T, f i r := by
  induction z with
  | nil => simp [ordSum]
  | cons r z ih =>
    simp only [ordSum_cons, Finset.sum_add_distrib, ih]
    split_ifs <;> simp

/-- The azimuthal sum of the field. -/
theorem az_sum {K : ℕ} {m : ℤ} (hm : 0 ≤ m) (w : ZRow → ℂ) (p : ℕ → ℕ → ℝ → ℝ) {z : Zdi} (h0 : ∀ r ∈ z, 0 ≤ r.m)
    (hK : ∀ r ∈ z, m + r.m < K) (θ : ℝ) :
    (2 * Real.pi / K : ℂ) * ∑ j ∈ Finset.range K,
        (((harm w p z θ (node (2 * Real.pi) K j)).re : ℝ) : ℂ) * expi (-m) (node (2 * Real.pi) K j)
      = Real.pi * ordSum z m fun r => dbl m (w r) * p r.l.toNat m.toNat θ := by
  induction z with
  | nil => simp [harm, ordSum]
  | cons r z ih =>
    have ih := ih (fun r hr => h0 r (by simp [hr])) (fun r hr => hK r (by simp [hr]))
    have h1 := sum_pair hm (h0 r (by simp)) (hK r (by simp)) (w r * (p r.l.toNat r.m.toNat θ : ℝ))
    have e : ∀ φ, harm w p (r :: z) θ φ = w r * (p r.l.toNat r.m.toNat θ : ℝ) * expi r.m φ + harm w p z θ φ := by
      intro φ; simp [harm]
    simp only [e, Complex.add_re, Complex.ofReal_add, add_mul, Finset.sum_add_distrib, mul_add]
    rw [ih, h1, ordSum_cons]
    by_cases hr : r.m = m
    · rw [if_pos hr, if_pos hr, hr, mul_add (Real.pi : ℂ) _ (ordSum _ _ _), ← dbl_real]; rfl
    · rw [if_neg hr, if_neg hr]; ring

/-- The fields as functions. -/
noncomputable def wa (r : ZRow) : ℂ := r.a * cLm r.l r.m
noncomputable def wu (r : ZRow) : ℂ := r.b * cLm r.l r.m / (r.l + 1)
noncomputable def wv (r : ZRow) : ℂ := r.g * cLm r.l r.m / (r.l + 1)
noncomputable def fR (z : Zdi) (θ φ : ℝ) : ℝ := (harm wa thP z θ φ).re
noncomputable def fP (z : Zdi) (θ φ : ℝ) : ℝ :=
  -(harm wu thD z θ φ).re + (harm (fun r => Complex.I * r.m * wv r) thP z θ φ).re / Real.sin θ
noncomputable def fA (z : Zdi) (θ φ : ℝ) : ℝ :=
  -((harm (fun r => Complex.I * r.m * wu r) thP z θ φ).re / Real.sin θ) + -(harm wv thD z θ φ).re

theorem polar_ok {z : Zdi} (h : NonnegOrders z) {θ : ℝ} (hs : 0 < Real.sin θ) (φ : ℝ) : polar z θ φ = .ok (fP z θ φ) := by
  rw [polar, polarPoloidal_eq h hs, polarToroidal_eq h.2 hs.le]; rfl

theorem azimuthal_ok {z : Zdi} (h : NonnegOrders z) {θ : ℝ} (hs : 0 < Real.sin θ) (φ : ℝ) :
    azimuthal z θ φ = .ok (fA z θ φ) := by
  rw [azimuthal, azimuthalToroidal_eq h hs, azimuthalPoloidal_eq h.2 hs.le]; rfl

variable {z : Zdi} {N K : ℕ} {l m : ℤ}

theorem swap_sum (N K : ℕ) (f : ℝ → ℂ) (g : ℝ → ℝ → ℂ) :
    (gridSum K N fun j i => f (node Real.pi N i) * g (node Real.pi N i) (node (2 * Real.pi) K j))
        * ((Real.pi / N * (2 * Real.pi / K) : ℝ) : ℂ)
      = (Real.pi / N : ℂ) * ∑ i ∈ Finset.range N, f (node Real.pi N i) * ((2 * Real.pi / K : ℂ)
        * ∑ j ∈ Finset.range K, g (node Real.pi N i) (node (2 * Real.pi) K j)) := by
  rw [gridSum, Finset.sum_comm, Finset.sum_mul, Finset.mul_sum]
  refine Finset.sum_congr rfl fun i _ => ?_
  rw [← Finset.mul_sum]
  push_cast
  ring

theorem midSum_ofReal (b : ℝ) (n : ℕ) (h : ℝ → ℝ) :
    ((midSum b n h : ℝ) : ℂ) = (b / n : ℂ) * ∑ i ∈ Finset.range n, ((h (node b n i) : ℝ) : ℂ) := by
  rw [midSum]; push_cast; rfl

theorem node_sin {n i : ℕ} (hi : i < n) : 0 < Real.sin (node Real.pi n i) := by
  have := node_mem Real.pi_pos hi
  exact Real.sin_pos_of_pos_of_lt_pi this.1 this.2

theorem alpha_exact (h0 : ∀ r ∈ z, 0 ≤ r.m) (hm : 0 ≤ m) (hK : ∀ r ∈ z, m + r.m < K) :
    alphaSum K N (fun _ i => node Real.pi N i) (fun j _ => node (2 * Real.pi) K j)
        (fun j i => fR z (node Real.pi N i) (node (2 * Real.pi) K j)) l m * ((Real.pi / N * (2 * Real.pi / K) : ℝ) : ℂ)
      = wt l m * Real.pi * ordSum z m fun r => dbl m (wa r) * (midSum Real.pi N (F1 m.toNat r.l.toNat l.toNat) : ℝ) := by
  have e := swap_sum N K (fun θ => thP l.toNat m.toNat θ * Real.sin θ) (fun θ φ => fR z θ φ * expi (-m) φ)
  rw [alphaSum, mul_assoc (wt l m : ℂ), mul_assoc (wt l m : ℂ)]
  congr 1
  rw [gridSum_congr (g := fun j i => (thP l.toNat m.toNat (node Real.pi N i) * Real.sin (node Real.pi N i) : ℂ)
    * (fR z (node Real.pi N i) (node (2 * Real.pi) K j) * expi (-m) (node (2 * Real.pi) K j))) fun j _ i _ => by ring, e]
  simp only [fR, az_sum hm _ _ h0 hK, midSum_ofReal]
  have : ∀ r : ZRow, dbl m (wa r) * ((Real.pi / N : ℂ) * ∑ i ∈ Finset.range N,
      ((F1 m.toNat r.l.toNat l.toNat (node Real.pi N i) : ℝ) : ℂ))
      = (Real.pi / N : ℂ) * ∑ i ∈ Finset.range N, dbl m (wa r) * (F1 m.toNat r.l.toNat l.toNat (node Real.pi N i) : ℝ) := by
    intro r; rw [Finset.mul_sum, Finset.mul_sum, Finset.mul_sum]
    exact Finset.sum_congr rfl fun i _ => by ring
  simp only [this]
  rw [ordSum_mul, ← ordSum_sum, mul_left_comm]
  congr 1
  rw [Finset.mul_sum]
  refine Finset.sum_congr rfl fun i _ => ?_
  rw [mul_left_comm, ← ordSum_mul]
  congr 1
  refine ordSum_congr fun r _ _ => ?_
  simp only [F1]; push_cast; ring

theorem lin2 {c a b X Y q S T : ℂ} (h1 : c * X = q * S) (h2 : c * Y = q * T) : c * (a * X + b * Y) = q * (a * S + b * T) := by
  linear_combination a * h1 + b * h2

/-- The sums of the two tangential components. -/
theorem fP_sum (h0 : ∀ r ∈ z, 0 ≤ r.m) (hm : 0 ≤ m) (hK : ∀ r ∈ z, m + r.m < K) (θ : ℝ) :
    (2 * Real.pi / K : ℂ) * ∑ j ∈ Finset.range K,
        (fP z θ (node (2 * Real.pi) K j) : ℂ) * expi (-m) (node (2 * Real.pi) K j)
      = Real.pi * ordSum z m fun r => -(dbl m (wu r) * thD r.l.toNat m.toNat θ)
        + Complex.I * m * dbl m (wv r) * thP r.l.toNat m.toNat θ / Real.sin θ := by
  have h1 := az_sum hm wu thD h0 hK θ
  have h2 := az_sum hm (fun r => Complex.I * r.m * wv r) thP h0 hK θ
  have e : ∀ φ, (fP z θ φ : ℂ) * expi (-m) φ = -1 * (((harm wu thD z θ φ).re : ℝ) * expi (-m) φ)
      + (Real.sin θ : ℂ)⁻¹ * (((harm (fun r => Complex.I * r.m * wv r) thP z θ φ).re : ℝ) * expi (-m) φ) := by
    intro φ; rw [fP]; push_cast; ring
  simp only [e]
  rw [Finset.sum_add_distrib, ← Finset.mul_sum, ← Finset.mul_sum, lin2 h1 h2, ← ordSum_mul, ← ordSum_mul, ← ordSum_add]
  congr 1
  refine ordSum_congr fun r _ hr => ?_
  rw [hr, dbl_I]; ring

theorem fA_sum (h0 : ∀ r ∈ z, 0 ≤ r.m) (hm : 0 ≤ m) (hK : ∀ r ∈ z, m + r.m < K) (θ : ℝ) :
    (2 * Real.pi / K : ℂ) * ∑ j ∈ Finset.range K,
        (fA z θ (node (2 * Real.pi) K j) : ℂ) * expi (-m) (node (2 * Real.pi) K j)
      = Real.pi * ordSum z m fun r => -(Complex.I * m * dbl m (wu r) * thP r.l.toNat m.toNat θ / Real.sin θ)
        - dbl m (wv r) * thD r.l.toNat m.toNat θ := by
  have h1 := az_sum hm wv thD h0 hK θ
  have h2 := az_sum hm (fun r => Complex.I * r.m * wu r) thP h0 hK θ
  have e : ∀ φ, (fA z θ φ : ℂ) * expi (-m) φ = -1 * (((harm wv thD z θ φ).re : ℝ) * expi (-m) φ)
      + (-(Real.sin θ : ℂ)⁻¹) * (((harm (fun r => Complex.I * r.m * wu r) thP z θ φ).re : ℝ) * expi (-m) φ) := by
    intro φ; rw [fA]; push_cast; ring
  simp only [e]
  rw [Finset.sum_add_distrib, ← Finset.mul_sum, ← Finset.mul_sum, lin2 h1 h2, ← ordSum_mul, ← ordSum_mul, ← ordSum_add]
  congr 1
  refine ordSum_congr fun r _ hr => ?_
  rw [hr, dbl_I]; ring

/-- A tangential coefficient from the sums of the two components. -/
theorem tang_exact (x y : ZRow → ℂ) (f : ℝ → ℝ → ℂ)
    (hf : ∀ i < N, (2 * Real.pi / K : ℂ) * ∑ j ∈ Finset.range K, f (node Real.pi N i) (node (2 * Real.pi) K j)
      = Real.pi * ordSum z m fun r => x r * (F2 m.toNat r.l.toNat l.toNat (node Real.pi N i) : ℝ)
        + y r * (F3 m.toNat r.l.toNat l.toNat (node Real.pi N i) : ℝ)) :
    (gridSum K N fun j i => f (node Real.pi N i) (node (2 * Real.pi) K j)) * ((Real.pi / N * (2 * Real.pi / K) : ℝ) : ℂ)
      = Real.pi * ordSum z m fun r => x r * (midSum Real.pi N (F2 m.toNat r.l.toNat l.toNat) : ℝ)
        + y r * (midSum Real.pi N (F3 m.toNat r.l.toNat l.toNat) : ℝ) := by
  have e := swap_sum N K (fun _ => 1) f
  simp only [one_mul] at e
  rw [e, Finset.sum_congr rfl fun i hi => hf i (Finset.mem_range.1 hi), ← Finset.mul_sum, mul_left_comm, ordSum_sum,
    ← ordSum_mul]
  congr 1
  refine ordSum_congr fun r _ _ => ?_
  rw [midSum_ofReal, midSum_ofReal, Finset.sum_add_distrib, ← Finset.mul_sum, ← Finset.mul_sum]
  ring

theorem F2_of {θ : ℝ} (hs : 0 < Real.sin θ) (hm : 0 ≤ m) (a l' : ℕ) :
    ((F2 m.toNat a l' θ : ℝ) : ℂ) = thD a m.toNat θ * thD l' m.toNat θ * Real.sin θ
      + (m : ℂ) ^ 2 / Real.sin θ * (thP a m.toNat θ * thP l' m.toNat θ) := by
  have hm' : ((m.toNat : ℕ) : ℝ) = (m : ℝ) := by exact_mod_cast Int.toNat_of_nonneg hm
  have hs' : (Real.sin θ : ℂ) ≠ 0 := by exact_mod_cast hs.ne'
  rw [F2, hm']; push_cast; push_cast at hs'; field_simp

theorem F3_of (θ : ℝ) (hm : 0 ≤ m) (a l' : ℕ) :
    ((F3 m.toNat a l' θ : ℝ) : ℂ) = m * (thD a m.toNat θ * thP l' m.toNat θ + thP a m.toNat θ * thD l' m.toNat θ) := by
  have hm' : ((m.toNat : ℕ) : ℝ) = (m : ℝ) := by exact_mod_cast Int.toNat_of_nonneg hm
  rw [F3, hm']; push_cast; ring

theorem beta_exact (h0 : ∀ r ∈ z, 0 ≤ r.m) (hm : 0 ≤ m) (hK : ∀ r ∈ z, m + r.m < K) :
    betaSum K N (fun _ i => node Real.pi N i) (fun j _ => node (2 * Real.pi) K j)
        (fun j i => fP z (node Real.pi N i) (node (2 * Real.pi) K j))
        (fun j i => fA z (node Real.pi N i) (node (2 * Real.pi) K j)) l m * ((Real.pi / N * (2 * Real.pi / K) : ℝ) : ℂ)
      = wt l m / l * (Real.pi * ordSum z m fun r => dbl m (wu r) * (midSum Real.pi N (F2 m.toNat r.l.toNat l.toNat) : ℝ)
        + -(Complex.I * dbl m (wv r)) * (midSum Real.pi N (F3 m.toNat r.l.toNat l.toNat) : ℝ)) := by
  rw [betaSum, mul_assoc]
  congr 1
  refine tang_exact (l := l) (fun r => dbl m (wu r)) (fun r => -(Complex.I * dbl m (wv r)))
    (fun θ φ => (-fP z θ φ * thD l.toNat m.toNat θ * Real.sin θ + Complex.I * m * fA z θ φ * thP l.toNat m.toNat θ)
      * expi (-m) φ) fun i hi => ?_
  have hs := node_sin hi
  set θ := node Real.pi N i
  have e : ∀ φ, (-fP z θ φ * thD l.toNat m.toNat θ * Real.sin θ + Complex.I * m * fA z θ φ * thP l.toNat m.toNat θ)
      * expi (-m) φ = (-thD l.toNat m.toNat θ * Real.sin θ : ℂ) * (fP z θ φ * expi (-m) φ)
        + (Complex.I * m * thP l.toNat m.toNat θ) * (fA z θ φ * expi (-m) φ) := by intro φ; ring
  simp only [e]
  rw [Finset.sum_add_distrib, ← Finset.mul_sum, ← Finset.mul_sum, lin2 (fP_sum h0 hm hK θ) (fA_sum h0 hm hK θ), ← ordSum_mul,
    ← ordSum_mul, ← ordSum_add]
  congr 1
  refine ordSum_congr fun r _ _ => ?_
  rw [F2_of hs hm, F3_of θ hm]
  have hs' : (Real.sin θ : ℂ) ≠ 0 := by exact_mod_cast hs.ne'
  field_simp
  linear_combination (-(m : ℂ) ^ 2 * dbl m (wu r) * thP r.l.toNat m.toNat θ * thP l.toNat m.toNat θ) * Complex.I_sq

theorem gamma_exact (h0 : ∀ r ∈ z, 0 ≤ r.m) (hm : 0 ≤ m) (hK : ∀ r ∈ z, m + r.m < K) :
    gammaSum K N (fun _ i => node Real.pi N i) (fun j _ => node (2 * Real.pi) K j)
        (fun j i => fP z (node Real.pi N i) (node (2 * Real.pi) K j))
        (fun j i => fA z (node Real.pi N i) (node (2 * Real.pi) K j)) l m * ((Real.pi / N * (2 * Real.pi / K) : ℝ) : ℂ)
      = wt l m / l * (Real.pi * ordSum z m fun r => dbl m (wv r) * (midSum Real.pi N (F2 m.toNat r.l.toNat l.toNat) : ℝ)
        + Complex.I * dbl m (wu r) * (midSum Real.pi N (F3 m.toNat r.l.toNat l.toNat) : ℝ)) := by
  rw [gammaSum, mul_assoc]
  congr 1
  refine tang_exact (l := l) (fun r => dbl m (wv r)) (fun r => Complex.I * dbl m (wu r))
    (fun θ φ => (-(Complex.I * m * fP z θ φ * thP l.toNat m.toNat θ) - fA z θ φ * thD l.toNat m.toNat θ * Real.sin θ)
      * expi (-m) φ) fun i hi => ?_
  have hs := node_sin hi
  set θ := node Real.pi N i
  have e : ∀ φ, (-(Complex.I * m * fP z θ φ * thP l.toNat m.toNat θ) - fA z θ φ * thD l.toNat m.toNat θ * Real.sin θ)
      * expi (-m) φ = (-(Complex.I * m * thP l.toNat m.toNat θ) : ℂ) * (fP z θ φ * expi (-m) φ)
        + (-(thD l.toNat m.toNat θ * Real.sin θ)) * (fA z θ φ * expi (-m) φ) := by intro φ; ring
  simp only [e]
  rw [Finset.sum_add_distrib, ← Finset.mul_sum, ← Finset.mul_sum, lin2 (fP_sum h0 hm hK θ) (fA_sum h0 hm hK θ), ← ordSum_mul,
    ← ordSum_mul, ← ordSum_add]
  congr 1
  refine ordSum_congr fun r _ _ => ?_
  rw [F2_of hs hm, F3_of θ hm]
  have hs' : (Real.sin θ : ℂ) ≠ 0 := by exact_mod_cast hs.ne'
  field_simp
  linear_combination (-(m : ℂ) ^ 2 * dbl m (wv r) * thP r.l.toNat m.toNat θ * thP l.toNat m.toNat θ) * Complex.I_sq

theorem ordSum_tendsto {f : ZRow → ℕ → ℂ} {g : ZRow → ℂ} (h : ∀ r, Tendsto (f r) atTop (𝓝 (g r))) :
    Tendsto (fun n => ordSum z m fun r => f r n) atTop (𝓝 (ordSum z m g)) := by
  induction z with
  | nil => simp [ordSum]
  | cons r z ih =>
    simp only [ordSum_cons]
    refine Tendsto.add ?_ ih
    split_ifs
    · exact h r
    · exact tendsto_const_nhds

theorem intF1 {a l' m' : ℕ} (h : m' ≤ l') :
    ∫ θ in (0 : ℝ)..Real.pi, F1 m' a l' θ = if a = l' then Parseval.N l' m' else 0 := by
  split_ifs with e
  · subst e; simp only [F1]; rw [integral_thP_self h, Parseval.N]
  · simp only [F1]; rw [integral_thP_ne _ e]

theorem intF2 {a l' m' : ℕ} (h : m' ≤ l') :
    ∫ θ in (0 : ℝ)..Real.pi, F2 m' a l' θ = if a = l' then (l' : ℝ) * (l' + 1) * Parseval.N l' m' else 0 := by
  have h2 : ∫ θ in (0 : ℝ)..Real.pi, F2 m' a l' θ = ((a : ℝ) * (a + 1)) * ∫ θ in (0 : ℝ)..Real.pi, F1 m' a l' θ :=
    integral_thD m' a l'
  rw [h2, intF1 h]
  split_ifs with e
  · rw [e]
  · ring

theorem dbl_add (m : ℤ) (x y : ℂ) : dbl m (x + y) = dbl m x + dbl m y := by
  rw [dbl, dbl, dbl, map_add]; split_ifs <;> ring

/-- Only the rows of the pair are left. -/
theorem pick (hz : ∀ r ∈ z, 0 ≤ r.m ∧ r.m ≤ r.l) (hm : 0 ≤ m) (hl : m ≤ l) (f w : ZRow → ℂ) (κ : ℤ → ℤ → ℝ)
    (hw : ∀ r, w r = f r * (κ r.l r.m : ℝ)) (X : ℝ) :
    (ordSum z m fun r => dbl m (w r) * ((if r.l.toNat = l.toNat then X else 0 : ℝ) : ℂ))
      = dbl m (coefAt z f l m) * ((κ l m * X : ℝ) : ℂ) := by
  induction z with
  | nil => simp [ordSum, coefAt, dbl]
  | cons r z ih =>
    have h0 := hz r (by simp)
    have e : coefAt (r :: z) f l m = (if r.l = l ∧ r.m = m then f r else 0) + coefAt z f l m := by simp [coefAt]
    rw [ordSum_cons, ih fun r hr => hz r (by simp [hr]), e, dbl_add, add_mul]
    congr 1
    by_cases h1 : r.m = m
    · by_cases h2 : r.l = l
      · rw [if_pos h1, if_pos (by rw [h2]), if_pos ⟨h2, h1⟩, hw, dbl_real, h1, h2]
        push_cast; ring
      · rw [if_pos h1, if_neg (by omega), if_neg (by tauto)]
        simp [dbl]
    · rw [if_neg h1, if_neg (by tauto)]
      simp [dbl]

theorem alpha_limit (hz : ∀ r ∈ z, 0 ≤ r.m ∧ r.m ≤ r.l) (hm : 0 ≤ m) (hl : m ≤ l) :
    Tendsto (fun n => wt l m * Real.pi * ordSum z m fun r =>
        dbl m (wa r) * (midSum Real.pi n (F1 m.toNat r.l.toNat l.toNat) : ℝ)) atTop
      (𝓝 (visible m (coefAt z ZRow.a l m))) := by
  have h1 : Tendsto (fun n => wt l m * Real.pi * ordSum z m fun r =>
        dbl m (wa r) * (midSum Real.pi n (F1 m.toNat r.l.toNat l.toNat) : ℝ)) atTop
      (𝓝 (wt l m * Real.pi * ordSum z m fun r =>
        dbl m (wa r) * ((∫ θ in (0 : ℝ)..Real.pi, F1 m.toNat r.l.toNat l.toNat θ : ℝ) : ℂ))) := by
    refine Tendsto.const_mul _ (ordSum_tendsto fun r => Tendsto.const_mul _ ?_)
    exact (Complex.continuous_ofReal.tendsto _).comp (midSum_tendsto Real.pi_pos (F1_cont _ _ _))
  convert h1 using 2
  have hml : m.toNat ≤ l.toNat := by omega
  simp only [intF1 hml]
  rw [pick hz hm hl ZRow.a wa cLm (fun _ => rfl), wt_eq]
  have e := cLm_sq hm hl
  have e' : ((cLm l m : ℝ) : ℂ) ^ 2 * (Parseval.N l.toNat m.toNat : ℝ) = 1 / (2 * Real.pi) := by exact_mod_cast e
  have hp : (Real.pi : ℂ) ≠ 0 := by exact_mod_cast Real.pi_ne_zero
  have e2 := twice_dbl m (coefAt z ZRow.a l m)
  push_cast
  calc visible m (coefAt z ZRow.a l m) = (twice m * dbl m (coefAt z ZRow.a l m)) * (Real.pi * (1 / (2 * Real.pi))) := by
        rw [e2]; field_simp
    _ = _ := by rw [← e']; ring

theorem tang_limit (hz : ∀ r ∈ z, 0 ≤ r.m ∧ r.m ≤ r.l) (hm : 0 ≤ m) (hl : m ≤ l) (f x : ZRow → ℂ) (y : ZRow → ℂ)
    (hx : ∀ r, x r = f r * cLm r.l r.m / (r.l + 1)) :
    Tendsto (fun n => wt l m / l * (Real.pi * ordSum z m fun r =>
        dbl m (x r) * (midSum Real.pi n (F2 m.toNat r.l.toNat l.toNat) : ℝ)
          + y r * (midSum Real.pi n (F3 m.toNat r.l.toNat l.toNat) : ℝ))) atTop
      (𝓝 (if l = 0 then 0 else visible m (coefAt z f l m))) := by
  have h1 : Tendsto (fun n => wt l m / l * (Real.pi * ordSum z m fun r =>
        dbl m (x r) * (midSum Real.pi n (F2 m.toNat r.l.toNat l.toNat) : ℝ)
          + y r * (midSum Real.pi n (F3 m.toNat r.l.toNat l.toNat) : ℝ))) atTop
      (𝓝 (wt l m / l * (Real.pi * ordSum z m fun r =>
        dbl m (x r) * ((∫ θ in (0 : ℝ)..Real.pi, F2 m.toNat r.l.toNat l.toNat θ : ℝ) : ℂ)
          + y r * ((∫ θ in (0 : ℝ)..Real.pi, F3 m.toNat r.l.toNat l.toNat θ : ℝ) : ℂ)))) := by
    refine Tendsto.const_mul _ (Tendsto.const_mul _ (ordSum_tendsto fun r => Tendsto.add (Tendsto.const_mul _ ?_)
      (Tendsto.const_mul _ ?_)))
    · exact (Complex.continuous_ofReal.tendsto _).comp (midSum_tendsto Real.pi_pos (F2_cont _ _ _))
    · exact (Complex.continuous_ofReal.tendsto _).comp (midSum_tendsto Real.pi_pos (F3_cont _ _ _))
  convert h1 using 2
  have hml : m.toNat ≤ l.toNat := by omega
  have h3 : ∀ m l l' : ℕ, ∫ θ in (0 : ℝ)..Real.pi, F3 m l l' θ = 0 := fun m l l' => integral_cross m l l'
  simp only [intF2 hml, h3, Complex.ofReal_zero, mul_zero, add_zero]
  rw [pick hz hm hl f x (fun l m => cLm l m / (l + 1)) (fun r => by rw [hx]; push_cast; ring), wt_eq]
  split_ifs with h0
  · subst h0; simp
  · have e := cLm_sq hm hl
    have e' : ((cLm l m : ℝ) : ℂ) ^ 2 * (Parseval.N l.toNat m.toNat : ℝ) = 1 / (2 * Real.pi) := by exact_mod_cast e
    have hp : (Real.pi : ℂ) ≠ 0 := by exact_mod_cast Real.pi_ne_zero
    have e2 := twice_dbl m (coefAt z f l m)
    have hlc : ((l.toNat : ℕ) : ℂ) = (l : ℂ) := by exact_mod_cast Int.toNat_of_nonneg (hm.trans hl)
    have hl0 : (l : ℂ) ≠ 0 := by exact_mod_cast h0
    have hl1 : (l : ℂ) + 1 ≠ 0 := by
      have : (l : ℂ) + 1 = ((l + 1 : ℤ) : ℂ) := by push_cast; rfl
      rw [this]; exact_mod_cast (by omega : l + 1 ≠ 0)
    push_cast
    rw [hlc]
    calc visible m (coefAt z f l m) = (twice m * dbl m (coefAt z f l m)) * (Real.pi * (1 / (2 * Real.pi))) := by
          rw [e2]; field_simp
      _ = _ := by rw [← e']; field_simp

/-- The samples of the magnetogram. -/
theorem resample_ok (h : NonnegOrders z) (hN : 2 ≤ N) (hK : 2 ≤ K) (L : ℕ) (ho : ∀ r ∈ z, r.m + L < K) :
    ∃ s, resample z N K L = .ok s ∧ WellFormed s ∧ s.dflt = [0, 0, 0] ∧
      (∀ l m : ℤ, stores s l m ↔ 0 ≤ m ∧ m ≤ l ∧ l ≤ L) ∧
      ∀ l m : ℤ, 0 ≤ m → m ≤ l → l ≤ L →
        coefCol 0 s l m = wt l m * Real.pi * (ordSum z m fun r =>
          dbl m (wa r) * (midSum Real.pi N (F1 m.toNat r.l.toNat l.toNat) : ℝ)) ∧
        coefCol 1 s l m = wt l m / l * (Real.pi * ordSum z m fun r =>
          dbl m (wu r) * (midSum Real.pi N (F2 m.toNat r.l.toNat l.toNat) : ℝ)
            + -(Complex.I * dbl m (wv r)) * (midSum Real.pi N (F3 m.toNat r.l.toNat l.toNat) : ℝ)) ∧
        coefCol 2 s l m = wt l m / l * (Real.pi * ordSum z m fun r =>
          dbl m (wv r) * (midSum Real.pi N (F2 m.toNat r.l.toNat l.toNat) : ℝ)
            + Complex.I * dbl m (wu r) * (midSum Real.pi N (F3 m.toNat r.l.toNat l.toNat) : ℝ)) := by
  have hg : Geom.init (.int (N + 1)) (.int (K + 1))
      = .ok (meshgrid (lin Real.pi (N + 1)) (lin (2 * Real.pi) (K + 1))) := by
    have := (init_ints (n := N + 1) (k := K + 1)).trans (init_lin (by omega) (by omega))
    exact_mod_cast this
  set g := meshgrid (lin Real.pi (N + 1)) (lin (2 * Real.pi) (K + 1))
  have hc : g.centers = _ := centers_lin N K
  set Θ : ℕ → ℕ → ℝ := fun _ i => node Real.pi N i with hΘ
  set Φ : ℕ → ℕ → ℝ := fun j _ => node (2 * Real.pi) K j with hΦ
  have er := evalAt_ok hc (fun θ φ => .ok (radial z θ φ)) (fR z) fun j _ i hi => by
    rw [radial_eq h.2 (node_sin hi).le]; rfl
  have ep := evalAt_ok hc (polar z) (fP z) fun j _ i hi => polar_ok h (node_sin hi) _
  have ea := evalAt_ok hc (azimuthal z) (fA z) fun j _ i hi => azimuthal_ok h (node_sin hi) _
  have hS : Sampled K N (arrOf K N Θ) (arrOf K N Φ) (arrOf K N fun j i => fR z (Θ j i) (Φ j i))
      (arrOf K N fun j i => fP z (Θ j i) (Φ j i)) (arrOf K N fun j i => fA z (Θ j i) (Φ j i)) :=
    ⟨arrOf_shape _ _ _, arrOf_shape _ _ _, arrOf_shape _ _ _, arrOf_shape _ _ _, arrOf_shape _ _ _, by omega, by omega,
      fun j hj i hi => by rw [entry_arrOf _ hj hi]; exact node_mem Real.pi_pos hi⟩
  obtain ⟨p1, p2, p3⟩ := C57_positive_lm L
  have hne : positiveLm (L : ℤ) ≠ [] := List.ne_nil_of_mem ((p3 0 0).2 (by omega))
  obtain ⟨s, s1, s2, s3, s4, s5⟩ := zdiCoeffs_ok hS (positiveLm L) hne p1
    (fun q hq => by have := (p3 q.1 q.2).1 hq; omega) none
  refine ⟨s, ?_, s2, s3, fun l m => by rw [s4, p3], fun l m hm hl hL => ?_⟩
  · rw [resample]
    simp only [Bind.bind, Except.bind, hg, er, ep, ea, latlonCoeffs]
    rw [if_neg (by simpa using hne), hc]
    exact s1
  · have h0 : ∀ r ∈ z, 0 ≤ r.m := fun r hr => (h.2 r hr).1
    have hK' : ∀ r ∈ z, m + r.m < K := fun r hr => by have := ho r hr; omega
    have cA : alphaSum K N (entry (arrOf K N Θ)) (entry (arrOf K N Φ)) (entry (arrOf K N fun j i => fR z (Θ j i) (Φ j i))) l m
        = alphaSum K N Θ Φ (fun j i => fR z (Θ j i) (Φ j i)) l m := by
      rw [alphaSum, alphaSum]
      exact congrArg _ (gridSum_congr fun j hj i hi => by simp only [entry_arrOf _ hj hi])
    have cB : betaSum K N (entry (arrOf K N Θ)) (entry (arrOf K N Φ)) (entry (arrOf K N fun j i => fP z (Θ j i) (Φ j i)))
        (entry (arrOf K N fun j i => fA z (Θ j i) (Φ j i))) l m
        = betaSum K N Θ Φ (fun j i => fP z (Θ j i) (Φ j i)) (fun j i => fA z (Θ j i) (Φ j i)) l m := by
      rw [betaSum, betaSum]
      exact congrArg _ (gridSum_congr fun j hj i hi => by simp only [entry_arrOf _ hj hi])
    have cG : gammaSum K N (entry (arrOf K N Θ)) (entry (arrOf K N Φ)) (entry (arrOf K N fun j i => fP z (Θ j i) (Φ j i)))
        (entry (arrOf K N fun j i => fA z (Θ j i) (Φ j i))) l m
        = gammaSum K N Θ Φ (fun j i => fP z (Θ j i) (Φ j i)) (fun j i => fA z (Θ j i) (Φ j i)) l m := by
      rw [gammaSum, gammaSum]
      exact congrArg _ (gridSum_congr fun j hj i hi => by simp only [entry_arrOf _ hj hi])
    have hA : pseudoArea (arrOf K N Θ) (arrOf K N Φ) = Real.pi / N * (2 * Real.pi / K) := pseudoArea_lin hN hK
    simp only [coefCol, s5, if_pos ((p3 l m).2 ⟨hm, hl, hL⟩), Option.getD_none, hA, cA, cB, cG,
      List.getD_cons_zero, List.getD_cons_succ]
    exact ⟨alpha_exact h0 hm hK', beta_exact h0 hm hK', gamma_exact h0 hm hK'⟩

end Analysis

/-! ## C67 -/

/-- **C67.** Sample the three field components of a magnetogram on full-sphere grids with more and more polar points, and
enough points in azimuth for the orders involved: the analysis succeeds, stores exactly the pairs up to the requested
degree, and its coefficients converge to those of the magnetogram (to the real part for order 0, the only part the field
shows; to zero for pairs the magnetogram does not have and for the tangential coefficients of degree 0). -/
theorem C67_recovery (z : Zdi) (h : NonnegOrders z) (L : ℕ) (κ : ℕ → ℕ) (h2 : ∀ n, 2 ≤ κ n)
    (ho : ∀ n, ∀ r ∈ z, r.m + L < κ n) :
    ∃ S : ℕ → Coefs ℂ,
      (∀ n, 2 ≤ n → resample z n (κ n) L = .ok (S n) ∧ WellFormed (S n) ∧
        ∀ l m : ℤ, stores (S n) l m ↔ 0 ≤ m ∧ m ≤ l ∧ l ≤ L) ∧
      ∀ l m : ℤ, 0 ≤ m → m ≤ l → l ≤ L →
        Tendsto (fun n => coefCol 0 (S n) l m) atTop (𝓝 (visible m (coefAt z ZRow.a l m))) ∧
        Tendsto (fun n => coefCol 1 (S n) l m) atTop (𝓝 (if l = 0 then 0 else visible m (coefAt z ZRow.b l m))) ∧
        Tendsto (fun n => coefCol 2 (S n) l m) atTop (𝓝 (if l = 0 then 0 else visible m (coefAt z ZRow.g l m))) := by
  have hS : ∀ n, ∃ s, 2 ≤ n → _ := fun n => by
    by_cases hn : 2 ≤ n
    · exact (resample_ok h hn (h2 n) L (ho n)).imp fun s hs _ => hs
    · exact ⟨Coefs.new [] .cplx, fun h => absurd h hn⟩
  choose S hS using hS
  refine ⟨S, fun n hn => ⟨(hS n hn).1, (hS n hn).2.1, (hS n hn).2.2.2.1⟩, fun l m hm hl hL => ⟨?_, ?_, ?_⟩⟩
  · refine (alpha_limit h.2 hm hl).congr' ?_
    filter_upwards [eventually_ge_atTop 2] with n hn
    exact ((hS n hn).2.2.2.2 l m hm hl hL).1.symm
  · refine (tang_limit h.2 hm hl ZRow.b wu (fun r => -(Complex.I * dbl m (wv r))) fun _ => rfl).congr' ?_
    filter_upwards [eventually_ge_atTop 2] with n hn
    exact ((hS n hn).2.2.2.2 l m hm hl hL).2.1.symm
  · refine (tang_limit h.2 hm hl ZRow.g wv (fun r => Complex.I * dbl m (wu r)) fun _ => rfl).congr' ?_
    filter_upwards [eventually_ge_atTop 2] with n hn
    exact ((hS n hn).2.2.2.2 l m hm hl hL).2.2.symm

namespace Analysis

variable {z : Zdi} {T : Finset (ℤ × ℤ)}

theorem sum_coefAt (f : ZRow → ℂ) (W : ℤ → ℤ → ℂ) (hT : ∀ r ∈ z, (r.l, r.m) ∈ T) :
    (z.map fun r => f r * W r.l r.m).sum = ∑ k ∈ T, coefAt z f k.1 k.2 * W k.1 k.2 := by
  induction z with
  | nil => simp [coefAt]
  | cons r z ih =>
    have e : ∀ l m, coefAt (r :: z) f l m = (if r.l = l ∧ r.m = m then f r else 0) + coefAt z f l m := by
      intro l m; simp [coefAt]
    simp only [e, List.map_cons, List.sum_cons, add_mul, Finset.sum_add_distrib]
    rw [ih fun r hr => hT r (by simp [hr])]
    congr 1
    rw [Finset.sum_eq_single (r.l, r.m)]
    · simp
    · intro k _ hk
      rw [if_neg (fun h => hk (by rw [h.1, h.2])), zero_mul]
    · intro h; exact absurd (hT r (by simp)) h

theorem visible_re (m : ℤ) (x w : ℂ) (h : m = 0 → w.im = 0) : (visible m x * w).re = (x * w).re := by
  rw [visible]
  split_ifs with h0
  · simp [h h0]
  · rfl

theorem harm_lim {s : ℕ → Coefs ℂ} (hs : ∀ n, 2 ≤ n → ZdiSet (s n)) (hp : ∀ n, 2 ≤ n → pairs (s n) = T)
    (hT : ∀ r ∈ z, (r.l, r.m) ∈ T) (f : ZRow → ℂ) (c : ℕ → ℤ × ℤ → ℂ) (hf : ∀ n k, f (zrow (s n) k) = c n k)
    (w : ZRow → ℂ) (p : ℕ → ℕ → ℝ → ℝ) (κ : ℤ → ℤ → ℂ) (hw : ∀ r, w r = f r * κ r.l r.m) (v : ℤ × ℤ → ℂ)
    (lim : ∀ k ∈ T, Tendsto (fun n => c n k) atTop (𝓝 (v k))) (θ φ : ℝ)
    (hv : ∀ k ∈ T, (v k * (κ k.1 k.2 * (p k.1.toNat k.2.toNat θ : ℝ) * expi k.2 φ)).re
      = (coefAt z f k.1 k.2 * (κ k.1 k.2 * (p k.1.toNat k.2.toNat θ : ℝ) * expi k.2 φ)).re) :
    Tendsto (fun n => (harm w p ((s n).rowKeys.map (zrow (s n))) θ φ).re) atTop (𝓝 (harm w p z θ φ).re) := by
  set W : ℤ → ℤ → ℂ := fun l m => κ l m * (p l.toNat m.toNat θ : ℝ) * expi m φ with hW
  have e1 : harm w p z θ φ = ∑ k ∈ T, coefAt z f k.1 k.2 * W k.1 k.2 := by
    rw [← sum_coefAt f W hT, harm]
    congr 1
    exact List.map_congr_left fun r _ => by rw [hw, hW]; ring
  have e2 : ∀ n, 2 ≤ n → harm w p ((s n).rowKeys.map (zrow (s n))) θ φ = ∑ k ∈ T, c n k * W k.1 k.2 := by
    intro n hn
    rw [harm, Zdi.sum_rows (hs n hn), hp n hn]
    refine Finset.sum_congr rfl fun k _ => ?_
    rw [hw, hf]
    simp only [zrow, hW]
    ring
  have h3 : Tendsto (fun n => (∑ k ∈ T, c n k * W k.1 k.2).re) atTop (𝓝 (∑ k ∈ T, v k * W k.1 k.2).re) :=
    (Complex.continuous_re.tendsto _).comp (tendsto_finset_sum _ fun k hk => (lim k hk).mul_const _)
  have e3 : (∑ k ∈ T, v k * W k.1 k.2).re = (harm w p z θ φ).re := by
    rw [e1, Complex.re_sum, Complex.re_sum]
    exact Finset.sum_congr rfl fun k hk => hv k hk
  rw [e3] at h3
  refine h3.congr' ?_
  filter_upwards [eventually_ge_atTop 2] with n hn
  rw [e2 n hn]

theorem real_im {x y : ℝ} {m : ℤ} (φ : ℝ) (h : m = 0) : (((x : ℝ) : ℂ) * ((y : ℝ) : ℂ) * expi m φ).im = 0 := by
  subst h
  simp [expi]

end Analysis

/-- **C67.** If the requested degree covers the magnetogram, the magnetogram made of the analysed coefficients has, in the
limit, the field of the original one: the radial component everywhere, the tangential ones away from the poles. -/
theorem C67_field (z : Zdi) (h : NonnegOrders z) (L : ℕ) (hL : ∀ r ∈ z, r.l ≤ L) (κ : ℕ → ℕ) (h2 : ∀ n, 2 ≤ κ n)
    (ho : ∀ n, ∀ r ∈ z, r.m + L < κ n) :
    ∃ Z : ℕ → Zdi, (∀ n, 2 ≤ n → resampleZdi z n (κ n) L = .ok (Z n)) ∧
      (∀ θ φ, 0 ≤ θ → θ ≤ Real.pi → Tendsto (fun n => radial (Z n) θ φ) atTop (𝓝 (radial z θ φ))) ∧
      ∀ θ φ, OffAxis θ → ∃ (p a : ℕ → ℝ) (p0 a0 : ℝ),
        (∀ n, 2 ≤ n → polar (Z n) θ φ = .ok (p n) ∧ azimuthal (Z n) θ φ = .ok (a n)) ∧
        polar z θ φ = .ok p0 ∧ azimuthal z θ φ = .ok a0 ∧
        Tendsto p atTop (𝓝 p0) ∧ Tendsto a atTop (𝓝 a0) := by
  obtain ⟨S, hS, lim⟩ := C67_recovery z h L κ h2 ho
  set T : Finset (ℤ × ℤ) := (positiveLm L).toFinset
  have memT : ∀ k : ℤ × ℤ, k ∈ T ↔ 0 ≤ k.2 ∧ k.2 ≤ k.1 ∧ k.1 ≤ L := fun k => by
    rw [List.mem_toFinset]; exact (C57_positive_lm L).2.2 k.1 k.2
  have hT : ∀ r ∈ z, (r.l, r.m) ∈ T := fun r hr => (memT _).2 ⟨(h.2 r hr).1, (h.2 r hr).2, hL r hr⟩
  have hs : ∀ n, 2 ≤ n → ZdiSet (S n) := fun n hn => by
    obtain ⟨s, s1, s2, s3, s4, -⟩ := resample_ok h hn (h2 n) L (ho n)
    have : s = S n := Except.ok.inj (s1.symm.trans (hS n hn).1)
    subst this
    exact ⟨s2, by rw [s3]; simp, 0, 0, (s4 0 0).2 (by omega)⟩
  have hp : ∀ n, 2 ≤ n → pairs (S n) = T := fun n hn => by
    ext k; rw [mem_pairs, (hS n hn).2.2, memT]
  have hno : ∀ n, 2 ≤ n → NonnegOrders ((S n).rowKeys.map (zrow (S n))) := fun n hn =>
    (hs n hn).nonnegOrders fun l m hlm => (((hS n hn).2.2 l m).1 hlm).1
  have limA : ∀ k ∈ T, Tendsto (fun n => coefCol 0 (S n) k.1 k.2) atTop (𝓝 (visible k.2 (coefAt z ZRow.a k.1 k.2))) :=
    fun k hk => by have hk := (memT k).1 hk; exact (lim k.1 k.2 hk.1 hk.2.1 hk.2.2).1
  have limB : ∀ k ∈ T, Tendsto (fun n => coefCol 1 (S n) k.1 k.2) atTop
      (𝓝 (if k.1 = 0 then 0 else visible k.2 (coefAt z ZRow.b k.1 k.2))) :=
    fun k hk => by have hk := (memT k).1 hk; exact (lim k.1 k.2 hk.1 hk.2.1 hk.2.2).2.1
  have limG : ∀ k ∈ T, Tendsto (fun n => coefCol 2 (S n) k.1 k.2) atTop
      (𝓝 (if k.1 = 0 then 0 else visible k.2 (coefAt z ZRow.g k.1 k.2))) :=
    fun k hk => by have hk := (memT k).1 hk; exact (lim k.1 k.2 hk.1 hk.2.1 hk.2.2).2.2
  -- the tangential terms: real for order 0, and none for degree 0
  have tD : ∀ (x : ℤ × ℤ → ℂ) (θ φ : ℝ), ∀ k ∈ T,
      ((if k.1 = 0 then 0 else visible k.2 (x k))
          * (((cLm k.1 k.2 / (k.1 + 1) : ℝ) : ℂ) * (thD k.1.toNat k.2.toNat θ : ℝ) * expi k.2 φ)).re
        = (x k * (((cLm k.1 k.2 / (k.1 + 1) : ℝ) : ℂ) * (thD k.1.toNat k.2.toNat θ : ℝ) * expi k.2 φ)).re := by
    intro x θ φ k hk
    have hk := (memT k).1 hk
    split_ifs with h0
    · have h1 : k.2 = 0 := by omega
      rw [h0, h1, show Int.toNat 0 = 0 from rfl, thD_zero]; simp
    · exact visible_re _ _ _ fun h => real_im φ h
  have tP : ∀ (x : ℤ × ℤ → ℂ) (θ φ : ℝ), ∀ k ∈ T,
      ((if k.1 = 0 then 0 else visible k.2 (x k))
          * ((Complex.I * k.2 * ((cLm k.1 k.2 / (k.1 + 1) : ℝ) : ℂ)) * (thP k.1.toNat k.2.toNat θ : ℝ) * expi k.2 φ)).re
        = (x k * ((Complex.I * k.2 * ((cLm k.1 k.2 / (k.1 + 1) : ℝ) : ℂ)) * (thP k.1.toNat k.2.toNat θ : ℝ)
          * expi k.2 φ)).re := by
    intro x θ φ k hk
    have hk := (memT k).1 hk
    by_cases h1 : k.2 = 0
    · rw [h1]; simp
    · rw [if_neg (by omega), visible, if_neg h1]
  refine ⟨fun n => (S n).rowKeys.map (zrow (S n)), fun n hn => ?_, fun θ φ t0 t1 => ?_, fun θ φ ht => ?_⟩
  · rw [resampleZdi, (hS n hn).1]
    exact (hs n hn).fromCoefficients
  · have hsin := Real.sin_nonneg_of_nonneg_of_le_pi t0 t1
    rw [radial_eq h.2 hsin]
    have := harm_lim hs hp hT ZRow.a (fun n k => coefCol 0 (S n) k.1 k.2) (fun _ _ => rfl)
      (fun r => r.a * cLm r.l r.m) thP (fun l m => ((cLm l m : ℝ) : ℂ)) (fun _ => rfl) _ limA θ φ
      fun k hk => visible_re _ _ _ fun h => real_im φ h
    refine this.congr' ?_
    filter_upwards [eventually_ge_atTop 2] with n hn
    rw [radial_eq (hno n hn).2 hsin]
  · have hsin : 0 < Real.sin θ := Real.sin_pos_of_pos_of_lt_pi ht.1 ht.2
    refine ⟨fun n => fP ((S n).rowKeys.map (zrow (S n))) θ φ, fun n => fA ((S n).rowKeys.map (zrow (S n))) θ φ,
      fP z θ φ, fA z θ φ, fun n hn => ⟨polar_ok (hno n hn) hsin φ, azimuthal_ok (hno n hn) hsin φ⟩,
      polar_ok h hsin φ, azimuthal_ok h hsin φ, ?_, ?_⟩
    · refine Tendsto.add (Tendsto.neg ?_) (Tendsto.div_const ?_ _)
      · exact harm_lim hs hp hT ZRow.b (fun n k => coefCol 1 (S n) k.1 k.2) (fun _ _ => rfl) wu thD
          (fun l m => ((cLm l m / (l + 1) : ℝ) : ℂ)) (fun r => by rw [wu]; push_cast; ring) _ limB θ φ
          (tD (fun k => coefAt z ZRow.b k.1 k.2) θ φ)
      · exact harm_lim hs hp hT ZRow.g (fun n k => coefCol 2 (S n) k.1 k.2) (fun _ _ => rfl)
          (fun r => Complex.I * r.m * wv r) thP
          (fun l m => Complex.I * m * ((cLm l m / (l + 1) : ℝ) : ℂ)) (fun r => by rw [wv]; push_cast; ring) _ limG θ φ
          (tP (fun k => coefAt z ZRow.g k.1 k.2) θ φ)
    · refine Tendsto.add (Tendsto.neg (Tendsto.div_const ?_ _)) (Tendsto.neg ?_)
      · exact harm_lim hs hp hT ZRow.b (fun n k => coefCol 1 (S n) k.1 k.2) (fun _ _ => rfl)
          (fun r => Complex.I * r.m * wu r) thP
          (fun l m => Complex.I * m * ((cLm l m / (l + 1) : ℝ) : ℂ)) (fun r => by rw [wu]; push_cast; ring) _ limB θ φ
          (tP (fun k => coefAt z ZRow.b k.1 k.2) θ φ)
      · exact harm_lim hs hp hT ZRow.g (fun n k => coefCol 2 (S n) k.1 k.2) (fun _ _ => rfl) wv thD
          (fun l m => ((cLm l m / (l + 1) : ℝ) : ℂ)) (fun r => by rw [wv]; push_cast; ring) _ limG θ φ
          (tD (fun k => coefAt z ZRow.g k.1 k.2) θ φ)

/-- The hypotheses hold for a quadrupole with all three kinds of coefficients, a repeated row, and a fixed number of points in azimuth. -/
example : ∃ (z : Zdi) (κ : ℕ → ℕ), NonnegOrders z ∧ (∀ r ∈ z, r.l ≤ (2 : ℕ)) ∧ (∀ n, 2 ≤ κ n) ∧
    (∀ n, ∀ r ∈ z, r.m + (2 : ℕ) < κ n) ∧ coefAt z ZRow.a 2 1 = 3 + Complex.I :=
  ⟨[⟨2, 1, 1, Complex.I, 5⟩, ⟨1, 0, 2, 3, Complex.I⟩, ⟨2, 1, 2 + Complex.I, 0, 0⟩], fun _ => 4, ⟨by simp, by simp⟩,
    by simp, by simp, by simp, by simp [coefAt]; ring⟩

end Verif
