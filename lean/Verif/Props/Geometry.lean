import Verif.Lemmas.Geometry
import Verif.Spec.Geometry
import Mathlib.Analysis.Real.Pi.Bounds

/-!
# C46, C47: grids on the sphere
-/

namespace Verif
open Geometry Spec

namespace Geometry

theorem total_eq (x : Arr2 ℝ) : total x = sum2 x := by rw [total, sum2, List.sum_flatten]

theorem steps_get (xs : List ℝ) (i : ℕ) (h : i + 1 < xs.length) : (steps xs)[i]? = some (xs[i], xs[i + 1]) := by
  rw [steps, List.getElem?_eq_some_iff]
  refine ⟨by simp; omega, ?_⟩
  simp [List.getElem_zip]

theorem steps_get_inv {xs : List ℝ} {i : ℕ} {a : ℝ × ℝ} (h : (steps xs)[i]? = some a) :
    ∃ h : i + 1 < xs.length, a = (xs[i], xs[i + 1]) := by
  have h' := h
  rw [List.getElem?_eq_some_iff] at h'
  obtain ⟨h1, _⟩ := h'
  have h2 : i + 1 < xs.length := by simp [steps] at h1; omega
  refine ⟨h2, ?_⟩
  rw [steps_get xs i h2] at h
  exact (Option.some.inj h).symm

theorem at2_grid {α : Type} (P A : List ℝ) (f : ℝ × ℝ → ℝ × ℝ → α) (j i : ℕ) (hj : j + 1 < A.length)
    (hi : i + 1 < P.length) : at2 (grid P A f) j i = some (f (P[i], P[i + 1]) (A[j], A[j + 1])) := by
  rw [at2, grid, List.getElem?_map, steps_get A j hj]
  simp [steps_get P i hi]

theorem at2_grid_inv {α : Type} {P A : List ℝ} {f : ℝ × ℝ → ℝ × ℝ → α} {j i : ℕ} {x : α}
    (h : at2 (grid P A f) j i = some x) : ∃ p ∈ steps P, ∃ a ∈ steps A, (steps P)[i]? = some p ∧
      (steps A)[j]? = some a ∧ f p a = x := by
  rw [at2, grid, List.getElem?_map] at h
  rcases ha : (steps A)[j]? with _ | a
  · rw [ha] at h; simp at h
  · rw [ha] at h
    simp only [Option.map_some, Option.bind_some, List.getElem?_map] at h
    rcases hp : (steps P)[i]? with _ | p
    · rw [hp] at h; simp at h
    · rw [hp] at h
      exact ⟨p, List.mem_of_getElem? hp, a, List.mem_of_getElem? ha, rfl, rfl, Option.some.inj h⟩

theorem grid_shape {α : Type} (P A : List ℝ) (f : ℝ × ℝ → ℝ × ℝ → α) :
    HasShape (grid P A f) (A.length - 1) (P.length - 1) := by
  refine ⟨by simp [grid, steps], fun r hr => ?_⟩
  obtain ⟨a, _, rfl⟩ := List.mem_map.1 hr
  simp [steps]

theorem init_arr {P A : List ℝ} {g : Geom} (h : Geom.init (.arr P) (.arr A) = .ok g) :
    g = meshgrid P A ∧ P ≠ [] ∧ A ≠ [] := by
  rw [Geom.init] at h
  simp only [corners, bind, Except.bind, CornerArg.values, pure, Except.pure, Option.getD_some] at h
  rcases hp : extent (some P) with e | e
  · rw [hp] at h; cases h
  rcases ha : extent (some A) with e' | e'
  · rw [hp, ha] at h
    simp only [resAssert] at h
    split_ifs at h <;> cases h
  refine ⟨?_, ?_, ?_⟩
  · rw [hp, ha] at h
    simp only [resAssert] at h
    split_ifs at h
    · exact (Except.ok.inj h).symm
    all_goals cases h
  · rintro rfl; simp [extent] at hp
  · rintro rfl; simp [extent] at ha

theorem extent_le {xs : List ℝ} (hne : xs ≠ []) {w : ℝ} (h : ∀ x ∈ xs, ∀ y ∈ xs, x - y ≤ w) :
    ∃ e, extent (some xs) = .ok e ∧ e ≤ w := by
  rcases hM : xs.max? with _ | M
  · exact absurd (List.max?_eq_none_iff.1 hM) hne
  rcases hm : xs.min? with _ | m
  · exact absurd (List.min?_eq_none_iff.1 hm) hne
  refine ⟨|M - m|, by simp [extent, hM, hm], ?_⟩
  have h1 := List.max?_mem hM
  have h2 := List.min?_mem hm
  exact abs_le'.2 ⟨h _ h1 _ h2, by rw [neg_sub]; exact h _ h2 _ h1⟩

/-- Corner arrays spanning at most half a turn and a full turn are accepted. -/
theorem init_ok {P A : List ℝ} (hP : P ≠ []) (hA : A ≠ []) (h1 : ∀ x ∈ P, ∀ y ∈ P, x - y ≤ Real.pi)
    (h2 : ∀ x ∈ A, ∀ y ∈ A, x - y ≤ 2 * Real.pi) : Geom.init (.arr P) (.arr A) = .ok (meshgrid P A) := by
  obtain ⟨e1, k1, l1⟩ := extent_le hP h1
  obtain ⟨e2, k2, l2⟩ := extent_le hA h2
  rw [Geom.init]
  simp only [corners, bind, Except.bind, CornerArg.values, pure, Except.pure, Option.getD_some, k1, k2, resAssert,
    if_pos l1, if_pos l2]

/-- The values of `linspace`. -/
noncomputable def lin (b : ℝ) (n : ℕ) : List ℝ := (List.range n).map fun (i : ℕ) => (i : ℝ) * (b / ((n : ℝ) - 1))

theorem linspace_eq (b : ℝ) (n : ℕ) : linspace 0 b n = .ok (lin b n) := by
  rw [linspace, if_neg (by omega)]
  simp [lin]

theorem lin_length (b : ℝ) (n : ℕ) : (lin b n).length = n := by simp [lin]

theorem lin_get (b : ℝ) (n i : ℕ) (h : i < (lin b n).length) : (lin b n)[i] = (i : ℝ) * (b / ((n : ℝ) - 1)) := by
  simp [lin]

theorem lin_increasing {b : ℝ} (hb : 0 < b) {n : ℕ} (hn : 2 ≤ n) : Increasing (lin b n) := by
  rw [Increasing, lin, List.pairwise_map]
  have hn' : (0 : ℝ) < (n : ℝ) - 1 := by have : (2 : ℝ) ≤ n := by exact_mod_cast hn
                                         linarith
  refine List.Pairwise.imp ?_ List.pairwise_lt_range
  intro i j hij
  have : (i : ℝ) < j := by exact_mod_cast hij
  exact mul_lt_mul_of_pos_right this (div_pos hb hn')

theorem lin_mem {b : ℝ} (hb : 0 < b) {n : ℕ} (hn : 2 ≤ n) {x : ℝ} (h : x ∈ lin b n) : 0 ≤ x ∧ x ≤ b := by
  obtain ⟨i, hi, rfl⟩ := List.mem_map.1 h
  have hi := List.mem_range.1 hi
  have hn' : (0 : ℝ) < (n : ℝ) - 1 := by have : (2 : ℝ) ≤ n := by exact_mod_cast hn
                                         linarith
  have hi' : (i : ℝ) ≤ (n : ℝ) - 1 := by
    have : ((i + 1 : ℕ) : ℝ) ≤ n := by exact_mod_cast hi
    push_cast at this; linarith
  refine ⟨by positivity, ?_⟩
  rw [mul_div_assoc', div_le_iff₀ hn', mul_comm]
  exact mul_le_mul_of_nonneg_left hi' hb.le

theorem lin_ends {b : ℝ} {n : ℕ} (hn : 2 ≤ n) : ∃ h : lin b n ≠ [], (lin b n).head h = 0 ∧ (lin b n).getLast h = b := by
  have h : lin b n ≠ [] := by rw [← List.length_pos_iff, lin_length]; omega
  refine ⟨h, ?_, ?_⟩
  · rw [List.head_eq_getElem, lin_get]; simp
  · rw [List.getLast_eq_getElem, lin_get, lin_length]
    have hn' : (n : ℝ) - 1 ≠ 0 := by have : (2 : ℝ) ≤ n := by exact_mod_cast hn
                                     intro; linarith
    rw [Nat.cast_sub (by omega)]
    push_cast; field_simp

theorem init_lin {n k : ℕ} (hn : 2 ≤ n) (hk : 2 ≤ k) :
    Geom.init (.arr (lin Real.pi n)) (.arr (lin (2 * Real.pi) k)) = .ok (meshgrid (lin Real.pi n) (lin (2 * Real.pi) k)) := by
  refine init_ok (lin_ends hn).1 (lin_ends hk).1 ?_ ?_
  · intro x hx y hy
    have h1 := lin_mem Real.pi_pos hn hx
    have h2 := lin_mem Real.pi_pos hn hy
    linarith
  · intro x hx y hy
    have h1 := lin_mem Real.two_pi_pos hk hx
    have h2 := lin_mem Real.two_pi_pos hk hy
    linarith

theorem init_of_corners {p a : CornerArg} {P A : List ℝ} (h : corners p a = .ok (.arr P, .arr A)) :
    Geom.init p a = Geom.init (.arr P) (.arr A) := by
  rw [Geom.init, Geom.init, h]; rfl

theorem init_ints {n k : ℕ} : Geom.init (.int n) (.int k) = Geom.init (.arr (lin Real.pi n)) (.arr (lin (2 * Real.pi) k)) := by
  apply init_of_corners
  simp only [corners, linspace_eq]; rfl

theorem init_int_none {n : ℕ} :
    Geom.init (.int n) .none = Geom.init (.arr (lin Real.pi n)) (.arr (lin (2 * Real.pi) (2 * n))) := by
  apply init_of_corners
  have h : linspace 0 (2 * Real.pi) (2 * ((lin Real.pi n).length : ℤ)) = .ok (lin (2 * Real.pi) (2 * n)) := by
    rw [lin_length]; exact_mod_cast linspace_eq (2 * Real.pi) (2 * n)
  simp only [corners, linspace_eq, bind, Except.bind, h]; rfl

theorem init_none_none :
    Geom.init .none .none = Geom.init (.arr (lin Real.pi 65)) (.arr (lin (2 * Real.pi) 130)) := by
  apply init_of_corners
  have h0 : linspace 0 Real.pi (64 + 1) = .ok (lin Real.pi 65) := by exact_mod_cast linspace_eq Real.pi 65
  have h : linspace 0 (2 * Real.pi) (2 * ((lin Real.pi 65).length : ℤ)) = .ok (lin (2 * Real.pi) 130) := by
    rw [lin_length]; exact_mod_cast linspace_eq (2 * Real.pi) 130
  simp only [corners, h0, bind, Except.bind, h]; rfl

end Geometry

/-! ## C46 -/

/-- **C46.** Shapes: corners are indexed (azimuth, polar); facets are one fewer in each direction. -/
theorem C46_shape (P A : List ℝ) (g : Geom) (h : Geom.init (.arr P) (.arr A) = .ok g) :
    g.shape = (A.length, P.length) ∧ HasShape g.polar A.length P.length ∧ HasShape g.azim A.length P.length ∧
    HasShape g.areas (A.length - 1) (P.length - 1) ∧ HasShape g.centers.1 (A.length - 1) (P.length - 1) ∧
    HasShape g.centers.2 (A.length - 1) (P.length - 1) ∧ HasShape g.unitNormals (A.length - 1) (P.length - 1) := by
  obtain ⟨rfl, _, hA⟩ := init_arr h
  rw [areas_eq, centers_eq, normals_eq]
  refine ⟨?_, ?_, ?_, grid_shape _ _ _, grid_shape _ _ _, grid_shape _ _ _, grid_shape _ _ _⟩
  · cases A with
    | nil => exact absurd rfl hA
    | cons a A => simp [Geom.shape, meshgrid]
  · simp [HasShape, meshgrid]
  · simp [HasShape, meshgrid]

/-- **C46.** Facet `[j, i]` lies between polar corners `i`, `i + 1` and azimuthal corners `j`, `j + 1`: its centre is the
middle, its area that of the zone cut to the azimuth interval, its normal the unit vector to the centre. -/
theorem C46_facets (P A : List ℝ) (g : Geom) (h : Geom.init (.arr P) (.arr A) = .ok g) (i j : ℕ)
    (hi : i + 1 < P.length) (hj : j + 1 < A.length) :
    at2 g.centers.1 j i = some ((P[i] + P[i + 1]) / 2) ∧ at2 g.centers.2 j i = some ((A[j] + A[j + 1]) / 2) ∧
    at2 g.areas j i = some ((Real.cos P[i] - Real.cos P[i + 1]) * (A[j + 1] - A[j])) ∧
    at2 g.unitNormals j i = some (rectFromSpherical 1 ((P[i] + P[i + 1]) / 2) ((A[j] + A[j + 1]) / 2)) := by
  obtain ⟨rfl, _, _⟩ := init_arr h
  rw [areas_eq, centers_eq, normals_eq]
  exact ⟨at2_grid P A _ j i hj hi, at2_grid P A _ j i hj hi, at2_grid P A _ j i hj hi, at2_grid P A _ j i hj hi⟩

/-- **C46.** The areas add up to the area of the whole patch. -/
theorem C46_total (P A : List ℝ) (g : Geom) (h : Geom.init (.arr P) (.arr A) = .ok g) (hP : P ≠ []) (hA : A ≠ []) :
    total g.areas = (Real.cos (P.head hP) - Real.cos (P.getLast hP)) * (A.getLast hA - A.head hA) := by
  obtain ⟨rfl, _, _⟩ := init_arr h
  rw [total_eq, areas_eq]
  cases P with
  | nil => exact absurd rfl hP
  | cons p P =>
    cases A with
    | nil => exact absurd rfl hA
    | cons a A =>
      rw [sum2_mul (p :: P) (a :: A) (fun p => Real.cos p.1 - Real.cos p.2) (fun a => a.2 - a.1)]
      have h1 := telescope (fun x => -Real.cos x) p P
      have h2 := telescope (fun x => x) a A
      simp only [neg_sub_neg] at h1
      rw [h1, h2]; simp

/-- **C46.** Areas are positive on increasing corners (polar corners between 0 and π). -/
theorem C46_positive (P A : List ℝ) (g : Geom) (h : Geom.init (.arr P) (.arr A) = .ok g) (iP : Increasing P)
    (iA : Increasing A) (h0 : ∀ p ∈ P, 0 ≤ p ∧ p ≤ Real.pi) (j i : ℕ) (x : ℝ) (hx : at2 g.areas j i = some x) :
    0 < x := by
  obtain ⟨rfl, _, _⟩ := init_arr h
  rw [areas_eq] at hx
  obtain ⟨p, hp, a, ha, _, _, rfl⟩ := at2_grid_inv hx
  have h1 := steps_lt iP hp
  have h2 := steps_lt iA ha
  have h3 := mem_steps hp
  have := Real.cos_lt_cos_of_nonneg_of_le_pi (h0 _ h3.1).1 (h0 _ h3.2).2 h1
  exact mul_pos (by linarith) (by linarith)

/-- **C46.** Grids given by numbers of corners (at least two) are accepted, equal the grids of equidistant corners, and
their areas add up to `4π`. -/
theorem C46_full_sphere (n k : ℕ) (hn : 2 ≤ n) (hk : 2 ≤ k) :
    ∃ g, Geom.init (.int n) (.int k) = .ok g ∧ g.shape = (k, n) ∧ total g.areas = 4 * Real.pi ∧
      (∀ j i x, at2 g.areas j i = some x → 0 < x) ∧
      ∃ P A : List ℝ, Geom.init (.arr P) (.arr A) = .ok g ∧ P.length = n ∧ A.length = k ∧ Increasing P ∧ Increasing A ∧
        (∀ i (h : i < P.length), P[i] = (i : ℝ) * (Real.pi / ((n : ℝ) - 1))) ∧
        ∀ i (h : i < A.length), A[i] = (i : ℝ) * (2 * Real.pi / ((k : ℝ) - 1)) := by
  have h := init_lin hn hk
  obtain ⟨hP, p0, p1⟩ := lin_ends (b := Real.pi) hn
  obtain ⟨hA, a0, a1⟩ := lin_ends (b := 2 * Real.pi) hk
  have iP := lin_increasing Real.pi_pos hn
  have iA := lin_increasing Real.two_pi_pos hk
  refine ⟨_, init_ints.trans h, ?_, ?_, ?_, lin Real.pi n, lin (2 * Real.pi) k, h, lin_length _ _, lin_length _ _, iP, iA,
    fun i hi => lin_get _ _ _ hi, fun i hi => lin_get _ _ _ hi⟩
  · rw [(C46_shape _ _ _ h).1, lin_length, lin_length]
  · rw [C46_total _ _ _ h hP hA, p0, p1, a0, a1]; simp; ring
  · exact C46_positive _ _ _ h iP iA fun p hp => lin_mem Real.pi_pos hn hp

/-- **C46.** With one number, there are twice as many azimuthal as polar corners; without arguments 65 polar corners. -/
theorem C46_default (n : ℕ) :
    Geom.init (.int n) .none = Geom.init (.int n) (.int (2 * n : ℕ)) ∧
    Geom.init .none .none = Geom.init (.int 65) (.int 130) := by
  refine ⟨by rw [init_int_none, init_ints], ?_⟩
  rw [init_none_none]
  exact_mod_cast (init_ints (n := 65) (k := 130)).symm

/-- **C46.** A negative number of corners, or none, raises ValueError. -/
theorem C46_too_few (n : ℤ) (k : CornerArg) (hk : k = .none ∨ ∃ q : ℤ, k = .int q) (hn : n ≤ 0) :
    Geom.init (.int n) k = .error .value := by
  have : linspace 0 Real.pi n = .error .value ∨ linspace 0 Real.pi n = .ok [] := by
    rcases hn.lt_or_eq with h | rfl
    · exact Or.inl (by rw [linspace, if_pos h])
    · exact Or.inr (by simp [linspace])
  rcases hk with rfl | ⟨q, rfl⟩
  · rcases this with h | h
    · rw [Geom.init]; simp only [corners, h, bind, Except.bind]
    · have h2 : linspace 0 (2 * Real.pi) (2 * (([] : List ℝ).length : ℤ)) = .ok [] := by simp [linspace]
      rw [Geom.init]; simp only [corners, h, bind, Except.bind, h2, pure, Except.pure, CornerArg.values, extent]
      rfl
  · rcases this with h | h
    · rw [Geom.init]; simp only [corners, h, bind, Except.bind]
    · rw [Geom.init]; simp only [corners, h, bind, Except.bind]
      rcases hq : linspace 0 (2 * Real.pi) q with e | A
      · rw [linspace] at hq
        split_ifs at hq
        · exact hq.symm ▸ rfl
      · simp only [pure, Except.pure, CornerArg.values, extent]; rfl

/-- **C46.** Mixed arguments: a number next to an array is not expanded into corners; the grid has a single corner in
that direction and no facets. One missing argument raises TypeError. -/
theorem C46_mixed (n : ℤ) (xs : List ℝ) (g : Geom) :
    (Geom.init (.int n) (.arr xs) = .ok g → g.areas.flatten = [] ∧ g.shape = (xs.length, 1)) ∧
    (Geom.init (.arr xs) (.int n) = .ok g → g.areas.flatten = [] ∧ g.shape = (1, xs.length)) ∧
    (xs ≠ [] → (∀ x ∈ xs, ∀ y ∈ xs, x - y ≤ Real.pi) → Geom.init (.arr xs) .none = .error .type) ∧
    Geom.init .none (.arr xs) = .error .type ∧ Geom.init .none (.int n) = .error .type := by
  have e1 : Geom.init (.int n) (.arr xs) = Geom.init (.arr [(n : ℝ)]) (.arr xs) := rfl
  have e2 : Geom.init (.arr xs) (.int n) = Geom.init (.arr xs) (.arr [(n : ℝ)]) := rfl
  refine ⟨fun h => ?_, fun h => ?_, fun hne hx => ?_, rfl, rfl⟩
  · rw [e1] at h
    refine ⟨?_, (C46_shape _ _ _ h).1⟩
    obtain ⟨rfl, _, _⟩ := init_arr h
    rw [areas_eq]; simp [grid, steps]
  · rw [e2] at h
    refine ⟨?_, (C46_shape _ _ _ h).1⟩
    obtain ⟨rfl, _, _⟩ := init_arr h
    rw [areas_eq]; simp [grid, steps]
  · obtain ⟨e, k1, k2⟩ := extent_le hne hx
    rw [Geom.init]
    simp only [corners, bind, Except.bind, CornerArg.values, k1, resAssert, if_pos k2]
    rfl

/-- A grid of two by two facets over an octant-like patch. -/
example : ∃ g, Geom.init (.arr [0, 1, 2]) (.arr [0, 1, 3]) = .ok g ∧ Increasing [0, 1, 2] ∧ Increasing [0, 1, 3] := by
  have hpi := Real.pi_gt_three
  refine ⟨_, init_ok (by simp) (by simp) ?_ ?_, ?_, ?_⟩
  · simp only [List.mem_cons, List.not_mem_nil, or_false]
    rintro x (rfl | rfl | rfl) y (rfl | rfl | rfl) <;> linarith
  · simp only [List.mem_cons, List.not_mem_nil, or_false]
    rintro x (rfl | rfl | rfl) y (rfl | rfl | rfl) <;> linarith
  · norm_num [Increasing]
  · norm_num [Increasing]

/-! ## C47 -/

theorem inner_vec (d n : ℝ × ℝ × ℝ) : inner ℝ (vec d) (vec n) = dot3 d n := by
  simp [vec, dot3, Fin.sum_univ_three, EuclideanSpace.inner_eq_star_dotProduct, dotProduct]; ring

theorem norm_vec (d : ℝ × ℝ × ℝ) : ‖vec d‖ = Real.sqrt (d.1 ^ 2 + d.2.1 ^ 2 + d.2.2 ^ 2) := by
  rw [EuclideanSpace.norm_eq]; simp [vec, Fin.sum_univ_three]

/-- **C47.** All facet normals have length one. -/
theorem C47_unit_normals (g : Geom) (j i : ℕ) (n : ℝ × ℝ × ℝ) (h : at2 g.unitNormals j i = some n) :
    ‖vec n‖ = 1 := by
  have hm : n ∈ g.unitNormals.flatten := by
    rw [at2] at h
    rcases hr : g.unitNormals[j]? with _ | r
    · rw [hr] at h; simp at h
    · rw [hr] at h
      exact List.mem_flatten.2 ⟨r, List.mem_of_getElem? hr, List.mem_of_getElem? h⟩
  obtain ⟨r, hr, hn⟩ := List.mem_flatten.1 hm
  rw [Geom.unitNormals, map2, ← List.map_uncurry_zip_eq_zipWith] at hr
  obtain ⟨⟨u, v⟩, _, rfl⟩ := List.mem_map.1 hr
  rw [Function.uncurry, ← List.map_uncurry_zip_eq_zipWith] at hn
  obtain ⟨⟨θ, φ⟩, _, rfl⟩ := List.mem_map.1 hn
  rw [norm_vec, Real.sqrt_eq_one]
  simp only [Function.uncurry, rectFromSpherical]
  have a := Real.sin_sq_add_cos_sq θ
  have b := Real.sin_sq_add_cos_sq φ
  linear_combination Real.sin θ ^ 2 * b + a

theorem at2_map1 {α β : Type} (f : α → β) (x : Arr2 α) (j i : ℕ) : at2 (map1 f x) j i = (at2 x j i).map f := by
  rw [at2, at2, map1, List.getElem?_map]
  cases x[j]? <;> simp

theorem projFrac_at (g : Geom) (d : ℝ × ℝ × ℝ) (j i : ℕ) (w : ℝ) (h : at2 (g.projFrac d) j i = some w) :
    ∃ n, at2 g.unitNormals j i = some n ∧ w = max 0 (dot3 d n / ‖vec d‖) := by
  rw [Geom.projFrac, at2_map1, at2_map1, Option.map_map] at h
  obtain ⟨n, hn, rfl⟩ := Option.map_eq_some_iff.1 h
  refine ⟨n, hn, ?_⟩
  rw [norm_vec]
  have : dot3 (d.1 / Real.sqrt (d.1 ^ 2 + d.2.1 ^ 2 + d.2.2 ^ 2), d.2.1 / Real.sqrt (d.1 ^ 2 + d.2.1 ^ 2 + d.2.2 ^ 2),
      d.2.2 / Real.sqrt (d.1 ^ 2 + d.2.1 ^ 2 + d.2.2 ^ 2)) n = dot3 d n / Real.sqrt (d.1 ^ 2 + d.2.1 ^ 2 + d.2.2 ^ 2) := by
    simp only [dot3]; ring
  simp only [Function.comp, this]
  split_ifs with hp
  · rw [max_eq_right hp.le]
  · rw [max_eq_left (not_lt.1 hp)]

/-- **C47.** The projected visible area fraction of a facet is the cosine of the angle between its normal and the
direction, or 0 if that is negative; it lies between 0 and 1. -/
theorem C47_cosine (g : Geom) (d : ℝ × ℝ × ℝ) (j i : ℕ) (w : ℝ)
    (h : at2 (g.projFrac d) j i = some w) :
    0 ≤ w ∧ w ≤ 1 ∧ ∃ n, at2 g.unitNormals j i = some n ∧
      w = max 0 (Real.cos (InnerProductGeometry.angle (vec d) (vec n))) := by
  obtain ⟨n, hn, rfl⟩ := projFrac_at g d j i w h
  have h1 : dot3 d n / ‖vec d‖ = Real.cos (InnerProductGeometry.angle (vec d) (vec n)) := by
    rw [InnerProductGeometry.cos_angle, C47_unit_normals g j i n hn, mul_one, inner_vec]
  rw [h1]
  exact ⟨le_max_left _ _, max_le zero_le_one (Real.cos_le_one _), n, hn, rfl⟩

/-- **C47.** Every facet gets a value: the array has the shape of the normals. -/
theorem C47_shape (g : Geom) (d : ℝ × ℝ × ℝ) (j i : ℕ) :
    (at2 (g.projFrac d) j i).isSome = (at2 g.unitNormals j i).isSome := by
  rw [Geom.projFrac, at2_map1, at2_map1, Option.map_map, Option.isSome_map]

/-- **C47.** Only the direction matters, not its length. -/
theorem C47_length (g : Geom) (d : ℝ × ℝ × ℝ) (c : ℝ) (hc : 0 < c) :
    g.projFrac (c * d.1, c * d.2.1, c * d.2.2) = g.projFrac d := by
  have : Real.sqrt ((c * d.1) ^ 2 + (c * d.2.1) ^ 2 + (c * d.2.2) ^ 2)
      = c * Real.sqrt (d.1 ^ 2 + d.2.1 ^ 2 + d.2.2 ^ 2) := by
    rw [← Real.sqrt_sq hc.le, ← Real.sqrt_mul (sq_nonneg c), Real.sqrt_sq hc.le]; congr 1; ring
  simp only [Geom.projFrac, this, mul_div_mul_left _ _ hc.ne']

/-- **C47.** No facet is visible from both sides. -/
theorem C47_one_side (g : Geom) (d : ℝ × ℝ × ℝ) (j i : ℕ) (w w' : ℝ) (h : at2 (g.projFrac d) j i = some w)
    (h' : at2 (g.projFrac (-d.1, -d.2.1, -d.2.2)) j i = some w') : w = 0 ∨ w' = 0 := by
  obtain ⟨n, hn, rfl⟩ := projFrac_at g d j i w h
  obtain ⟨n', hn', rfl⟩ := projFrac_at g _ j i w' h'
  obtain rfl : n = n' := by rw [hn] at hn'; exact Option.some.inj hn'
  have hd : dot3 (-d.1, -d.2.1, -d.2.2) n = -dot3 d n := by simp only [dot3]; ring
  have hv : ‖vec (-d.1, -d.2.1, -d.2.2)‖ = ‖vec d‖ := by rw [norm_vec, norm_vec]; simp
  rw [hd, hv, neg_div]
  rcases le_total (dot3 d n / ‖vec d‖) 0 with h0 | h0
  · exact Or.inl (max_eq_left h0)
  · exact Or.inr (max_eq_left (by linarith))

/-- A facet seen under an angle of 45 degrees. -/
example : at2 ((meshgrid [0, Real.pi] [0, 2 * Real.pi]).projFrac (-1, 0, 1)) 0 0 = some (1 / Real.sqrt 2) := by
  rw [Geom.projFrac, normals_eq]
  simp [grid, steps, at2, map1, mid, rectFromSpherical, dot3]
  rw [if_pos (by rw [neg_div]; have : 0 < 1 / Real.sqrt (1 + 1) := by positivity
                 linarith), neg_div, neg_neg, one_div]
  norm_num

end Verif
