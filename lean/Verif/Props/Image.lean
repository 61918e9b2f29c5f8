import Verif.Props.Cache
import Verif.Props.Geometry
import Verif.Props.ContainerAlgebra
import Verif.Lemmas.ZdiSet

/-!
# C57: spherical harmonic analysis and synthesis of images
-/

namespace Verif
open Spec Geometry Image Coefs

namespace Spec

/-- Entry `[j, i]` of an image. -/
def pixel (x : List (List ℂ)) (j i : ℕ) : ℂ := (x.getD j []).getD i 0

/-- The middle between corners `i` and `i + 1`, and their distance. -/
noncomputable def midOf (xs : List ℝ) (i : ℕ) : ℝ := (xs.getD i 0 + xs.getD (i + 1) 0) / 2
noncomputable def gapOf (xs : List ℝ) (i : ℕ) : ℝ := xs.getD (i + 1) 0 - xs.getD i 0

/-- The weight of facet `[j, i]`. -/
noncomputable def facetWeight (P A : List ℝ) (j i : ℕ) : ℝ := Real.sin (midOf P i) * gapOf A j * gapOf P i

/-- Midpoint quadrature of the image against a harmonic. -/
noncomputable def quadrature (Y : SphHarm) (P A : List ℝ) (x : ℕ → ℕ → ℂ) (l m : ℤ) : ℂ :=
  ∑ j ∈ Finset.range (A.length - 1), ∑ i ∈ Finset.range (P.length - 1),
    (starRingEnd ℂ) (Y m l (midOf A j) (midOf P i)) * x j i * facetWeight P A j i

end Spec

namespace Image

/-- The array with given entries. -/
def arrOf {α : Type} (n k : ℕ) (f : ℕ → ℕ → α) : Arr2 α := (List.range n).map fun j => (List.range k).map fun i => f j i

theorem map1_mk {α β : Type} (n k : ℕ) (f : ℕ → ℕ → α) (h : α → β) : map1 h (arrOf n k f) = arrOf n k fun j i => h (f j i) := by
  simp [map1, arrOf, Function.comp_def]

theorem map2_mk {α β γ : Type} (n k : ℕ) (f : ℕ → ℕ → α) (g : ℕ → ℕ → β) (h : α → β → γ) :
    map2 h (arrOf n k f) (arrOf n k g) = arrOf n k fun j i => h (f j i) (g j i) := by
  simp [map2, arrOf, List.zipWith_map, List.zipWith_self]

theorem mk_congr {α : Type} {n k : ℕ} {f g : ℕ → ℕ → α} (h : ∀ j < n, ∀ i < k, f j i = g j i) : arrOf n k f = arrOf n k g := by
  refine List.map_congr_left fun j hj => List.map_congr_left fun i hi => ?_
  exact h j (List.mem_range.1 hj) i (List.mem_range.1 hi)

theorem sum_mk (n k : ℕ) (f : ℕ → ℕ → ℂ) :
    (arrOf n k f).flatten.sum = ∑ j ∈ Finset.range n, ∑ i ∈ Finset.range k, f j i := by
  have h : ∀ (g : ℕ → ℂ) (n : ℕ), ((List.range n).map g).sum = ∑ j ∈ Finset.range n, g j := by
    intro g n
    induction n with
    | zero => rfl
    | succ n ih => rw [List.range_succ, List.map_append, List.sum_append, ih, Finset.sum_range_succ]; simp
  rw [List.sum_flatten, arrOf, List.map_map, ← h]
  exact congrArg List.sum (List.map_congr_left fun j _ => h _ _)

theorem list_eq_range {α : Type} (xs : List α) (d : α) : xs = (List.range xs.length).map fun i => xs.getD i d := by
  apply List.ext_getElem (by simp)
  intro i h1 h2
  simp [List.getD_eq_getElem?_getD, List.getElem?_eq_getElem h1]

theorem eq_mk {x : Arr2 ℂ} {n k : ℕ} (h : HasShape x n k) : x = arrOf n k (pixel x) := by
  obtain ⟨rfl, h2⟩ := h
  conv_lhs => rw [list_eq_range x []]
  refine List.map_congr_left fun j hj => ?_
  have hj := List.mem_range.1 hj
  have hk : (x.getD j []).length = k := by
    rw [List.getD_eq_getElem?_getD, List.getElem?_eq_getElem hj]
    exact h2 _ (List.getElem_mem hj)
  conv_lhs => rw [list_eq_range (x.getD j []) 0, hk]
  rfl

theorem steps_range (xs : List ℝ) :
    steps xs = (List.range (xs.length - 1)).map fun i => (xs.getD i 0, xs.getD (i + 1) 0) := by
  apply List.ext_getElem (by simp [steps])
  intro i h1 h2
  have h3 : i + 1 < xs.length := by simp at h2; omega
  simp [steps, List.getD_eq_getElem?_getD, List.getElem?_eq_getElem h3,
    List.getElem?_eq_getElem (show i < xs.length by omega)]

theorem grid_mk {α : Type} (P A : List ℝ) (f : ℝ × ℝ → ℝ × ℝ → α) :
    grid P A f = arrOf (A.length - 1) (P.length - 1) fun j i =>
      f (P.getD i 0, P.getD (i + 1) 0) (A.getD j 0, A.getD (j + 1) 0) := by
  rw [grid, steps_range P, steps_range A, arrOf, List.map_map]
  simp [Function.comp_def]

theorem deltas_mesh {P A : List ℝ} (hP : 2 ≤ P.length) (hA : 2 ≤ A.length) :
    deltas (meshgrid P A) = .ok (grid P A (fun p _ => p.2 - p.1), grid P A (fun _ a => a.2 - a.1)) := by
  obtain ⟨h1, h2, h3, h4⟩ := polar_slices P A
  obtain ⟨k1, k2, k3, k4⟩ := azim_slices P A
  have e1 : ∀ x y : Arr2 ℝ, rTail (map2 (fun x y => y - x) x y) = map2 (fun x y => y - x) (rTail x) (rTail y) := by
    intro x y; simp [rTail, map2, List.tail_zipWith]
  have e2 : ∀ x y : Arr2 ℝ, cTail (map2 (fun x y => y - x) x y) = map2 (fun x y => y - x) (cTail x) (cTail y) := by
    intro x y
    simp only [cTail, map2, List.map_zipWith, List.zipWith_map, List.tail_zipWith]
  rw [deltas, if_neg]
  · rw [e1, e2, h3, h4, map2_grid, (cr_comm _).2.1, (cr_comm _).2.2, k2, k4, map2_grid]
  · have : A ≠ [] := by rintro rfl; simp at hA
    obtain ⟨a, A, rfl⟩ := List.exists_cons_of_ne_nil this
    have : P ≠ [] := by rintro rfl; simp at hP
    simp [meshgrid, this]

theorem cachedValue_mesh {P A : List ℝ} (hP : 2 ≤ P.length) (hA : 2 ≤ A.length) (Y : SphHarm) (m l : ℤ) :
    cachedValue Y m l (meshgrid P A).centers.2 (meshgrid P A).centers.1
      = .ok (arrOf (A.length - 1) (P.length - 1) fun j i => Y m l (midOf A j) (midOf P i)) := by
  have hne : ∀ xs : List ℝ, 2 ≤ xs.length → (steps xs).map mid ≠ [] := by
    intro xs h e
    have := congrArg List.length e
    simp [steps] at this; omega
  have hk := ckey_mesh (hne A hA) (hne P hP) (azimuth := (meshgrid P A).centers.2) (polar := (meshgrid P A).centers.1)
    (by rw [centers_eq]; simp [grid, Function.comp_def]) (by rw [centers_eq]; simp [grid, Function.comp_def]) m l
  rw [cachedValue, hk]
  show Except.ok _ = _
  congr 1
  simp only [body, steps_range, List.map_map, arrOf, Function.comp_def]
  rfl

theorem mem_indices (L : ℤ) (k : Key) : k ∈ indices L ↔ |k.2| ≤ k.1 ∧ k.1 < L := by
  obtain ⟨l, m⟩ := k
  simp only [indices, List.mem_flatMap, List.mem_map, mem_pyRange, Prod.mk.injEq]
  constructor
  · rintro ⟨a, h1, b, h2, rfl, rfl⟩
    exact ⟨abs_le.2 ⟨by omega, by omega⟩, by omega⟩
  · rintro ⟨h1, h2⟩
    have := abs_le.1 h1
    have := abs_nonneg m
    exact ⟨l, by omega, m, by omega, rfl, rfl⟩

private theorem nodup_flat (xs : List ℤ) (hx : xs.Nodup) (f : ℤ → List ℤ) (hf : ∀ l, (f l).Nodup) :
    (xs.flatMap fun l => (f l).map fun m => (l, m)).Nodup := by
  rw [List.nodup_flatMap]
  refine ⟨fun l _ => (hf l).map fun a b h => (Prod.mk.inj h).2, ?_⟩
  refine hx.imp fun {a b} hab => ?_
  intro k hk hk'
  obtain ⟨_, _, rfl⟩ := List.mem_map.1 hk
  obtain ⟨_, _, h⟩ := List.mem_map.1 hk'
  exact hab (Prod.mk.inj h).1.symm

theorem indices_nodup (L : ℤ) : (indices L).Nodup := nodup_flat _ (pyRange_nodup _ _) _ fun _ => pyRange_nodup _ _
theorem positiveLm_nodup (L : ℤ) : (positiveLm L).Nodup := nodup_flat _ (pyRange_nodup _ _) _ fun _ => pyRange_nodup _ _

private theorem pyRange_succ (n : ℕ) : pyRange 0 ((n : ℤ) + 1) = pyRange 0 n ++ [(n : ℤ)] := by
  have : ((n : ℤ) + 1 - 0).toNat = n + 1 := by omega
  rw [pyRange, pyRange, this, List.range_succ]
  simp

theorem indices_length (n : ℕ) : (indices n).length = n ^ 2 := by
  induction n with
  | zero => rfl
  | succ n ih =>
    rw [indices] at *
    push_cast
    rw [pyRange_succ, List.flatMap_append, List.length_append, ih]
    simp [pyRange_length]
    have : ((n : ℤ) + 1 + n).toNat = 2 * n + 1 := by omega
    rw [this]; ring

theorem positiveLm_length (n : ℕ) : 2 * (positiveLm n).length = (n + 1) * (n + 2) := by
  induction n with
  | zero => rfl
  | succ n ih =>
    rw [positiveLm] at *
    have e : ((n + 1 : ℕ) : ℤ) + 1 = ((n + 1 : ℕ) : ℤ) + 1 := rfl
    rw [pyRange_succ, List.flatMap_append, List.length_append, mul_add]
    push_cast at *
    rw [ih]
    simp [pyRange_length]
    have : ((n : ℤ) + 1 + 1).toNat = n + 2 := by omega
    rw [this]; ring

end Image

/-! ## C57 -/

/-- Every geometry is a mesh of corner arrays. -/
theorem C57_geometry (p a : CornerArg) (g : Geom) (h : Geom.init p a = .ok g) : ∃ P A, g = meshgrid P A := by
  rw [Geom.init] at h
  rcases hc : corners p a with e | ⟨p', a'⟩
  · rw [hc] at h; cases h
  · rw [hc] at h
    simp only [bind, Except.bind] at h
    rcases h1 : extent p'.values with e | ep
    · rw [h1] at h; cases h
    · rw [h1] at h
      simp only [resAssert] at h
      split_ifs at h
      · simp only [pure, Except.pure] at h
        rcases h2 : extent a'.values with e | ea
        · rw [h2] at h; cases h
        · rw [h2] at h
          simp only at h
          split_ifs at h
          simp only at h
          exact ⟨_, _, (Except.ok.inj h).symm⟩

/-- **C57.** `from_image` stores exactly the pairs with |m| ≤ l < lmax (so not degree lmax), and at each the midpoint
quadrature of the image. -/
theorem C57_from_image (Y : SphHarm) (P A : List ℝ) (hP : 2 ≤ P.length) (hA : 2 ≤ A.length) (x : List (List ℂ))
    (hx : HasShape x (A.length - 1) (P.length - 1)) (L : ℤ) :
    ∃ s, fromImage Y x (some (meshgrid P A)) L = .ok (s, meshgrid P A) ∧ WellFormed s ∧
      (∀ l m, stores s l m ↔ |m| ≤ l ∧ l < L) ∧
      ∀ l m, coef s l m = if |m| ≤ l ∧ l < L then quadrature Y P A (pixel x) l m else 0 := by
  obtain ⟨s, h1, h2, h3, h4, h5, h6⟩ := build_ok ([0] : List ℂ) .cplx (by simp) (indices L)
    (fun k => [quadrature Y P A (pixel x) k.1 k.2]) (indices_nodup L) (fun k hk => ((mem_indices L k).1 hk).1)
    (fun _ _ => rfl)
  refine ⟨s, ?_, wellFormed_of_WF h2, fun l m => by rw [stores, has_int, h3, mem_indices], fun l m => ?_⟩
  · have hshape : sameShape x (meshgrid P A).centers.1 = true := by
      rw [sameShape, decide_eq_true_eq, centers_eq, grid_mk]
      conv_lhs => rw [eq_mk hx]
      simp only [arrOf, List.map_map, Function.comp_def, List.length_map]
    have hrows : (indices L).mapM (fun k => (do
        let ylm ← cachedValue Y k.2 k.1 (meshgrid P A).centers.2 (meshgrid P A).centers.1
        pure (intRow k [(map2 (fun y f => (starRingEnd ℂ) y * f) ylm
          (map2 (· * ·) (map2 (· * ·) (map2 (· * ·) x
            (map1 (fun p => ((Real.sin p : ℝ) : ℂ)) (meshgrid P A).centers.1))
            (map1 (fun x : ℝ => (x : ℂ)) (grid P A (fun _ a => a.2 - a.1))))
            (map1 (fun x : ℝ => (x : ℂ)) (grid P A (fun p _ => p.2 - p.1))))).flatten.sum]) : Res _))
        = .ok ((indices L).map fun k => intRow k [quadrature Y P A (pixel x) k.1 k.2]) := by
      apply mapM_pure_ok
      intro k _
      rw [cachedValue_mesh hP hA]
      show Except.ok _ = _
      refine congrArg (fun z : ℂ => (Except.ok (intRow k [z]) : Res _)) ?_
      conv_lhs => rw [eq_mk hx]
      rw [centers_eq]
      simp only [grid_mk, map1_mk, map2_mk, sum_mk, quadrature]
      refine Finset.sum_congr rfl fun j _ => Finset.sum_congr rfl fun i _ => ?_
      simp only [facetWeight, midOf, gapOf, mid]
      push_cast
      ring
    rw [fromImage]
    simp only [bind, Except.bind, pure, Except.pure, deltas_mesh hP hA, hshape, Bool.true_eq_false, if_false]
    have := hrows
    simp only [bind, Except.bind, pure, Except.pure] at this
    rw [this]
    simp only [h1]
  · rw [coef, valueAt_eq, h6]
    by_cases hk : |m| ≤ l ∧ l < L
    · rw [if_pos ((mem_indices L (l, m)).2 hk), if_pos hk]; rfl
    · rw [if_neg (fun h => hk ((mem_indices L (l, m)).1 h)), if_neg hk]; rfl

/-- **C57.** So lmax² pairs are stored. -/
theorem C57_size (Y : SphHarm) (P A : List ℝ) (hP : 2 ≤ P.length) (hA : 2 ≤ A.length) (x : List (List ℂ))
    (hx : HasShape x (A.length - 1) (P.length - 1)) (n : ℕ) (s : Coefs ℂ)
    (h : fromImage Y x (some (meshgrid P A)) n = .ok (s, meshgrid P A)) : s.size = n ^ 2 := by
  obtain ⟨s', h1, hw, hs, _⟩ := C57_from_image Y P A hP hA x hx n
  rw [h1] at h; cases h
  rw [hw.size, ← indices_length n, ← List.toFinset_card_of_nodup (indices_nodup n), ← Set.ncard_coe_finset]
  congr 1
  ext k
  simp only [Set.mem_ofPred_eq, Finset.mem_coe, List.mem_toFinset, mem_indices]
  exact hs k.1 k.2

/-- **C57.** Without a geometry, the full sphere is divided into the pixels of the image. -/
theorem C57_default_geometry (Y : SphHarm) (x : List (List ℂ)) (n k : ℕ) (hn : 0 < n) (hk : 0 < k)
    (hx : HasShape x n k) (L : ℤ) :
    ∃ g, Geom.init (.int (k + 1)) (.int (n + 1)) = .ok g ∧ fromImage Y x none L = fromImage Y x (some g) L := by
  obtain ⟨rfl, h2⟩ := hx
  obtain ⟨r, x', rfl⟩ := List.exists_cons_of_length_pos hn
  have hr : r.length = k := h2 r (by simp)
  have hg := (init_ints (n := k + 1) (k := (r :: x').length + 1)).trans (init_lin (by omega) (by simp))
  refine ⟨_, by exact_mod_cast hg, ?_⟩
  have hg' : Geom.init (.int (((r :: x').headD []).length + 1)) (.int ((r :: x').length + 1))
      = .ok (meshgrid (lin Real.pi (k + 1)) (lin (2 * Real.pi) ((r :: x').length + 1))) := by
    rw [List.headD_cons, hr]; exact_mod_cast hg
  unfold fromImage
  simp only [hg']
  rfl

/-- **C57.** Analysis is linear in the image. -/
theorem C57_linear (Y : SphHarm) (P A : List ℝ) (hP : 2 ≤ P.length) (hA : 2 ≤ A.length) (x y z : List (List ℂ))
    (hx : HasShape x (A.length - 1) (P.length - 1)) (hy : HasShape y (A.length - 1) (P.length - 1))
    (hz : HasShape z (A.length - 1) (P.length - 1)) (c d : ℂ)
    (e : ∀ j i, pixel z j i = c * pixel x j i + d * pixel y j i) (L : ℤ) :
    ∃ sx sy sz, fromImage Y x (some (meshgrid P A)) L = .ok (sx, meshgrid P A) ∧
      fromImage Y y (some (meshgrid P A)) L = .ok (sy, meshgrid P A) ∧
      fromImage Y z (some (meshgrid P A)) L = .ok (sz, meshgrid P A) ∧
      ∀ l m, coef sz l m = c * coef sx l m + d * coef sy l m := by
  obtain ⟨sx, x1, _, _, x4⟩ := C57_from_image Y P A hP hA x hx L
  obtain ⟨sy, y1, _, _, y4⟩ := C57_from_image Y P A hP hA y hy L
  obtain ⟨sz, z1, _, _, z4⟩ := C57_from_image Y P A hP hA z hz L
  refine ⟨sx, sy, sz, x1, y1, z1, fun l m => ?_⟩
  rw [x4, y4, z4]
  split_ifs
  · simp only [quadrature, Finset.mul_sum, ← Finset.sum_add_distrib, e]
    exact Finset.sum_congr rfl fun j _ => Finset.sum_congr rfl fun i _ => by ring
  · simp

/-- **C57.** `to_image` returns the sum of the harmonics at the facet centres; it is linear in the coefficients. -/
theorem C57_to_image (Y : SphHarm) (P A : List ℝ) (hP : 2 ≤ P.length) (hA : 2 ≤ A.length) (s : Coefs ℂ)
    (hw : WellFormed s) (h1 : s.dflt.length = 1) :
    ∃ x, toImage Y s (meshgrid P A) = .ok x ∧ HasShape x (A.length - 1) (P.length - 1) ∧
      ∀ j < A.length - 1, ∀ i < P.length - 1,
        pixel x j i = ∑ k ∈ pairs s, coef s k.1 k.2 * Y k.2 k.1 (midOf A j) (midOf P i) := by
  have hWF := WF_of_wellFormed hw
  have key : ∀ (rows : List (Key × List ℂ)), (∀ kv ∈ rows, kv.2.length = 1) → ∀ f : ℕ → ℕ → ℂ,
      rows.foldlM (fun (image : Arr2 ℂ) kv => (do
        let ylm ← cachedValue Y kv.1.2 kv.1.1 (meshgrid P A).centers.2 (meshgrid P A).centers.1
        (image.zip ylm).mapM fun r => addRow kv.2 r.1 r.2 : Res (Arr2 ℂ))) (arrOf (A.length - 1) (P.length - 1) f)
      = .ok (arrOf (A.length - 1) (P.length - 1) fun j i =>
          f j i + (rows.map fun kv => kv.2.headD 0 * Y kv.1.2 kv.1.1 (midOf A j) (midOf P i)).sum) := by
    intro rows
    induction rows with
    | nil => intro _ f; simp [pure, Except.pure]
    | cons kv rows ih =>
      intro hl f
      obtain ⟨c, hc⟩ := List.length_eq_one_iff.1 (hl kv (by simp))
      rw [List.foldlM_cons, cachedValue_mesh hP hA]
      have hstep : ((arrOf (A.length - 1) (P.length - 1) f).zip (arrOf (A.length - 1) (P.length - 1)
          fun j i => Y kv.1.2 kv.1.1 (midOf A j) (midOf P i))).mapM (fun r => addRow kv.2 r.1 r.2)
          = .ok (arrOf (A.length - 1) (P.length - 1) fun j i => f j i + c * Y kv.1.2 kv.1.1 (midOf A j) (midOf P i)) := by
        have ez : (arrOf (A.length - 1) (P.length - 1) f).zip (arrOf (A.length - 1) (P.length - 1)
            fun j i => Y kv.1.2 kv.1.1 (midOf A j) (midOf P i))
            = (List.range (A.length - 1)).map fun j => ((List.range (P.length - 1)).map (f j),
              (List.range (P.length - 1)).map fun i => Y kv.1.2 kv.1.1 (midOf A j) (midOf P i)) := by
          simp only [arrOf, List.zip_map', ]
        rw [ez, List.mapM_map]
        apply mapM_pure_ok
        intro j _
        simp only [Function.comp, addRow, hc]
        have eb : ∀ ys : List ℂ, bcast (· * ·) [c] ys = .ok (ys.map (c * ·)) := by
          intro ys
          rcases ys with _ | ⟨y, _ | ⟨z, ys⟩⟩ <;> simp [bcast]
        rw [eb]
        simp only [bind, Except.bind, pure, Except.pure, List.length_map, List.length_range, if_true,
          List.map_map, List.zipWith_map, List.zipWith_self, Function.comp_def]
      simp only [bind, Except.bind] at hstep ⊢
      rw [hstep]
      simp only
      have := ih (fun kv' h => hl kv' (by simp [h]))
        (fun j i => f j i + c * Y kv.1.2 kv.1.1 (midOf A j) (midOf P i))
      simp only [bind, Except.bind] at this
      rw [this]
      simp only [List.map_cons, List.sum_cons, hc, List.headD_cons, add_assoc]
  have hrows : ∀ kv ∈ s.contents, kv.2.length = 1 := by
    intro kv h
    rw [((mem_contents s kv).1 h).2, hWF.getI_length, h1]
  have hz : map1 (fun _ => (0 : ℂ)) (meshgrid P A).centers.2 = arrOf (A.length - 1) (P.length - 1) fun _ _ => 0 := by
    rw [centers_eq]
    simp only [grid_mk, map1_mk]
  have hrun := key s.contents hrows fun _ _ => 0
  rw [← hz] at hrun
  refine ⟨_, hrun, ⟨by simp [arrOf], ?_⟩, fun j hj i hi => ?_⟩
  · intro r hr
    obtain ⟨_, _, rfl⟩ := List.mem_map.1 hr
    simp
  · have e1 : ∀ f : ℕ → ℕ → ℂ, pixel (arrOf (A.length - 1) (P.length - 1) f) j i = f j i := by
      intro f; simp [pixel, arrOf, List.getD_eq_getElem?_getD, hj, hi]
    rw [e1, zero_add, contents, List.map_map, pairs_eq]
    have e2 : s.keys.toFinset = (sortKeys s.keys).toFinset := by
      ext k; rw [List.mem_toFinset, List.mem_toFinset, mem_sortKeys]
    rw [e2, List.sum_toFinset _ ((sortKeys_nodup _).2 hWF.nodup)]
    rfl

/-- **C57.** Synthesis is linear in the coefficients, whatever pairs the three sets store. -/
theorem C57_to_image_linear (Y : SphHarm) (P A : List ℝ) (hP : 2 ≤ P.length) (hA : 2 ≤ A.length) (s t u : Coefs ℂ)
    (hs : WellFormed s) (ht : WellFormed t) (hu : WellFormed u) (s1 : s.dflt = [0]) (t1 : t.dflt = [0])
    (u1 : u.dflt = [0]) (c d : ℂ) (e : ∀ l m, coef u l m = c * coef s l m + d * coef t l m) :
    ∃ x y z, toImage Y s (meshgrid P A) = .ok x ∧ toImage Y t (meshgrid P A) = .ok y ∧
      toImage Y u (meshgrid P A) = .ok z ∧ ∀ j < A.length - 1, ∀ i < P.length - 1,
        pixel z j i = c * pixel x j i + d * pixel y j i := by
  obtain ⟨x, x1, _, x3⟩ := C57_to_image Y P A hP hA s hs (by rw [s1]; rfl)
  obtain ⟨y, y1, _, y3⟩ := C57_to_image Y P A hP hA t ht (by rw [t1]; rfl)
  obtain ⟨z, z1, _, z3⟩ := C57_to_image Y P A hP hA u hu (by rw [u1]; rfl)
  refine ⟨x, y, z, x1, y1, z1, fun j hj i hi => ?_⟩
  have key : ∀ w : Coefs ℂ, WellFormed w → w.dflt = [0] → pairs w ⊆ pairs s ∪ (pairs t ∪ pairs u) →
      ∑ k ∈ pairs w, coef w k.1 k.2 * Y k.2 k.1 (midOf A j) (midOf P i)
        = ∑ k ∈ pairs s ∪ (pairs t ∪ pairs u), coef w k.1 k.2 * Y k.2 k.1 (midOf A j) (midOf P i) := by
    intro w hw w1 hT
    simp only [coef_eq_coefCol]
    exact sum_pairs_extend (WF_of_wellFormed hw) (by rw [ZeroDefault, w1]; simp) 0 hT
      (fun k v => v * Y k.2 k.1 (midOf A j) (midOf P i)) (by simp)
  rw [x3 j hj i hi, y3 j hj i hi, z3 j hj i hi, key s hs s1 (by intro; simp +contextual),
    key t ht t1 (by intro; simp +contextual), key u hu u1 (by intro; simp +contextual), Finset.mul_sum, Finset.mul_sum,
    ← Finset.sum_add_distrib]
  exact Finset.sum_congr rfl fun k _ => by rw [e]; ring

/-- **C57.** Analysis is the adjoint of synthesis for the facet weights. -/
theorem C57_adjoint (Y : SphHarm) (P A : List ℝ) (hP : 2 ≤ P.length) (hA : 2 ≤ A.length) (s t : Coefs ℂ)
    (hw : WellFormed s) (h1 : s.dflt.length = 1) (L : ℤ) (hL : ∀ l m, stores s l m → l < L) (x y : List (List ℂ))
    (hx : HasShape x (A.length - 1) (P.length - 1)) (ht : fromImage Y x (some (meshgrid P A)) L = .ok (t, meshgrid P A))
    (hy : toImage Y s (meshgrid P A) = .ok y) :
    ∑ j ∈ Finset.range (A.length - 1), ∑ i ∈ Finset.range (P.length - 1),
      (starRingEnd ℂ) (pixel y j i) * pixel x j i * facetWeight P A j i
    = ∑ k ∈ pairs s, (starRingEnd ℂ) (coef s k.1 k.2) * coef t k.1 k.2 := by
  obtain ⟨t', e1, _, _, ct⟩ := C57_from_image Y P A hP hA x hx L
  rw [ht] at e1; cases e1
  obtain ⟨y', e2, _, cy⟩ := C57_to_image Y P A hP hA s hw h1
  rw [hy] at e2; cases e2
  have h2 : ∀ k ∈ pairs s, (starRingEnd ℂ) (coef s k.1 k.2) * coef t k.1 k.2
      = ∑ j ∈ Finset.range (A.length - 1), ∑ i ∈ Finset.range (P.length - 1),
        (starRingEnd ℂ) (coef s k.1 k.2 * Y k.2 k.1 (midOf A j) (midOf P i)) * pixel x j i * facetWeight P A j i := by
    intro k hk
    have hk := (mem_pairs s k).1 hk
    rw [ct, if_pos ⟨hw.pairs _ _ hk, hL _ _ hk⟩, quadrature, Finset.mul_sum]
    refine Finset.sum_congr rfl fun j _ => ?_
    rw [Finset.mul_sum]
    refine Finset.sum_congr rfl fun i _ => ?_
    rw [map_mul]; ring
  refine Eq.trans ?_ (Finset.sum_congr rfl h2).symm
  refine Eq.trans ?_ Finset.sum_comm
  refine Finset.sum_congr rfl fun j hj => ?_
  refine Eq.trans ?_ Finset.sum_comm
  refine Finset.sum_congr rfl fun i hi => ?_
  rw [cy j (Finset.mem_range.1 hj) i (Finset.mem_range.1 hi), map_sum, Finset.sum_mul, Finset.sum_mul]

/-- **C57.** `positive_lm(L)` yields exactly the pairs with 0 ≤ m ≤ l ≤ L, each once: (L+1)(L+2)/2 of them. -/
theorem C57_positive_lm (n : ℕ) :
    (positiveLm n).Nodup ∧ 2 * (positiveLm n).length = (n + 1) * (n + 2) ∧
    ∀ l m : ℤ, (l, m) ∈ positiveLm n ↔ 0 ≤ m ∧ m ≤ l ∧ l ≤ n := by
  refine ⟨positiveLm_nodup _, positiveLm_length n, fun l m => ?_⟩
  simp only [positiveLm, List.mem_flatMap, List.mem_map, mem_pyRange, Prod.mk.injEq]
  constructor
  · rintro ⟨a, h1, b, h2, rfl, rfl⟩; omega
  · rintro h; exact ⟨l, by omega, m, by omega, rfl, rfl⟩

/-- A one-pixel image over polar angles 0 to π and azimuths 0 to 2: with harmonics 1 the stored coefficient is the value
times 2 π. -/
example : ∃ s, fromImage (fun _ _ _ _ => 1) [[3]] (some (meshgrid [0, Real.pi] [0, 2])) 1 =
    .ok (s, meshgrid [0, Real.pi] [0, 2]) ∧ coef s 0 0 = 3 * (2 * Real.pi) := by
  obtain ⟨s, h1, _, _, h4⟩ := C57_from_image (fun _ _ _ _ => 1) [0, Real.pi] [0, 2] (by simp) (by simp) [[3]]
    ⟨rfl, by simp⟩ 1
  refine ⟨s, h1, ?_⟩
  rw [h4, if_pos (by simp)]
  simp [quadrature, pixel, facetWeight, midOf, gapOf]

end Verif
