import Verif.Model.Geometry
import Mathlib.Analysis.SpecialFunctions.Trigonometric.Bounds

/-!
# Arrays over the facets of a grid
-/

namespace Verif
namespace Geometry

variable {α β γ : Type}

/-- Consecutive pairs. -/
def steps (xs : List ℝ) : List (ℝ × ℝ) := xs.dropLast.zip xs.tail

theorem steps_cons (x y : ℝ) (xs : List ℝ) : steps (x :: y :: xs) = (x, y) :: steps (y :: xs) := by
  simp [steps]

theorem dropLast_eq (xs : List ℝ) : xs.dropLast = (steps xs).map Prod.fst := by
  rw [steps, List.map_fst_zip]; simp

theorem tail_eq (xs : List ℝ) : xs.tail = (steps xs).map Prod.snd := by
  rw [steps, List.map_snd_zip]; simp

/-- An array with one entry per facet. -/
def grid (P A : List ℝ) (f : ℝ × ℝ → ℝ × ℝ → α) : Arr2 α := (steps A).map fun a => (steps P).map fun p => f p a

theorem map1_grid (P A : List ℝ) (f : ℝ × ℝ → ℝ × ℝ → α) (g : α → β) :
    map1 g (grid P A f) = grid P A fun p a => g (f p a) := by
  simp [map1, grid, Function.comp_def]

theorem map2_grid (P A : List ℝ) (f : ℝ × ℝ → ℝ × ℝ → α) (g : ℝ × ℝ → ℝ × ℝ → β) (h : α → β → γ) :
    map2 h (grid P A f) (grid P A g) = grid P A fun p a => h (f p a) (g p a) := by
  simp [map2, grid, List.zipWith_map, List.zipWith_self]

private theorem slice (P A : List ℝ) (u v : ℝ × ℝ → ℝ) (A' P' : List ℝ) (hA : A' = (steps A).map v)
    (hP : P' = (steps P).map u) :
    (A'.map fun _ => P') = grid P A (fun p _ => u p) ∧
    (A'.map fun y => P'.map fun _ => y) = grid P A (fun _ a => v a) := by
  subst hA hP
  constructor <;> simp [grid, Function.comp_def]

theorem polar_slices (P A : List ℝ) :
    rInit (cInit (meshgrid P A).polar) = grid P A (fun p _ => p.1) ∧
    rInit (cTail (meshgrid P A).polar) = grid P A (fun p _ => p.2) ∧
    rTail (cInit (meshgrid P A).polar) = grid P A (fun p _ => p.1) ∧
    rTail (cTail (meshgrid P A).polar) = grid P A (fun p _ => p.2) := by
  simp only [rInit, cInit, rTail, cTail, meshgrid, List.map_map, Function.comp_def, ← List.map_dropLast, ← List.map_tail]
  exact ⟨(slice P A _ _ _ _ (dropLast_eq A) (dropLast_eq P)).1, (slice P A _ _ _ _ (dropLast_eq A) (tail_eq P)).1,
    (slice P A _ _ _ _ (tail_eq A) (dropLast_eq P)).1, (slice P A _ _ _ _ (tail_eq A) (tail_eq P)).1⟩

theorem azim_slices (P A : List ℝ) :
    rInit (cInit (meshgrid P A).azim) = grid P A (fun _ a => a.1) ∧
    rInit (cTail (meshgrid P A).azim) = grid P A (fun _ a => a.1) ∧
    rTail (cInit (meshgrid P A).azim) = grid P A (fun _ a => a.2) ∧
    rTail (cTail (meshgrid P A).azim) = grid P A (fun _ a => a.2) := by
  simp only [rInit, cInit, rTail, cTail, meshgrid, List.map_map, Function.comp_def, ← List.map_dropLast, ← List.map_tail]
  exact ⟨(slice P A _ _ _ _ (dropLast_eq A) (dropLast_eq P)).2, (slice P A _ _ _ _ (dropLast_eq A) (tail_eq P)).2,
    (slice P A _ _ _ _ (tail_eq A) (dropLast_eq P)).2, (slice P A _ _ _ _ (tail_eq A) (tail_eq P)).2⟩

theorem cr_comm (x : Arr2 α) : cInit (rInit x) = rInit (cInit x) ∧ cTail (rInit x) = rInit (cTail x) ∧
    cTail (rTail x) = rTail (cTail x) := by
  simp [cInit, rInit, cTail, rTail, List.map_dropLast, List.map_tail]

/-- The middle of an interval. -/
noncomputable def mid (x : ℝ × ℝ) : ℝ := (x.1 + x.2) / 2

theorem centers_eq (P A : List ℝ) :
    (meshgrid P A).centers = (grid P A (fun p _ => mid p), grid P A (fun _ a => mid a)) := by
  obtain ⟨h1, h2, h3, h4⟩ := polar_slices P A
  obtain ⟨k1, k2, k3, k4⟩ := azim_slices P A
  rw [Geom.centers, makeCenters, makeCenters, h1, h2, h3, h4, k1, k2, k3, k4]
  simp only [map2_grid, map1_grid]
  congr 2 <;> · funext p a; simp only [mid]; ring

theorem areas_eq (P A : List ℝ) :
    (meshgrid P A).areas = grid P A (fun p a => (Real.cos p.1 - Real.cos p.2) * (a.2 - a.1)) := by
  obtain ⟨h1, h2, h3, h4⟩ := polar_slices P A
  obtain ⟨k1, k2, k3, k4⟩ := azim_slices P A
  rw [Geom.areas, (cr_comm _).1, (cr_comm _).2.1, (cr_comm _).2.2, (cr_comm _).2.1, h1, h2, k2, k4]
  simp only [map2_grid]

theorem normals_eq (P A : List ℝ) :
    (meshgrid P A).unitNormals = grid P A (fun p a => rectFromSpherical 1 (mid p) (mid a)) := by
  rw [Geom.unitNormals, centers_eq, map2_grid]

theorem telescope (f : ℝ → ℝ) (x : ℝ) (xs : List ℝ) :
    ((steps (x :: xs)).map fun a => f a.2 - f a.1).sum = f ((x :: xs).getLast (by simp)) - f x := by
  induction xs generalizing x with
  | nil => simp [steps]
  | cons y xs ih =>
    rw [steps_cons, List.map_cons, List.sum_cons, ih]
    simp only [List.getLast_cons_cons]
    ring

theorem sum2_grid (P A : List ℝ) (f : ℝ × ℝ → ℝ × ℝ → ℝ) :
    sum2 (grid P A f) = ((steps A).map fun a => ((steps P).map fun p => f p a).sum).sum := by
  rw [sum2, grid, List.sum_flatten, List.map_map]; rfl

theorem sum2_mul (P A : List ℝ) (f g : ℝ × ℝ → ℝ) :
    sum2 (grid P A fun p a => f p * g a) = ((steps P).map f).sum * ((steps A).map g).sum := by
  rw [sum2_grid]
  simp only [List.sum_map_mul_right, List.sum_map_mul_left]

theorem mem_steps {xs : List ℝ} {a : ℝ × ℝ} (h : a ∈ steps xs) : a.1 ∈ xs ∧ a.2 ∈ xs := by
  have := List.of_mem_zip h
  exact ⟨List.mem_of_mem_dropLast this.1, List.mem_of_mem_tail this.2⟩

theorem steps_lt {xs : List ℝ} (hs : xs.Pairwise (· < ·)) {a : ℝ × ℝ} (h : a ∈ steps xs) : a.1 < a.2 := by
  induction xs with
  | nil => simp [steps] at h
  | cons x xs ih =>
    cases xs with
    | nil => simp [steps] at h
    | cons y ys =>
      rw [steps_cons, List.mem_cons] at h
      rcases h with rfl | h
      · exact (List.pairwise_cons.1 hs).1 y (by simp)
      · exact ih (List.pairwise_cons.1 hs).2 h

theorem mem_flatten_grid {P A : List ℝ} {f : ℝ × ℝ → ℝ × ℝ → α} {x : α} :
    x ∈ (grid P A f).flatten ↔ ∃ p ∈ steps P, ∃ a ∈ steps A, f p a = x := by
  simp only [grid, List.mem_flatten, List.mem_map]
  constructor
  · rintro ⟨_, ⟨a, ha, rfl⟩, hx⟩
    obtain ⟨p, hp, rfl⟩ := List.mem_map.1 hx
    exact ⟨p, hp, a, ha, rfl⟩
  · rintro ⟨p, hp, a, ha, rfl⟩
    exact ⟨_, ⟨a, ha, rfl⟩, List.mem_map.2 ⟨p, hp, rfl⟩⟩

end Geometry
end Verif
