import Verif.Model.Slice
import Verif.Props.Linear
import Verif.Props.Longitudinal

/-!
# C80: slices through the extrapolated field
-/

namespace Verif
open Slice

/-- The coordinate axes by name. -/
def Spec.axes : List Char := ['x', 'y', 'z']

/-- Coordinate number `a` of a point. -/
def Spec.coord (p : ℝ × ℝ × ℝ) : ℕ → ℝ
  | 0 => p.1
  | 1 => p.2.1
  | _ => p.2.2

/-- The magnetic field of the potential field extrapolation at a point: radial component and cartesian vector. -/
def Spec.FieldAt (s : Coefs ℂ) (rStar rss : ℝ) (p : ℝ × ℝ × ℝ) (radial : ℝ) (v : Fin 3 → ℝ) : Prop :=
  ∃ f, Pfss.evalCartesian s p.1 p.2.1 p.2.2 rStar rss = .ok (f, v) ∧ f.1 = radial

/-- Row `i`, column `j` of the grid of the slice: 304 ordinates and 302 abscissas, equally spaced from `-rmax` to
`rmax`. -/
structure Spec.OnGrid (rmax : ℝ) (i j : ℕ) (place : ℝ × ℝ) : Prop where
  row : i < 304
  col : j < 302
  abscissa : 301 * place.1 = (2 * j - 301) * rmax
  ordinate : 303 * place.2 = (2 * i - 303) * rmax

open Spec

namespace Slice

theorem mem_grid (i j : ℕ) : (i, j) ∈ grid ↔ i < 304 ∧ j < 302 := by
  rw [grid, List.mem_flatMap]
  constructor
  · rintro ⟨a, ha, h⟩
    obtain ⟨b, hb, e⟩ := List.mem_map.1 h
    cases e
    exact ⟨List.mem_range.1 ha, List.mem_range.1 hb⟩
  · rintro ⟨h1, h2⟩
    exact ⟨i, List.mem_range.2 h1, List.mem_map.2 ⟨j, List.mem_range.2 h2, rfl⟩⟩

theorem onGrid (rmax : ℝ) {i j : ℕ} (hi : i < 304) (hj : j < 302) : OnGrid rmax i j (tick 302 rmax j, tick 304 rmax i) := by
  refine ⟨hi, hj, ?_, ?_⟩
  · simp only [tick]; push_cast; ring
  · simp only [tick]; push_cast; ring

theorem onGrid_unique {rmax : ℝ} {i j : ℕ} {p : ℝ × ℝ} (h : OnGrid rmax i j p) : p = (tick 302 rmax j, tick 304 rmax i) := by
  have h' := onGrid rmax h.row h.col
  ext
  · have := h.abscissa.trans h'.abscissa.symm
    simpa using this
  · have := h.ordinate.trans h'.ordinate.symm
    simpa using this

end Slice

/-! ## C80 -/

/-- **C80.** `normal_plane` puts the points into the plane through the centre of the star perpendicular to the axis named:
that coordinate is zero, the other two are those given, in order, and the distance from the centre is kept. -/
theorem C80_plane (normal : Text) (plane : ℝ → ℝ → ℝ × ℝ × ℝ) (h : normalPlane normal = .ok plane) :
    ∃ a : ℕ, ∃ c : Char, axes[a]? = some c ∧ normal = [c] ∧ ∀ p1 p2 : ℝ,
      coord (plane p1 p2) a = 0 ∧ ((List.range 3).filter (· ≠ a)).map (coord (plane p1 p2)) = [p1, p2] ∧
      coord (plane p1 p2) 0 ^ 2 + coord (plane p1 p2) 1 ^ 2 + coord (plane p1 p2) 2 ^ 2 = p1 ^ 2 + p2 ^ 2 := by
  unfold normalPlane at h
  split_ifs at h with hx hy hz
  · cases h
    exact ⟨0, 'x', rfl, hx, fun p1 p2 => ⟨rfl, by simp [List.range_succ, coord], by simp [coord]⟩⟩
  · cases h
    exact ⟨1, 'y', rfl, hy, fun p1 p2 => ⟨rfl, by simp [List.range_succ, coord], by simp [coord]⟩⟩
  · cases h
    exact ⟨2, 'z', rfl, hz, fun p1 p2 => ⟨rfl, by simp [List.range_succ, coord], by simp [coord]⟩⟩

/-- **C80.** Every axis is known, and nothing else. -/
theorem C80_normals (normal : Text) : (∃ plane, normalPlane normal = .ok plane) ↔ ∃ c ∈ axes, normal = [c] := by
  constructor
  · rintro ⟨plane, h⟩
    obtain ⟨a, c, h1, h2, -⟩ := C80_plane normal plane h
    exact ⟨c, List.mem_of_getElem? h1, h2⟩
  · rintro ⟨c, hc, rfl⟩
    simp only [axes, List.mem_cons, List.not_mem_nil, or_false] at hc
    rcases hc with rfl | rfl | rfl
    · exact ⟨_, by rw [normalPlane, if_pos rfl]⟩
    · exact ⟨_, by rw [normalPlane, if_neg (by decide), if_pos rfl]⟩
    · exact ⟨_, by rw [normalPlane, if_neg (by decide), if_neg (by decide), if_pos rfl]⟩

/-- **C80.** No point of the grid is the centre of the star, where the field has no direction. -/
theorem C80_no_centre (rmax : ℝ) (h : rmax ≠ 0) (i j : ℕ) (p : ℝ × ℝ) (hp : OnGrid rmax i j p) : p.1 ≠ 0 ∧ p.2 ≠ 0 := by
  refine ⟨fun e => ?_, fun e => ?_⟩
  · have := hp.abscissa
    rw [e, mul_zero] at this
    rcases mul_eq_zero.1 this.symm with h' | h'
    · have : (2 * (j : ℤ)) - 301 = 0 := by exact_mod_cast h'
      omega
    · exact h h'
  · have := hp.ordinate
    rw [e, mul_zero] at this
    rcases mul_eq_zero.1 this.symm with h' | h'
    · have : (2 * (i : ℤ)) - 303 = 0 := by exact_mod_cast h'
      omega
    · exact h h'

namespace Slice

theorem tick_lt {n : ℕ} (hn : 2 ≤ n) {rmax : ℝ} (h : 0 < rmax) (i : ℕ) : tick n rmax i < tick n rmax (i + 1) := by
  rw [tick, tick]
  have h1 : (0 : ℝ) < (n : ℝ) - 1 := by
    have : (2 : ℝ) ≤ n := by exact_mod_cast hn
    linarith
  apply mul_lt_mul_of_pos_right _ h
  have : 2 * (i : ℝ) / (n - 1) < 2 * ((i + 1 : ℕ) : ℝ) / (n - 1) := by
    apply div_lt_div_of_pos_right _ h1
    push_cast
    linarith
  linarith

theorem tick_even (n : ℕ) (hn : 2 ≤ n) (rmax : ℝ) (i : ℕ) :
    tick n rmax (i + 1) - tick n rmax i = (tick n rmax (n - 1) - tick n rmax 0) / ((n : ℝ) - 1) := by
  have h1 : (n : ℝ) - 1 ≠ 0 := by
    have : (2 : ℝ) ≤ n := by exact_mod_cast hn
    linarith
  have h2 : ((n - 1 : ℕ) : ℝ) = (n : ℝ) - 1 := by rw [Nat.cast_sub (by omega)]; simp
  rw [tick, tick, tick, tick, h2]
  push_cast
  field_simp
  ring

theorem close_refl (a : ℝ) : Close a a := by
  rw [Close, sub_self, abs_zero]
  positivity

theorem stream_x (rmax : ℝ) : checkStream (fun p1 p2 => (0, p1, p2)) rmax = if 0 < rmax then .ok () else .error .value := by
  rw [checkStream]
  by_cases h : 0 < rmax
  · rw [if_pos h, if_pos]
    refine ⟨fun i _ j _ => close_refl _, fun i _ j _ => close_refl _, fun j _ => tick_lt (by norm_num) h j,
      fun i _ => tick_lt (by norm_num) h i, fun j _ => ?_, fun i _ => ?_⟩
    · have := tick_even 302 (by norm_num) rmax j
      simp only at this ⊢
      rw [this]
      exact close_refl _
    · have := tick_even 304 (by norm_num) rmax i
      simp only at this ⊢
      rw [this]
      exact close_refl _
  · rw [if_neg h, if_neg]
    intro hg
    have := hg.xInc 0 (by norm_num)
    simp only [tick] at this
    push_cast at this
    have : 0 < 2 / 301 * rmax := by linarith
    exact h (by linarith)

theorem stream_y (rmax : ℝ) : checkStream (fun p1 p2 => (p1, 0, p2)) rmax = .error .value := by
  rw [checkStream, if_neg]
  intro hg
  have := hg.xInc 0 (by norm_num)
  simp at this

theorem stream_z (rmax : ℝ) : checkStream (fun p1 p2 => (p1, p2, 0)) rmax = .error .value := by
  rw [checkStream, if_neg]
  intro hg
  have := hg.xInc 0 (by norm_num)
  simp at this

theorem extremes_iff (xs : List ℝ) (lo hi : ℝ) : extremes xs = .ok (lo, hi) ↔
    (lo ∈ xs ∧ 0 < lo ∧ ∀ x ∈ xs, 0 < x → lo ≤ x) ∧ (hi ∈ xs ∧ ∀ x ∈ xs, x ≤ hi) := by
  rw [extremes]
  rcases h1 : (xs.filter fun x => decide (0 < x)).min? with _ | a
  · rw [List.min?_eq_none_iff] at h1
    constructor
    · intro h; cases h
    · rintro ⟨⟨h2, h3, -⟩, -⟩
      have : lo ∈ xs.filter fun x => decide (0 < x) := List.mem_filter.2 ⟨h2, by simpa using h3⟩
      rw [h1] at this
      cases this
  · have ha := List.min?_eq_some_iff.1 h1
    simp only [List.mem_filter, decide_eq_true_eq, and_imp] at ha
    rcases h2 : xs.max? with _ | b
    · rw [List.max?_eq_none_iff] at h2
      subst h2
      simp at ha
    · have hb := List.max?_eq_some_iff.1 h2
      simp only [Option.elim_some, bind, Except.bind, pure, Except.pure, Except.ok.injEq, Prod.mk.injEq]
      constructor
      · rintro ⟨rfl, rfl⟩
        exact ⟨⟨ha.1.1, ha.1.2, ha.2⟩, hb.1, hb.2⟩
      · rintro ⟨⟨h3, h4, h5⟩, h6, h7⟩
        exact ⟨le_antisymm (ha.2 lo h3 h4) (h5 a ha.1.1 ha.1.2), le_antisymm (h7 b hb.1) (hb.2 hi h6)⟩

theorem extremes_total (xs : List ℝ) : (∃ e, extremes xs = .ok e) ∨ (extremes xs = .error .value ∧ ∀ x ∈ xs, ¬ 0 < x) := by
  rw [extremes]
  rcases h1 : (xs.filter fun x => decide (0 < x)).min? with _ | a
  · rw [List.min?_eq_none_iff, List.filter_eq_nil_iff] at h1
    exact .inr ⟨rfl, by simpa using h1⟩
  · rcases h2 : xs.max? with _ | b
    · rw [List.max?_eq_none_iff] at h2
      subst h2
      simp at h1
    · exact .inl ⟨_, rfl⟩

/-- What is drawn at a point where the field is `f` and `v`. -/
noncomputable def pointOf (plane : ℝ → ℝ → ℝ × ℝ × ℝ) (p1 p2 : ℝ) (f : ℝ × ℝ × ℝ) (v : Fin 3 → ℝ) : Point where
  place := (p1, p2)
  colour := f.1
  distance := Real.sqrt ((plane p1 p2).1 ^ 2 + (plane p1 p2).2.1 ^ 2 + (plane p1 p2).2.2 ^ 2)
  streamPlace := ((plane p1 p2).2.1, (plane p1 p2).2.2)
  stream := (v 1, v 2)
  strength := Real.sqrt (v 0 ^ 2 + v 1 ^ 2 + v 2 ^ 2)

theorem point_iff (s : Coefs ℂ) (plane : ℝ → ℝ → ℝ × ℝ × ℝ) (r0 rss p1 p2 : ℝ) (P : Point) :
    point s plane r0 rss p1 p2 = .ok P ↔ ∃ f v,
      Pfss.evalCartesian s (plane p1 p2).1 (plane p1 p2).2.1 (plane p1 p2).2.2 r0 rss = .ok (f, v) ∧
        P = pointOf plane p1 p2 f v := by
  rw [point]
  rcases Pfss.evalCartesian s (plane p1 p2).1 (plane p1 p2).2.1 (plane p1 p2).2.2 r0 rss with e | ⟨f, v⟩
  · constructor
    · intro h; cases h
    · rintro ⟨f, v, h, -⟩; cases h
  · constructor
    · intro h
      cases h
      exact ⟨f, v, rfl, rfl⟩
    · rintro ⟨f', v', h, rfl⟩
      cases h
      rfl

/-- `mapM` that succeeds, elementwise. -/
theorem mapM_some {β γ : Type} (xs : List β) (f : β → Res γ) (ys : List γ) (h : xs.mapM f = .ok ys) :
    List.Forall₂ (fun x y => f x = .ok y) xs ys := by
  induction xs generalizing ys with
  | nil => cases h; exact .nil
  | cons x xs ih =>
    rw [List.mapM_cons] at h
    rcases hx : f x with e | y
    · rw [hx] at h; cases h
    rw [hx] at h
    simp only [bind, Except.bind] at h
    rcases hm : xs.mapM f with e | zs
    · rw [hm] at h; cases h
    rw [hm] at h
    cases h
    exact .cons hx (ih zs hm)

theorem mem_left {β γ : Type} {R : β → γ → Prop} {xs : List β} {ys : List γ} (h : List.Forall₂ R xs ys) {x : β} (hx : x ∈ xs) :
    ∃ y ∈ ys, R x y := by
  induction h with
  | nil => cases hx
  | cons h _ ih =>
    rcases List.mem_cons.1 hx with rfl | hx
    · exact ⟨_, by simp, h⟩
    · obtain ⟨y, hy, hr⟩ := ih hx
      exact ⟨y, by simp [hy], hr⟩

theorem mem_right {β γ : Type} {R : β → γ → Prop} {xs : List β} {ys : List γ} (h : List.Forall₂ R xs ys) {y : γ} (hy : y ∈ ys) :
    ∃ x ∈ xs, R x y := by
  induction h with
  | nil => cases hy
  | cons h _ ih =>
    rcases List.mem_cons.1 hy with rfl | hy
    · exact ⟨_, by simp, h⟩
    · obtain ⟨x, hx, hr⟩ := ih hy
      exact ⟨x, by simp [hx], hr⟩

/-- The parts of a figure. -/
theorem plotSlice_inv {s : Coefs ℂ} {normal : Text} {rmax rss r0 : ℝ} {fig : Slice.Figure} (h : plotSlice s normal rmax rss r0 = .ok fig) :
    r0 < rss ∧ normal = ['x'] ∧ 0 < rmax ∧
    List.Forall₂ (fun (ij : ℕ × ℕ) P => ∃ f v, Pfss.evalCartesian s 0 (tick 302 rmax ij.2) (tick 304 rmax ij.1) r0 rss = .ok (f, v) ∧
      P = pointOf (fun p1 p2 => (0, p1, p2)) (tick 302 rmax ij.2) (tick 304 rmax ij.1) f v) grid fig.points ∧
    ∃ lo hi, extremes (fig.points.map Point.strength) = .ok (lo, hi) ∧ fig.vmin = -hi ∧ fig.vmax = hi ∧ fig.linear = 100 * lo ∧
      fig.xlabel = "Distance $x/r_{\\star}$".toList ∧ fig.ylabel = "Distance $z/r_{\\star}$".toList ∧ fig.levels = [r0, rss] := by
  rw [plotSlice] at h
  by_cases h0 : r0 < rss
  swap
  · rw [resAssert, if_neg h0] at h; cases h
  rw [resAssert, if_pos h0] at h
  simp only [bind, Except.bind, pure, Except.pure] at h
  rcases hp : normalPlane normal with e | plane
  · rw [hp] at h; cases h
  rw [hp] at h
  simp only at h
  rcases hm : grid.mapM (fun ij => point s plane r0 rss (tick 302 rmax ij.2) (tick 304 rmax ij.1)) with e | pts
  · rw [hm] at h; cases h
  rw [hm] at h
  simp only at h
  rcases he : extremes (pts.map Point.strength) with e | ⟨lo, hi⟩
  · rw [he] at h; cases h
  rw [he] at h
  simp only at h
  rcases hs : checkStream plane rmax with e | u
  · rw [hs] at h; cases h
  rw [hs] at h
  simp only at h
  cases h
  unfold normalPlane at hp
  split_ifs at hp with hx hy hz
  · cases hp
    rw [stream_x] at hs
    by_cases hr : 0 < rmax
    swap
    · rw [if_neg hr] at hs; cases hs
    refine ⟨h0, hx, hr, ?_, lo, hi, he, rfl, rfl, rfl, rfl, rfl, rfl⟩
    exact (mapM_some _ _ _ hm).imp fun ij P h => (point_iff _ _ _ _ _ _ _).1 h
  · cases hp
    rw [stream_y] at hs; cases hs
  · cases hp
    rw [stream_z] at hs; cases hs

theorem strength_pos (v : Fin 3 → ℝ) : 0 < Real.sqrt (v 0 ^ 2 + v 1 ^ 2 + v 2 ^ 2) ↔ v ≠ 0 := by
  rw [Real.sqrt_pos]
  constructor
  · rintro h rfl
    simp at h
  · intro h
    by_contra hn
    apply h
    have h0 := sq_nonneg (v 0)
    have h1 := sq_nonneg (v 1)
    have h2 := sq_nonneg (v 2)
    funext k
    fin_cases k
    · exact pow_eq_zero_iff (two_ne_zero) |>.1 (by linarith : v 0 ^ 2 = 0)
    · exact pow_eq_zero_iff (two_ne_zero) |>.1 (by linarith : v 1 ^ 2 = 0)
    · exact pow_eq_zero_iff (two_ne_zero) |>.1 (by linarith : v 2 ^ 2 = 0)

/-- The field of a usable set exists everywhere. -/
theorem eval_ok {s : Coefs ℂ} (h : RadialSet s) {r0 rss : ℝ} (hr : r0 < rss) (x y z : ℝ) :
    ∃ f v, Pfss.evalCartesian s x y z r0 rss = .ok (f, v) := by
  rw [Pfss.evalCartesian, resAssert, if_pos hr]
  simp only [bind, Except.bind, pure, Except.pure]
  rw [Pfss.evalSpherical_eq h hr]
  exact ⟨_, _, rfl⟩

theorem points_ok {s : Coefs ℂ} (h : RadialSet s) {r0 rss : ℝ} (hr : r0 < rss) (plane : ℝ → ℝ → ℝ × ℝ × ℝ) (rmax : ℝ) :
    ∃ pts, grid.mapM (fun ij => point s plane r0 rss (tick 302 rmax ij.2) (tick 304 rmax ij.1)) = .ok pts := by
  have hp : ∀ p1 p2 : ℝ, ∃ P, point s plane r0 rss p1 p2 = .ok P := by
    intro p1 p2
    obtain ⟨f, v, e⟩ := eval_ok h hr (plane p1 p2).1 (plane p1 p2).2.1 (plane p1 p2).2.2
    exact ⟨_, (point_iff _ _ _ _ _ _ _).2 ⟨f, v, e, rfl⟩⟩
  choose g hg using hp
  exact ⟨_, mapM_pure_ok _ _ (fun ij => g (tick 302 rmax ij.2) (tick 304 rmax ij.1)) fun ij _ => hg _ _⟩

end Slice

/-- **C80.** A slice through the field of a usable set is drawn exactly if the source surface is outside the star, the
normal is x, the range is positive and the field is not zero at all points of the grid. -/
theorem C80_iff (s : Coefs ℂ) (h : RadialSet s) (normal : Text) (rmax rss r0 : ℝ) :
    (∃ fig, plotSlice s normal rmax rss r0 = .ok fig) ↔ r0 < rss ∧ normal = ['x'] ∧ 0 < rmax ∧
      ∃ i j p radial v, OnGrid rmax i j p ∧ FieldAt s r0 rss (0, p.1, p.2) radial v ∧ v ≠ 0 := by
  constructor
  · rintro ⟨fig, hf⟩
    obtain ⟨h0, hn, hr, hp, lo, hi, he, -⟩ := plotSlice_inv hf
    obtain ⟨⟨h1, h2, -⟩, -⟩ := (extremes_iff _ _ _).1 he
    obtain ⟨P, hP, rfl⟩ := List.mem_map.1 h1
    obtain ⟨⟨i, j⟩, hij, f, v, e, rfl⟩ := mem_right hp hP
    obtain ⟨hi, hj⟩ := (mem_grid i j).1 hij
    exact ⟨h0, hn, hr, i, j, _, f.1, v, onGrid rmax hi hj, ⟨f, e, rfl⟩, (strength_pos v).1 h2⟩
  · rintro ⟨h0, rfl, hr, i, j, p, radial, v, hg, ⟨f, e, -⟩, hv⟩
    rw [plotSlice, resAssert, if_pos h0, normalPlane, if_pos rfl]
    simp only [bind, Except.bind, pure, Except.pure]
    obtain ⟨pts, hpts⟩ := points_ok h h0 (fun p1 p2 => (0, p1, p2)) rmax
    rw [hpts]
    simp only
    rcases extremes_total (pts.map Point.strength) with ⟨ex, he⟩ | ⟨-, hz⟩
    · rw [he]
      simp only [stream_x, if_pos hr]
      exact ⟨_, rfl⟩
    · exfalso
      obtain ⟨P, hP, hp⟩ := mem_left (mapM_some _ _ _ hpts) ((mem_grid i j).2 ⟨hg.row, hg.col⟩)
      obtain ⟨f', v', e', rfl⟩ := (point_iff _ _ _ _ _ _ _).1 hp
      have hu := onGrid_unique hg
      rw [hu] at e
      rw [e] at e'
      cases e'
      exact hz _ (List.mem_map_of_mem hP) ((strength_pos v).2 hv)

/-- **C80.** What is drawn: at each point of the grid, and nowhere else, the colour is the radial component of the field
at that point of the plane, the stream lines follow the components of the field in the plane, and the contours show the
distances of the star's surface and of the source surface. -/
theorem C80_shows (s : Coefs ℂ) (normal : Text) (rmax rss r0 : ℝ) (fig : Slice.Figure)
    (hf : plotSlice s normal rmax rss r0 = .ok fig) :
    (∀ i j p, OnGrid rmax i j p → ∃ P ∈ fig.points, P.place = p) ∧ fig.levels = [r0, rss] ∧
    ∀ P ∈ fig.points, ∃ i j v, OnGrid rmax i j P.place ∧ FieldAt s r0 rss (0, P.place.1, P.place.2) P.colour v ∧
      P.streamPlace = P.place ∧ P.stream = (v 1, v 2) ∧ 0 ≤ P.distance ∧
      P.distance ^ 2 = P.place.1 ^ 2 + P.place.2 ^ 2 := by
  obtain ⟨h0, hn, hr, hp, lo, hi, he, -, -, -, -, -, hl⟩ := plotSlice_inv hf
  refine ⟨fun i j p hg => ?_, hl, fun P hP => ?_⟩
  · obtain ⟨P, hP, f, v, -, rfl⟩ := mem_left hp ((mem_grid i j).2 ⟨hg.row, hg.col⟩)
    exact ⟨_, hP, (onGrid_unique hg).symm⟩
  · obtain ⟨⟨i, j⟩, hij, f, v, e, rfl⟩ := mem_right hp hP
    obtain ⟨hi, hj⟩ := (mem_grid i j).1 hij
    refine ⟨i, j, v, onGrid rmax hi hj, ⟨f, e, rfl⟩, rfl, rfl, Real.sqrt_nonneg _, ?_⟩
    simp only [pointOf]
    rw [Real.sq_sqrt (by positivity)]
    ring

/-- **C80.** The colour scale is symmetric about zero and covers all the colours; its linear part is not empty and extends
to a hundred times the least strength that is not zero. -/
theorem C80_scale (s : Coefs ℂ) (normal : Text) (rmax rss r0 : ℝ) (fig : Slice.Figure)
    (hf : plotSlice s normal rmax rss r0 = .ok fig) :
    fig.vmin = -fig.vmax ∧ 0 < fig.vmax ∧ (∀ P ∈ fig.points, fig.vmin ≤ P.colour ∧ P.colour ≤ fig.vmax) ∧
    0 < fig.linear ∧ (∃ P ∈ fig.points, fig.linear = 100 * P.strength) ∧
    ∀ P ∈ fig.points, 0 < P.strength → fig.linear ≤ 100 * P.strength := by
  obtain ⟨h0, hn, hr, hp, lo, hi, he, h1, h2, h3, -⟩ := plotSlice_inv hf
  obtain ⟨⟨e1, e2, e3⟩, e4, e5⟩ := (extremes_iff _ _ _).1 he
  obtain ⟨Q, hQ, rfl⟩ := List.mem_map.1 e1
  refine ⟨by rw [h1, h2], by rw [h2]; exact lt_of_lt_of_le e2 (e5 _ e1), fun P hP => ?_, by rw [h3]; linarith, ⟨Q, hQ, h3⟩,
    fun P hP hpos => by rw [h3]; have := e3 _ (List.mem_map_of_mem hP) hpos; linarith⟩
  have hle : |P.colour| ≤ hi := by
    refine le_trans ?_ (e5 _ (List.mem_map_of_mem hP))
    obtain ⟨ij, -, f, v, e, rfl⟩ := mem_right hp hP
    have hn := ((C37_pfss_cartesian s _ _ _ _ _).2 f v e).2.1
    simp only [pointOf]
    apply Real.le_sqrt_of_sq_le
    rw [sq_abs, hn]
    have := sq_nonneg f.2.1
    have := sq_nonneg f.2.2
    linarith
  rw [h1, h2]
  exact abs_le.1 hle

/-- The label of an axis. -/
def Spec.axisLabel (c : Char) : Text := "Distance $".toList ++ [c] ++ "/r_{\\star}$".toList

/-- **C80 is violated.** Slices with the normals y and z cannot be drawn at all. -/
theorem C80_only_x (s : Coefs ℂ) (h : RadialSet s) (rmax rss r0 : ℝ) (hr : r0 < rss) (c : Char) (hc : c = 'y' ∨ c = 'z') :
    plotSlice s [c] rmax rss r0 = .error .value := by
  rcases hc with rfl | rfl
  · rw [plotSlice, resAssert, if_pos hr, normalPlane, if_neg (by decide), if_pos rfl]
    simp only [bind, Except.bind, pure, Except.pure]
    obtain ⟨pts, hpts⟩ := points_ok h hr (fun p1 p2 => (p1, 0, p2)) rmax
    rw [hpts]
    simp only
    rcases extremes_total (pts.map Point.strength) with ⟨ex, he⟩ | ⟨he, -⟩
    · rw [he]
      simp only [stream_y]
    · rw [he]
  · rw [plotSlice, resAssert, if_pos hr, normalPlane, if_neg (by decide), if_neg (by decide), if_pos rfl]
    simp only [bind, Except.bind, pure, Except.pure]
    obtain ⟨pts, hpts⟩ := points_ok h hr (fun p1 p2 => (p1, p2, 0)) rmax
    rw [hpts]
    simp only
    rcases extremes_total (pts.map Point.strength) with ⟨ex, he⟩ | ⟨he, -⟩
    · rw [he]
      simp only [stream_z]
    · rw [he]

/-- **C80 is violated.** Every slice that is drawn has a wrong label at the abscissa: it shows the y coordinate (see
`C80_shows`) and is labelled x. The ordinate is right. -/
theorem C80_label_wrong (s : Coefs ℂ) (normal : Text) (rmax rss r0 : ℝ) (fig : Slice.Figure)
    (hf : plotSlice s normal rmax rss r0 = .ok fig) :
    normal = ['x'] ∧ fig.xlabel = axisLabel 'x' ∧ fig.xlabel ≠ axisLabel 'y' ∧ fig.ylabel = axisLabel 'z' := by
  obtain ⟨h0, hn, hr, hp, lo, hi, he, -, -, -, hx, hy, -⟩ := plotSlice_inv hf
  rw [hx, hy]
  exact ⟨hn, by decide, by decide, by decide⟩

/-- **C80.** If the range does not reach the surface of the star there is nothing to draw: ValueError. -/
theorem C80_inside (s : Coefs ℂ) (h : RadialSet s) (normal : Text) (c : Char) (hc : c ∈ axes) (hn : normal = [c])
    (rmax rss r0 : ℝ) (h0 : 0 < r0) (hr : r0 < rss) (hm : 2 * rmax ^ 2 < r0 ^ 2) :
    plotSlice s normal rmax rss r0 = .error .value := by
  obtain ⟨plane, hp⟩ := (C80_normals normal).2 ⟨c, hc, hn⟩
  obtain ⟨a, c', -, -, hpl⟩ := C80_plane normal plane hp
  rw [plotSlice, resAssert, if_pos hr, hp]
  simp only [bind, Except.bind, pure, Except.pure]
  obtain ⟨pts, hpts⟩ := points_ok h hr plane rmax
  rw [hpts]
  simp only
  rcases extremes_total (pts.map Point.strength) with ⟨⟨lo, hi⟩, he⟩ | ⟨he, -⟩
  · exfalso
    obtain ⟨⟨e1, e2, -⟩, -⟩ := (extremes_iff _ _ _).1 he
    obtain ⟨P, hP, rfl⟩ := List.mem_map.1 e1
    obtain ⟨⟨i, j⟩, hij, hpt⟩ := mem_right (mapM_some _ _ _ hpts) hP
    obtain ⟨f, v, e, rfl⟩ := (point_iff _ _ _ _ _ _ _).1 hpt
    obtain ⟨hi, hj⟩ := (mem_grid i j).1 hij
    obtain ⟨-, -, hd⟩ := hpl (tick 302 rmax j) (tick 304 rmax i)
    simp only [coord] at hd
    have tb : ∀ (n k : ℕ), 2 ≤ n → k < n → (tick n rmax k) ^ 2 ≤ rmax ^ 2 := by
      intro n k hn hk
      rw [tick, mul_pow]
      have h1 : (0 : ℝ) < (n : ℝ) - 1 := by
        have : (2 : ℝ) ≤ n := by exact_mod_cast hn
        linarith
      have h2 : (k : ℝ) ≤ (n : ℝ) - 1 := by
        have : (k : ℝ) + 1 ≤ n := by exact_mod_cast hk
        linarith
      have h3 : 0 ≤ 2 * (k : ℝ) / (n - 1) := by positivity
      have h4 : 2 * (k : ℝ) / (n - 1) ≤ 2 := by rw [div_le_iff₀ h1]; linarith
      have : (-1 + 2 * (k : ℝ) / (n - 1)) ^ 2 ≤ 1 := by nlinarith
      nlinarith [sq_nonneg rmax]
    have ha := tb 302 j (by norm_num) hj
    have hb := tb 304 i (by norm_num) hi
    obtain ⟨hsph, hnorm, -⟩ := (C37_pfss_cartesian s _ _ _ _ _).2 f v e
    have hrad := C35_radius (plane (tick 302 rmax j) (tick 304 rmax i)).1 (plane (tick 302 rmax j) (tick 304 rmax i)).2.1
      (plane (tick 302 rmax j) (tick 304 rmax i)).2.2
    have hlt : (sphericalFromRect (plane (tick 302 rmax j) (tick 304 rmax i)).1 (plane (tick 302 rmax j) (tick 304 rmax i)).2.1
        (plane (tick 302 rmax j) (tick 304 rmax i)).2.2).1 < r0 := by
      apply lt_of_pow_lt_pow_left₀ 2 h0.le
      rw [hrad, hd]
      linarith
    rw [C30_inside s h r0 rss hr _ _ _ hlt] at hsph
    cases hsph
    simp only [pointOf] at e2
    rw [hnorm] at e2
    simp at e2
  · rw [he]

/-- **C80.** Any other normal raises TypeError. -/
theorem C80_unknown (s : Coefs ℂ) (normal : Text) (rmax rss r0 : ℝ) (hr : r0 < rss) (h : ∀ c ∈ axes, normal ≠ [c]) :
    plotSlice s normal rmax rss r0 = .error .type := by
  rw [plotSlice, resAssert, if_pos hr]
  rcases hp : normalPlane normal with e | plane
  · unfold normalPlane at hp
    split_ifs at hp
    cases hp
    rfl
  · obtain ⟨c, hc, e⟩ := (C80_normals normal).1 ⟨plane, hp⟩
    exact absurd e (h c hc)

/-! ### A case meeting the hypotheses -/

private noncomputable def exCharge : Coefs ℂ := ⟨[0], .cplx, [((0, 0), [1])], 0, 0⟩

private theorem exCharge_WF : exCharge.WF := by
  refine Reach.WF (Reach.append (s := Coefs.new [0] .cplx) (.int 0) (.int 0) [1] ?_ rfl)
  exact Reach.new _ _ (by simp)

private theorem exCharge_radial : RadialSet exCharge := by
  refine ⟨wellFormed_of_WF exCharge_WF, rfl, ⟨0, 0, rfl⟩, fun l m hm => ?_⟩
  rw [stores, Coefs.has_int] at hm
  simp [exCharge, Coefs.keys] at hm
  omega

/-- The default slice through the field of a single charge. -/
example : ∃ fig, plotSlice exCharge = .ok fig := by
  refine (C80_iff _ exCharge_radial _ _ _ _).2 ⟨by norm_num, rfl, by norm_num, 0, 0, (-5, -5), ?_⟩
  obtain ⟨f, v, e⟩ := eval_ok exCharge_radial (show (1 : ℝ) < 2.5 by norm_num) 0 (-5) (-5)
  refine ⟨f.1, v, ⟨by norm_num, by norm_num, by norm_num, by norm_num⟩, ⟨f, e, rfl⟩, ?_⟩
  obtain ⟨h1, h2, -⟩ := (C37_pfss_cartesian exCharge _ _ _ _ _).2 f v e
  have hr : (2.5 : ℝ) < (sphericalFromRect 0 (-5) (-5)).1 := by
    apply lt_of_pow_lt_pow_left₀ 2 (C35_ranges _ _ _).1
    rw [C35_radius]
    norm_num
  rw [Pfss.evalSpherical_eq exCharge_radial (by norm_num), if_neg (by linarith), if_pos hr] at h1
  have hf : f.1 ≠ 0 := by
    have := congrArg Prod.fst (Except.ok.inj h1)
    rw [← this]
    apply mul_ne_zero
    · have hp : pairs exCharge = {(0, 0)} := by rw [pairs_eq]; rfl
      have hc : coef exCharge 0 0 = 1 := rfl
      rw [Pfss.fR, hp, Finset.sum_singleton, hc]
      have ht : ∀ θ, Pfss.tv θ (0, 0) = 1 := by
        intro θ
        simp [Pfss.tv, legendreP, rodNorm, rod, rodBase, Pfss.thetaScale, spFactorial]
        norm_num
      simp only [ht, Pfss.rL, Pfss.phiLm]
      norm_num
    · have : (2.5 : ℝ) / (sphericalFromRect 0 (-5) (-5)).1 ≠ 0 := div_ne_zero (by norm_num) (by linarith)
      exact pow_ne_zero 2 this
  rintro rfl
  simp only [Pi.zero_apply] at h2
  have := sq_nonneg f.2.1
  have := sq_nonneg f.2.2
  have : 0 < f.1 ^ 2 := by positivity
  linarith

end Verif
