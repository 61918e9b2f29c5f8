import Verif.Props.FloatVisible

/-!
# Property C126: the curve of the longitudinal field in double precision
-/

set_option exponentiation.threshold 4000

namespace Verif
open Spec PyFloat FloatRange FloatSets FloatCoords FloatError FloatRound FloatVisible

/-- The facets between neighbouring corners, azimuth first. -/
def Spec.gridFacets (P A : List PyFloat) : List ((PyFloat × PyFloat) × (PyFloat × PyFloat)) :=
  (A.zip A.tail).flatMap fun a => (P.zip P.tail).map fun p => (a, p)

/-- The unit vector at the middle of a facet. -/
noncomputable def Spec.facetNormal (f : (PyFloat × PyFloat) × (PyFloat × PyFloat)) : ℝ × ℝ × ℝ :=
  pointing (((f.2.1.num : ℝ) + f.2.2.num) / 2) (((f.1.1.num : ℝ) + f.1.2.num) / 2)

/-- The area of facets as seen from the direction `D`: each counts with the cosine of its angle to the line of sight, those that face away
do not count. A facet comes with its area and its field. -/
noncomputable def Spec.seenArea (D : ℝ × ℝ × ℝ) (xs : List (PyFloat × ((PyFloat × PyFloat) × (PyFloat × PyFloat)) × FVec)) : ℝ :=
  (xs.map fun x => (x.1.num : ℝ) * max 0 (inner3 D (facetNormal x.2.1))).sum

/-- The component of the field along the line of sight, summed over the area seen. -/
noncomputable def Spec.seenField (D : ℝ × ℝ × ℝ) (xs : List (PyFloat × ((PyFloat × PyFloat) × (PyFloat × PyFloat)) × FVec)) : ℝ :=
  (xs.map fun x => inner3 (real3 x.2.2) D * ((x.1.num : ℝ) * max 0 (inner3 D (facetNormal x.2.1)))).sum

/-- A grid over the whole sphere with a field vector of finite components of magnitude at most `M` at every facet. -/
structure Spec.GridField (P A : List PyFloat) (field : List FVec) (M : ℝ) : Prop where
  polar : CornerList P FloatDescribe.pi
  azimuth : CornerList A FloatDescribe.twoPi
  rows : 2 ≤ P.length ∧ P.length ≤ 2 ^ 20
  columns : 2 ≤ A.length
  facets : (P.length - 1) * (A.length - 1) ≤ 2 ^ 24
  complete : field.length = (gridFacets P A).length
  bounded : ∀ b ∈ field, Bounded3 b M
  small : M ≤ 2 ^ 50

namespace FloatVisible
open FloatEnergy FloatDescribe

theorem near_mono {v : FVec} {V : ℝ × ℝ × ℝ} {ε δ : ℝ} (h : Near3 v V ε) (hd : ε ≤ δ) : Near3 v V δ :=
  ⟨h.finite, h.first.trans hd, h.second.trans hd, h.third.trans hd⟩

theorem quarter_fd : FinD (fin false (1 / 4)) := ⟨_, _, rfl, 1, -2, by norm_num, by norm_num, by norm_num, by norm_num⟩

/-- The mean of four corners. -/
theorem quarter_ok {a b c d : PyFloat} (ha : FinD a) (hb : FinD b) (hc : FinD c) (hd : FinD d) (a1 : 0 ≤ (a.num : ℝ) ∧ (a.num : ℝ) ≤ 63 / 10)
    (b1 : 0 ≤ (b.num : ℝ) ∧ (b.num : ℝ) ≤ 63 / 10) (c1 : 0 ≤ (c.num : ℝ) ∧ (c.num : ℝ) ≤ 63 / 10) (d1 : 0 ≤ (d.num : ℝ) ∧ (d.num : ℝ) ≤ 63 / 10) :
    FinD (mul (fin false (1 / 4)) (add (add (add a b) c) d)) ∧ |((mul (fin false (1 / 4)) (add (add (add a b) c) d)).num : ℝ)| ≤ 8 ∧
      |((mul (fin false (1 / 4)) (add (add (add a b) c) d)).num : ℝ) - ((a.num : ℝ) + b.num + c.num + d.num) / 4| ≤ 1 / 2 ^ 48 := by
  have ht := tiny_le (a := 1000) (b := 100) (by norm_num)
  have ht0 : (0 : ℝ) ≤ 1 / 2 ^ 1000 := by positivity
  have step : ∀ {x y : PyFloat} {X : ℝ} {k : ℝ}, FinD x → FinD y → |(x.num : ℝ) - X| ≤ k / 2 ^ 53 → 0 ≤ k → k ≤ 64 → 0 ≤ X → X ≤ 19 → 0 ≤ (y.num : ℝ) → (y.num : ℝ) ≤ 63 / 10 →
      FinD (add x y) ∧ |((add x y).num : ℝ) - (X + y.num)| ≤ (k + X + y.num + 1) / 2 ^ 53 := by
    intro x y X k hx hy h k0 k1 X0 X1 y0 y1
    have hs : |(x.num : ℝ) + y.num| ≤ X + y.num + 1 / 2 := by
      norm_num at h
      rw [abs_le] at *
      constructor <;> linarith
    obtain ⟨f, e⟩ := add_real hx hy (k := 6) (hs.trans (by norm_num; linarith)) (by norm_num)
    refine ⟨f, ?_⟩
    have e2 := e.trans (add_le_add_left (div_le_div_of_nonneg_right hs (by norm_num)) _)
    generalize (1 : ℝ) / 2 ^ 1000 = t at *
    clear * - e2 h ht
    norm_num at *
    rw [abs_le] at *
    constructor <;> linarith
  obtain ⟨f1, e1⟩ := step (X := a.num) (k := 0) ha hb (by simp) le_rfl (by norm_num) a1.1 (by linarith [a1.2]) b1.1 b1.2
  obtain ⟨f2, e2⟩ := step f1 hc e1 (by linarith [a1.1, b1.1]) (by linarith [a1.2, b1.2]) (by linarith [a1.1, b1.1]) (by linarith [a1.2, b1.2]) c1.1 c1.2
  obtain ⟨f3, e3⟩ := step f2 hd e2 (by linarith [a1.1, b1.1, c1.1]) (by linarith [a1.2, b1.2, c1.2]) (by linarith [a1.1, b1.1, c1.1]) (by linarith [a1.2, b1.2, c1.2]) d1.1 d1.2
  have q : (((fin false (1 / 4)).num : ℚ) : ℝ) = 1 / 4 := by simp [PyFloat.num]
  have hs : |((add (add (add a b) c) d).num : ℝ)| ≤ 26 := by
    obtain ⟨a0, a1⟩ := a1
    obtain ⟨b0, b1⟩ := b1
    obtain ⟨c0, c1⟩ := c1
    obtain ⟨d0, d1⟩ := d1
    norm_num at e3
    rw [abs_le] at *
    constructor <;> linarith
  have hp : |(((fin false (1 / 4)).num : ℚ) : ℝ) * (add (add (add a b) c) d).num| ≤ 7 := by
    rw [q, abs_mul, abs_of_pos (by norm_num : (0 : ℝ) < 1 / 4)]; linarith
  obtain ⟨f4, e4⟩ := mul_real quarter_fd f3 (k := 3) (hp.trans (by norm_num)) (by norm_num)
  have e5 := e4.trans (add_le_add_left (div_le_div_of_nonneg_right hp (by norm_num)) _)
  rw [q] at e5
  have key : |((mul (fin false (1 / 4)) (add (add (add a b) c) d)).num : ℝ) - ((a.num : ℝ) + b.num + c.num + d.num) / 4| ≤ 1 / 2 ^ 48 := by
    obtain ⟨a0, a1⟩ := a1
    obtain ⟨b0, b1⟩ := b1
    obtain ⟨c0, c1⟩ := c1
    obtain ⟨d0, d1⟩ := d1
    generalize ((mul (fin false (1 / 4)) (add (add (add a b) c) d)).num : ℝ) = z at *
    generalize ((add (add (add a b) c) d).num : ℝ) = y at *
    generalize (1 : ℝ) / 2 ^ 1000 = t at *
    clear * - e5 e3 ht a0 a1 b0 b1 c0 c1 d0 d1
    norm_num at *
    rw [abs_le] at *
    constructor <;> linarith
  refine ⟨f4, ?_, key⟩
  obtain ⟨a0, a1⟩ := a1
  obtain ⟨b0, b1⟩ := b1
  obtain ⟨c0, c1⟩ := c1
  obtain ⟨d0, d1⟩ := d1
  norm_num at key
  rw [abs_le] at *
  constructor <;> linarith

theorem facets_eq (P A : List PyFloat) : facets P A = gridFacets P A := rfl

theorem mem_facets {P A : List PyFloat} {f} (h : f ∈ gridFacets P A) : f.1 ∈ pairs A ∧ f.2 ∈ pairs P := by
  simp only [gridFacets, List.mem_flatMap, List.mem_map] at h
  obtain ⟨a, ha, p, hp, rfl⟩ := h
  exact ⟨ha, hp⟩

theorem corner_range {xs : List PyFloat} {b : PyFloat} (h : CornerList xs b) (hb : (b.num : ℝ) ≤ 63 / 10) {x : PyFloat} (hx : x ∈ xs) :
    FinD x ∧ 0 ≤ (x.num : ℝ) ∧ (x.num : ℝ) ≤ 63 / 10 := by
  obtain ⟨h1, h2⟩ := h.inside x hx
  have h2' : (x.num : ℝ) ≤ b.num := by exact_mod_cast h2
  exact ⟨h.finite x hx, by exact_mod_cast h1, h2'.trans hb⟩

theorem pi_range : (pi.num : ℝ) ≤ 63 / 10 ∧ (twoPi.num : ℝ) ≤ 63 / 10 := by
  rw [pi_num, twoPi_fd.2]; push_cast; norm_num

/-- The normal of a facet. -/
theorem normal_near {T : SineLib} (hT : GoodCircle T) {P A : List PyFloat} (hP : CornerList P pi) (hA : CornerList A twoPi) {f}
    (h : f ∈ gridFacets P A) : Near3 (rawRect T (centre f)) (facetNormal f) (1 / 2 ^ 44) := by
  obtain ⟨h1, h2⟩ := mem_facets h
  obtain ⟨p1, p2⟩ := pair_mem h2
  obtain ⟨a1, a2⟩ := pair_mem h1
  have P1 := corner_range hP pi_range.1 p1
  have P2 := corner_range hP pi_range.1 p2
  have A1 := corner_range hA pi_range.2 a1
  have A2 := corner_range hA pi_range.2 a2
  obtain ⟨x1, x2, x3⟩ := quarter_ok P1.1 P2.1 P1.1 P2.1 P1.2 P2.2 P1.2 P2.2
  obtain ⟨y1, y2, y3⟩ := quarter_ok A1.1 A1.1 A2.1 A2.1 A1.2 A1.2 A2.2 A2.2
  refine near_mono (rect_near hT (o := fin false 1) (θ := centrePolar f.2) (φ := centreAzimuth f.1)
    ⟨⟨_, _, rfl, 1, 0, by norm_num, by norm_num, by norm_num, by norm_num⟩, rfl⟩ x1 y1 x2 y2 (ε := 1 / 2 ^ 48) ?_ ?_ (by norm_num)) (by norm_num)
  · convert x3 using 2
    simp only [centrePolar]; ring
  · convert y3 using 2
    simp only [centreAzimuth]; ring

theorem observer_near {T : SineLib} (hT : GoodCircle T) {θ φ : PyFloat} (hθ : FinD θ ∧ |(θ.num : ℝ)| ≤ 8) (hφ : FinD φ ∧ |(φ.num : ℝ)| ≤ 8) :
    Near3 (rawRect T (ofInt 1, θ, φ)) (pointing θ.num φ.num) (1 / 2 ^ 47) := by
  have h1 := int_fd (k := 1) (by norm_num)
  refine near_mono (rect_near hT ⟨h1.1, by simpa using h1.2⟩ hθ.1 hφ.1 hθ.2 hφ.2 (ε := 0) (by simp) (by simp) (by norm_num)) (by norm_num)

theorem toRect_fin {T : SineLib} {os : List FVec} (h : ∀ o ∈ os, FinD (rawRect T o).1 ∧ FinD (rawRect T o).2.1 ∧ FinD (rawRect T o).2.2) :
    toRect T os = .ok (os.map (rawRect T)) := by
  have nn : ∀ x : PyFloat, FinD x → isNan x = false := by
    rintro x ⟨s, a, rfl, -⟩; rfl
  have h1 : ∀ o ∈ os, isNan (rawRect T o).1 = false := fun o ho => nn _ (h o ho).1
  have h2 : ∀ o ∈ os, isNan (rawRect T o).2.1 = false := fun o ho => nn _ (h o ho).2.1
  have h3 : ∀ o ∈ os, isNan (rawRect T o).2.2 = false := fun o ho => nn _ (h o ho).2.2
  unfold toRect resAssert
  rw [if_pos h1, if_pos h2, if_pos h3]
  rfl

/-- What the curve is. -/
theorem curve_eq {T : SineLib} (hT : GoodCircle T) (L : DescLib) (S : List PyFloat → PyFloat) {P A : List PyFloat} {field : List FVec}
    (hP : CornerList P pi) (hA : CornerList A twoPi) {θ : PyFloat} (hθ : FinD θ ∧ |(θ.num : ℝ)| ≤ 8) {φs : List PyFloat}
    (hφ : ∀ φ ∈ φs, FinD φ ∧ |(φ.num : ℝ)| ≤ 8) :
    curve T L S P A field θ φs = .ok (φs.map fun φ => longitudinal L S (rawRect T (ofInt 1, θ, φ))
      (((gridFacets P A).zip field).map fun x => (area L x.1, rawRect T (centre x.1), x.2))) := by
  have hn : normals T P A = .ok ((facets P A).map fun f => rawRect T (centre f)) := by
    unfold normals
    rw [toRect_fin, List.map_map]
    · rfl
    · intro o ho
      obtain ⟨f, hf, rfl⟩ := List.mem_map.1 ho
      exact (normal_near hT hP hA hf).finite
  have ha : areas L P A = (facets P A).map (area L) := by
    unfold areas facets
    rw [List.map_flatMap]
    congr 1
    funext a
    rw [List.map_map]
    rfl
  have hz : ∀ (F : List ((PyFloat × PyFloat) × (PyFloat × PyFloat))) (g : List FVec), (F.map (area L)).zip ((F.map fun f => rawRect T (centre f)).zip g) =
      (F.zip g).map fun x => (area L x.1, rawRect T (centre x.1), x.2) := by
    intro F
    induction F with
    | nil => intro g; simp
    | cons f F ih =>
      intro g
      cases g with
      | nil => simp
      | cons b g => simp [ih]
  induction φs with
  | nil => rfl
  | cons φ φs ih =>
    have i := ih fun x hx => hφ x (by simp [hx])
    have ho : toRect T [(ofInt 1, θ, φ)] = .ok [rawRect T (ofInt 1, θ, φ)] := by
      rw [toRect_fin]
      · rfl
      · intro o ho
        obtain rfl := List.mem_singleton.1 ho
        exact (observer_near hT hθ (hφ φ (by simp))).finite
    unfold curve at i ⊢
    rw [List.mapM_cons, i, ho, hn, ha, List.map_cons, ← hz, ← facets_eq]
    rfl

theorem covers_total {areas : List PyFloat} (h : Covers areas) : (areas.map fun a => (a.num : ℝ)).sum ≤ 13 := by
  have h1 := (abs_le.1 h.total).2
  have hp := Real.pi_lt_d2
  have hp0 := Real.pi_pos
  have h2 : (areas.map fun a => (a.num : ℝ)).sum / (4 * Real.pi) ≤ 1 + 1 / 2 ^ 17 := by linarith
  rw [div_le_iff₀ (by positivity)] at h2
  norm_num at h2
  linarith

theorem zip_pairs (L : DescLib) (P A : List PyFloat) (field : List FVec) : (areas L P A).zip ((gridFacets P A).zip field) =
    ((gridFacets P A).zip field).map fun x => (area L x.1, x.1, x.2) := by
  have ha : areas L P A = (gridFacets P A).map (area L) := by
    unfold areas gridFacets
    rw [List.map_flatMap]
    congr 1
    funext a
    rw [List.map_map]
    rfl
  have hz : ∀ (F : List ((PyFloat × PyFloat) × (PyFloat × PyFloat))) (g : List FVec), (F.map (area L)).zip (F.zip g) =
      (F.zip g).map fun x => (area L x.1, x.1, x.2) := by
    intro F
    induction F with
    | nil => intro g; simp
    | cons f F ih =>
      intro g
      cases g with
      | nil => simp
      | cons b g => simp [ih]
  rw [ha, hz]

/-- What is known of the facets of a grid with a field. -/
theorem grid_facts {T : SineLib} (hT : GoodCircle T) {L : DescLib} (hL : GoodDesc L) {P A : List PyFloat} {field : List FVec} {M : ℝ}
    (h : GridField P A field M) : ((gridFacets P A).zip field).length ≤ 2 ^ 24 ∧
      (∀ x ∈ (gridFacets P A).zip field, FinD (area L x.1) ∧ 0 ≤ ((area L x.1).num : ℝ) ∧ ((area L x.1).num : ℝ) ≤ 16) ∧
      (((gridFacets P A).zip field).map fun x => ((area L x.1).num : ℝ)).sum ≤ 13 ∧
      (∀ x ∈ (gridFacets P A).zip field, Near3 (rawRect T (centre x.1)) (facetNormal x.1) (1 / 2 ^ 44)) ∧
      (∀ x ∈ (gridFacets P A).zip field, Bounded3 x.2 M) ∧ (gridFacets P A).zip field ≠ [] := by
  obtain ⟨c1, c2, -⟩ := C125_areas L hL P A h.polar h.azimuth h.rows.1 h.columns h.rows.2 h.facets
  have ha : areas L P A = (gridFacets P A).map (area L) := by
    unfold areas gridFacets
    rw [List.map_flatMap]
    congr 1
    funext a
    rw [List.map_map]
    rfl
  have hfst : ((gridFacets P A).zip field).map Prod.fst = gridFacets P A := by
    rw [List.map_fst_zip]; exact h.complete.ge
  have hl : ((gridFacets P A).zip field).length = (areas L P A).length := by
    rw [ha, List.length_map, List.length_zip, h.complete, min_self]
  have hmem : ∀ x ∈ (gridFacets P A).zip field, x.1 ∈ gridFacets P A ∧ x.2 ∈ field := fun x hx => List.of_mem_zip (a := x.1) (b := x.2) hx
  refine ⟨?_, ?_, ?_, ?_, ?_, ?_⟩
  · rw [hl]; exact c1.count
  · intro x hx
    exact c1.each _ (by rw [ha]; exact List.mem_map_of_mem (hmem x hx).1)
  · have := covers_total c1
    rw [ha, ← hfst, List.map_map, List.map_map] at this
    exact this
  · intro x hx
    exact normal_near hT h.polar h.azimuth (hmem x hx).1
  · intro x hx
    exact h.bounded _ (hmem x hx).2
  · intro he
    have : (areas L P A).length = 0 := by rw [← hl, he]; rfl
    exact c1.nonempty (List.length_eq_zero_iff.1 this)

theorem zero_of_num {x : PyFloat} (h : FinD x) (h0 : x.num = 0) : ∃ s, x = fin s 0 := by
  obtain ⟨s, a, rfl, ha⟩ := h
  refine ⟨s, ?_⟩
  have : a = 0 := by cases s <;> simpa [PyFloat.num] using h0
  rw [this]

end FloatVisible

open FloatVisible FloatDescribe FloatEnergy

/-- **C126.** `get_longitudinal_field_curve` in double precision: for an observer who sees some of the sphere, each entry of the curve is the
average over the area seen of the component of the field along the line of sight, up to rounding. -/
theorem C126_average (T : SineLib) (hT : GoodCircle T) (L : DescLib) (hL : GoodDesc L) (S : List PyFloat → PyFloat) (hS : ∀ xs, IsNpSum xs (S xs))
    (P A : List PyFloat) (field : List FVec) (M : ℝ) (h : GridField P A field M) (θ : PyFloat) (hθ : FinD θ ∧ |(θ.num : ℝ)| ≤ 8) (φs : List PyFloat)
    (hφ : ∀ φ ∈ φs, FinD φ ∧ |(φ.num : ℝ)| ≤ 8) :
    ∃ ys, curve T L S P A field θ φs = .ok ys ∧ List.Forall₂ (fun φ y =>
      1 / 2 ^ 10 ≤ seenArea (pointing θ.num φ.num) ((areas L P A).zip ((gridFacets P A).zip field)) → FinD y ∧
        |(y.num : ℝ) - seenField (pointing θ.num φ.num) ((areas L P A).zip ((gridFacets P A).zip field)) /
          seenArea (pointing θ.num φ.num) ((areas L P A).zip ((gridFacets P A).zip field))| ≤
          M * (1 / 2 ^ 22 + 1 / 2 ^ 26 / seenArea (pointing θ.num φ.num) ((areas L P A).zip ((gridFacets P A).zip field))) + 1 / 2 ^ 800) φs ys := by
  refine ⟨_, curve_eq hT L S h.polar h.azimuth hθ hφ, ?_⟩
  obtain ⟨g1, g2, g3, g4, g5, g6⟩ := grid_facts hT hL h
  rw [List.forall₂_map_right_iff, List.forall₂_same]
  intro φ hm hV
  obtain ⟨x, hx⟩ := List.exists_mem_of_ne_nil _ g6
  have M0 : 0 ≤ M := (abs_nonneg _).trans (g5 x hx).first
  rw [zip_pairs] at hV ⊢
  exact average_ok hL hS (observer_near hT hθ (hφ φ hm)) (pointing_le _ _) (pointing_unit _ _) ((gridFacets P A).zip field)
    (fun x => (area L x.1, rawRect T (centre x.1), x.2)) (fun x => facetNormal x.1) h.small M0 g1 g2 g3 g4 (fun x _ => pointing_le _ _) g5
    (by rw [seenArea, List.map_map]; rfl) (by rw [seenField, List.map_map]; rfl) hV

/-- **C126.** It lies between the smallest and the largest component of the field along the line of sight, up to rounding. -/
theorem C126_between (T : SineLib) (hT : GoodCircle T) (L : DescLib) (hL : GoodDesc L) (S : List PyFloat → PyFloat) (hS : ∀ xs, IsNpSum xs (S xs))
    (P A : List PyFloat) (field : List FVec) (M : ℝ) (h : GridField P A field M) (θ φ : PyFloat) (hθ : FinD θ ∧ |(θ.num : ℝ)| ≤ 8)
    (hφ : FinD φ ∧ |(φ.num : ℝ)| ≤ 8) (lo hi : ℝ) (hb : ∀ b ∈ field, lo ≤ inner3 (real3 b) (pointing θ.num φ.num) ∧ inner3 (real3 b) (pointing θ.num φ.num) ≤ hi)
    (hV : 1 / 2 ^ 10 ≤ seenArea (pointing θ.num φ.num) ((areas L P A).zip ((gridFacets P A).zip field))) :
    ∃ y, curve T L S P A field θ [φ] = .ok [y] ∧ FinD y ∧ lo - (M / 2 ^ 15 + 1 / 2 ^ 800) ≤ y.num ∧ (y.num : ℝ) ≤ hi + (M / 2 ^ 15 + 1 / 2 ^ 800) := by
  obtain ⟨ys, e, f⟩ := C126_average T hT L hL S hS P A field M h θ hθ [φ] (by simpa using hφ)
  rw [List.forall₂_cons_left_iff] at f
  obtain ⟨y, ys', k, f, rfl⟩ := f
  obtain rfl := List.forall₂_nil_left_iff.1 f
  obtain ⟨k1, k2⟩ := k hV
  refine ⟨y, e, k1, ?_⟩
  obtain ⟨g1, g2, g3, g4, g5, g6⟩ := grid_facts hT hL h
  obtain ⟨x, hx⟩ := List.exists_mem_of_ne_nil _ g6
  have M0 : 0 ≤ M := (abs_nonneg _).trans (g5 x hx).first
  have V0 : 0 < seenArea (pointing θ.num φ.num) ((areas L P A).zip ((gridFacets P A).zip field)) := lt_of_lt_of_le (by norm_num) hV
  have low : lo * seenArea (pointing θ.num φ.num) ((areas L P A).zip ((gridFacets P A).zip field)) ≤
      seenField (pointing θ.num φ.num) ((areas L P A).zip ((gridFacets P A).zip field)) := by
    rw [zip_pairs, seenArea, seenField, List.map_map, List.map_map]
    have := sum_le' ((gridFacets P A).zip field) (f := fun x => lo * (((area L x.1).num : ℝ) * max 0 (inner3 (pointing θ.num φ.num) (facetNormal x.1))) + 0)
      (g := fun x => inner3 (real3 x.2) (pointing θ.num φ.num) * (((area L x.1).num : ℝ) * max 0 (inner3 (pointing θ.num φ.num) (facetNormal x.1))))
      fun x hx => by
        rw [add_zero]
        exact mul_le_mul_of_nonneg_right (hb _ (List.of_mem_zip (a := x.1) (b := x.2) hx).2).1 (mul_nonneg (g2 x hx).2.1 (le_max_left _ _))
    rw [sum_affine, mul_zero, add_zero] at this
    exact this
  have high : seenField (pointing θ.num φ.num) ((areas L P A).zip ((gridFacets P A).zip field)) ≤
      hi * seenArea (pointing θ.num φ.num) ((areas L P A).zip ((gridFacets P A).zip field)) := by
    rw [zip_pairs, seenArea, seenField, List.map_map, List.map_map]
    have := sum_le' ((gridFacets P A).zip field) (g := fun x => hi * (((area L x.1).num : ℝ) * max 0 (inner3 (pointing θ.num φ.num) (facetNormal x.1))) + 0)
      (f := fun x => inner3 (real3 x.2) (pointing θ.num φ.num) * (((area L x.1).num : ℝ) * max 0 (inner3 (pointing θ.num φ.num) (facetNormal x.1))))
      fun x hx => by
        rw [add_zero]
        exact mul_le_mul_of_nonneg_right (hb _ (List.of_mem_zip (a := x.1) (b := x.2) hx).2).2 (mul_nonneg (g2 x hx).2.1 (le_max_left _ _))
    rw [sum_affine, mul_zero, add_zero] at this
    exact this
  rw [← le_div_iff₀ V0] at low
  rw [← div_le_iff₀ V0] at high
  have hI : 1 / 2 ^ 26 / seenArea (pointing θ.num φ.num) ((areas L P A).zip ((gridFacets P A).zip field)) ≤ 1 / 2 ^ 16 := by
    rw [div_le_iff₀ V0]
    norm_num at *
    linarith
  have hE : M * (1 / 2 ^ 22 + 1 / 2 ^ 26 / seenArea (pointing θ.num φ.num) ((areas L P A).zip ((gridFacets P A).zip field))) ≤ M / 2 ^ 15 := by
    rw [show M / 2 ^ 15 = M * (1 / 2 ^ 15) by ring]
    refine mul_le_mul_of_nonneg_left ?_ M0
    generalize 1 / 2 ^ 26 / seenArea (pointing θ.num φ.num) ((areas L P A).zip ((gridFacets P A).zip field)) = q at *
    norm_num at *
    linarith
  have k3 := abs_le.1 k2
  constructor <;> linarith

/-- **C126.** An observer who sees no facet gets nan, silently. -/
theorem C126_invisible (T : SineLib) (hT : GoodCircle T) (L : DescLib) (hL : GoodDesc L) (S : List PyFloat → PyFloat) (hS : ∀ xs, IsNpSum xs (S xs))
    (P A : List PyFloat) (field : List FVec) (M : ℝ) (h : GridField P A field M) (θ : PyFloat) (hθ : FinD θ ∧ |(θ.num : ℝ)| ≤ 8) (φs : List PyFloat)
    (hφ : ∀ φ ∈ φs, FinD φ ∧ |(φ.num : ℝ)| ≤ 8) :
    ∃ ys, curve T L S P A field θ φs = .ok ys ∧ List.Forall₂ (fun φ y =>
      (∀ f ∈ gridFacets P A, inner3 (pointing θ.num φ.num) (facetNormal f) ≤ -(1 / 2 ^ 36)) → y = nan) φs ys := by
  refine ⟨_, curve_eq hT L S h.polar h.azimuth hθ hφ, ?_⟩
  obtain ⟨g1, g2, g3, g4, g5, g6⟩ := grid_facts hT hL h
  rw [List.forall₂_map_right_iff, List.forall₂_same]
  intro φ hm hV
  have hd := observer_near hT hθ (hφ φ hm)
  have hv := fun x hx => visible_ok (x := (area L x.1, rawRect T (centre x.1), x.2)) hL hS hd (pointing_le _ _) (pointing_unit _ _) (g2 x hx) (g4 x hx)
    (pointing_le _ _)
  have hp := fun x hx => parallel_ok hS hd (pointing_le _ _) (g5 x hx) h.small
  have v0 : ∀ x ∈ (gridFacets P A).zip field, (visibleArea L S (rawRect T (ofInt 1, θ, φ)) (area L x.1, rawRect T (centre x.1), x.2)).num = 0 := fun x hx =>
    (hv x hx).2.2.2.2.2 (hV _ (List.of_mem_zip (a := x.1) (b := x.2) hx).1)
  have t0 : ∀ x ∈ (gridFacets P A).zip field, FinD (mul (dot S x.2 (rawRect T (ofInt 1, θ, φ))) (visibleArea L S (rawRect T (ofInt 1, θ, φ))
      (area L x.1, rawRect T (centre x.1), x.2))) ∧ (mul (dot S x.2 (rawRect T (ofInt 1, θ, φ))) (visibleArea L S (rawRect T (ofInt 1, θ, φ))
      (area L x.1, rawRect T (centre x.1), x.2))).num = 0 := by
    intro x hx
    have := mul_num (hp x hx).1 (hv x hx).1 (by rw [v0 x hx, mul_zero, abs_zero]; exact isDouble_zero.le_max)
    rwa [v0 x hx, mul_zero, rnd_zero] at this
  have zsum : ∀ g : ((PyFloat × PyFloat) × (PyFloat × PyFloat)) × FVec → PyFloat, (∀ x ∈ (gridFacets P A).zip field, FinD (g x) ∧ (g x).num = 0) →
      ∃ s, S (((gridFacets P A).zip field).map g) = fin s 0 := by
    intro g hg
    have hz : ∀ y ∈ ((gridFacets P A).zip field).map g, FinD y ∧ y.num = 0 := by
      intro y hy
      obtain ⟨x, hx, rfl⟩ := List.mem_map.1 hy
      exact hg x hx
    have hsz : size (((gridFacets P A).zip field).map g) = 0 := by
      apply List.sum_eq_zero
      intro q hq
      obtain ⟨y, hy, rfl⟩ := List.mem_map.1 hq
      simp [(hz y hy).2]
    obtain ⟨f, -, z⟩ := npSum_signed (hS (((gridFacets P A).zip field).map g)) (fun y hy => (hz y hy).1) (by simpa using g1) (by rw [hsz]; positivity)
    exact zero_of_num f (z fun y hy => (hz y hy).2)
  obtain ⟨s, e1⟩ := zsum (fun x => mul (dot S x.2 (rawRect T (ofInt 1, θ, φ))) (visibleArea L S (rawRect T (ofInt 1, θ, φ))
      (area L x.1, rawRect T (centre x.1), x.2))) t0
  obtain ⟨t, e2⟩ := zsum (fun x => visibleArea L S (rawRect T (ofInt 1, θ, φ)) (area L x.1, rawRect T (centre x.1), x.2)) fun x hx => ⟨(hv x hx).1, v0 x hx⟩
  have : longitudinal L S (rawRect T (ofInt 1, θ, φ)) (((gridFacets P A).zip field).map fun x => (area L x.1, rawRect T (centre x.1), x.2)) =
      div (fin s 0) (fin t 0) := by
    rw [← e1, ← e2]
    simp only [longitudinal, List.map_map]
    rfl
  rw [this]
  cases s <;> cases t <;> rfl

namespace FloatVisible

/-- The grid of `ZdiGeometry(2, 2)` is a single facet. -/
theorem two_by_two {b : FVec} {M : ℝ} (hb : Bounded3 b M) (hM : M ≤ 2 ^ 50) : ∃ P A, corners (some 2) (some 2) = .ok (P, A) ∧ GridField P A [b] M ∧
    ∃ f, gridFacets P A = [f] ∧ ∀ θ φ : ℝ, |inner3 (pointing θ φ) (facetNormal f) + Real.sin θ * Real.cos φ| ≤ 1 / 2 ^ 20 := by
  obtain ⟨P, A, e, c1, c2, l1, l2, -, -⟩ := C125_corners 2 2 le_rfl le_rfl (by norm_num) (by norm_num)
  obtain ⟨x, y, rfl⟩ := List.length_eq_two.1 l1
  obtain ⟨u, v, rfl⟩ := List.length_eq_two.1 l2
  obtain ⟨x', hx, x0⟩ := c1.first
  obtain ⟨u', hu, u0⟩ := c2.first
  obtain rfl : x = x' := by simpa using hx
  obtain rfl : u = u' := by simpa using hu
  obtain rfl : y = pi := by simpa using c1.last
  obtain rfl : v = twoPi := by simpa using c2.last
  refine ⟨_, _, e, ⟨c1, c2, ⟨by simp, by simp⟩, by simp, by simp, by simp [gridFacets], by simpa using hb, hM⟩, ((u, twoPi), (x, pi)), by simp [gridFacets], ?_⟩
  intro θ φ
  have p1 := pi_close.2
  have p2 := twoPi_close
  have hm1 : |((x.num : ℝ) + pi.num) / 2 - Real.pi / 2| ≤ 1 / 2 ^ 50 := by
    rw [x0]
    push_cast
    generalize (pi.num : ℝ) = p at *
    norm_num at *
    rw [abs_le] at *
    constructor <;> linarith
  have hm2 : |((u.num : ℝ) + twoPi.num) / 2 - Real.pi| ≤ 1 / 2 ^ 50 := by
    rw [u0]
    push_cast
    generalize (twoPi.num : ℝ) = p at *
    norm_num at *
    rw [abs_le] at *
    constructor <;> linarith
  have s1 := (Real.abs_sin_sub_sin_le _ _).trans hm1
  have k1 := (Real.abs_cos_sub_cos_le _ _).trans hm1
  have s2 := (Real.abs_sin_sub_sin_le _ _).trans hm2
  have k2 := (Real.abs_cos_sub_cos_le _ _).trans hm2
  rw [Real.sin_pi_div_two] at s1
  rw [Real.cos_pi_div_two, sub_zero] at k1
  rw [Real.sin_pi, sub_zero] at s2
  rw [Real.cos_pi] at k2
  have near : |(facetNormal ((u, twoPi), (x, pi))).1 - (-1)| ≤ 1 / 2 ^ 48 ∧ |(facetNormal ((u, twoPi), (x, pi))).2.1 - 0| ≤ 1 / 2 ^ 48 ∧
      |(facetNormal ((u, twoPi), (x, pi))).2.2 - 0| ≤ 1 / 2 ^ 48 := by
    simp only [facetNormal, pointing]
    generalize Real.sin (((x.num : ℝ) + pi.num) / 2) = a at *
    generalize Real.cos (((x.num : ℝ) + pi.num) / 2) = b at *
    have c1 := Real.abs_cos_le_one (((u.num : ℝ) + twoPi.num) / 2)
    generalize Real.sin (((u.num : ℝ) + twoPi.num) / 2) = c at *
    generalize Real.cos (((u.num : ℝ) + twoPi.num) / 2) = d at *
    have h1 : |(a - 1) * d| ≤ 1 / 2 ^ 50 * 1 := by rw [abs_mul]; gcongr
    have ha : |a| ≤ 2 := by norm_num at s1; rw [abs_le] at *; constructor <;> linarith
    have h2 : |a * c| ≤ 2 * (1 / 2 ^ 50) := by rw [abs_mul]; gcongr
    rw [sub_zero, sub_zero]
    refine ⟨?_, h2.trans (by norm_num), k1.trans (by norm_num)⟩
    clear * - h1 k2
    norm_num at k2 ⊢
    norm_num [-mul_eq_zero, -abs_mul] at h1
    rw [abs_le] at *
    constructor <;> linarith
  have h := inner_diff (u := pointing θ φ) (U := pointing θ φ) (v := facetNormal ((u, twoPi), (x, pi))) (V := (-1, 0, 0)) (ε := 0) (δ := 1 / 2 ^ 48) (m := 1) (M := 1)
    (by simp) near (pointing_le _ _) (pointing_le _ _)
  have e : inner3 (pointing θ φ) (-1, 0, 0) = -(Real.sin θ * Real.cos φ) := by simp [inner3, pointing]
  rw [e, sub_neg_eq_add] at h
  exact h.trans (by norm_num)

end FloatVisible

/-- **C126.** With the grid of `ZdiGeometry(2, 2)`, the curve of the default azimuths starts with nan for any field: the only facet is on the far
side. -/
theorem C126_two_corners (T : SineLib) (hT : GoodCircle T) (L : DescLib) (hL : GoodDesc L) (S : List PyFloat → PyFloat) (hS : ∀ xs, IsNpSum xs (S xs))
    (b : FVec) (M : ℝ) (hb : Bounded3 b M) (hM : M ≤ 2 ^ 50) : ∃ P A, corners (some 2) (some 2) = .ok (P, A) ∧
      curve T L S P A [b] (fin false (3 / 2)) [fin false 0] = .ok [nan] := by
  obtain ⟨P, A, e, g, f, ef, hf⟩ := two_by_two hb hM
  refine ⟨P, A, e, ?_⟩
  have h32 : FinD (fin false (3 / 2)) := ⟨_, _, rfl, 3, -1, by norm_num, by norm_num, by norm_num, by norm_num⟩
  obtain ⟨ys, e1, e2⟩ := C126_invisible T hT L hL S hS P A [b] M g (fin false (3 / 2))
    ⟨h32, by simp only [PyFloat.num]; norm_num [abs_le]⟩ [fin false 0] (by
      intro φ hφ
      obtain rfl := List.mem_singleton.1 hφ
      exact ⟨zero_fd, by simp [PyFloat.num]⟩)
  rw [List.forall₂_cons_left_iff] at e2
  obtain ⟨y, ys', k, f2, rfl⟩ := e2
  obtain rfl := List.forall₂_nil_left_iff.1 f2
  rw [e1, k]
  intro f' hf'
  rw [ef] at hf'
  obtain rfl := List.mem_singleton.1 hf'
  have h := hf (3 / 2) 0
  have s : (1 : ℝ) / 2 ≤ Real.sin (3 / 2) := by
    rw [← Real.sin_pi_div_six]
    apply Real.sin_le_sin_of_le_of_le_pi_div_two <;> linarith [Real.pi_gt_d2, Real.pi_lt_d2]
  rw [Real.cos_zero, mul_one] at h
  have en : (((fin false (3 / 2)).num : ℚ) : ℝ) = 3 / 2 ∧ (((fin false 0).num : ℚ) : ℝ) = 0 := by simp [PyFloat.num]
  rw [en.1, en.2]
  generalize inner3 (pointing (3 / 2) 0) (facetNormal f') = q at *
  rw [abs_le] at h
  norm_num at *
  linarith

/-! ### Non-vacuity -/

noncomputable def FloatVisible.exCircle : SineLib where
  sin x := roundReal (Real.sin x.num)
  cos x := roundReal (Real.cos x.num)

theorem FloatVisible.exCircle_good : GoodCircle exCircle where
  sin x _ _ := by
    have h := roundReal_close (x := Real.sin x.num) ((Real.abs_sin_le_one _).trans (by norm_num))
    exact ⟨h.1, h.2.1⟩
  cos x _ _ := by
    have h := roundReal_close (x := Real.cos x.num) ((Real.abs_cos_le_one _).trans (by norm_num))
    exact ⟨h.1, h.2.1⟩

private theorem exField : Bounded3 (fin false 1, fin false 0, fin false 0) 1 :=
  ⟨⟨⟨_, _, rfl, 1, 0, by norm_num, by norm_num, by norm_num, by norm_num⟩, zero_fd, zero_fd⟩, by simp [PyFloat.num], by simp [PyFloat.num], by simp [PyFloat.num]⟩

/-- The facet of `ZdiGeometry(2, 2)` is seen by an observer on its side. -/
theorem FloatVisible.exSeen {b : FVec} {M : ℝ} {P A : List PyFloat} {f} (g : GridField P A [b] M) (ef : gridFacets P A = [f])
    (hf : ∀ θ φ : ℝ, |inner3 (pointing θ φ) (facetNormal f) + Real.sin θ * Real.cos φ| ≤ 1 / 2 ^ 20) :
    1 / 2 ^ 10 ≤ seenArea (pointing (3 / 2) 3) ((areas exDesc P A).zip ((gridFacets P A).zip [b])) := by
  have s : (1 : ℝ) / 2 ≤ Real.sin (3 / 2) ∧ Real.sin (3 / 2) ≤ 1 := by
    refine ⟨?_, Real.sin_le_one _⟩
    rw [← Real.sin_pi_div_six]
    apply Real.sin_le_sin_of_le_of_le_pi_div_two <;> linarith [Real.pi_gt_d2, Real.pi_lt_d2]
  have c : Real.cos 3 ≤ -(9 / 10) ∧ -1 ≤ Real.cos 3 := by
    refine ⟨?_, Real.neg_one_le_cos _⟩
    have h1 := Real.one_sub_sq_div_two_le_cos (x := Real.pi - 3)
    rw [Real.cos_pi_sub] at h1
    have p1 := Real.pi_gt_d2
    have p2 := Real.pi_lt_d2
    nlinarith
  have sc : Real.sin (3 / 2) * Real.cos 3 ≤ -(9 / 20) := by nlinarith
  obtain ⟨g1, g2, g3, g4, g5, g6⟩ := grid_facts exCircle_good exDesc_good g
  obtain ⟨c1, -, -⟩ := C125_areas exDesc exDesc_good P A g.polar g.azimuth g.rows.1 g.columns g.rows.2 g.facets
  have ha : areas exDesc P A = [area exDesc f] := by
    have : areas exDesc P A = (gridFacets P A).map (area exDesc) := by
      unfold areas gridFacets
      rw [List.map_flatMap]
      congr 1
      funext a
      rw [List.map_map]
      rfl
    rw [this, ef]; rfl
  have ht := (abs_le.1 c1.total).1
  rw [ha] at ht
  simp only [List.map_cons, List.map_nil, List.sum_cons, List.sum_nil, add_zero] at ht
  have hpos := Real.pi_gt_d2
  have ht2 : 1 / 2 ≤ ((area exDesc f).num : ℝ) / (4 * Real.pi) := by norm_num at ht; linarith
  rw [le_div_iff₀ (by positivity)] at ht2
  rw [ha, ef]
  simp only [seenArea, List.zip_cons_cons, List.zip_nil_right, List.map_cons, List.map_nil, List.sum_cons, List.sum_nil, add_zero]
  have hi := hf (3 / 2) 3
  rw [abs_le] at hi
  have hm : 2 / 5 ≤ max 0 (inner3 (pointing (3 / 2) 3) (facetNormal f)) := by
    refine le_max_of_le_right ?_
    norm_num at hi
    linarith
  have : (6 : ℝ) * (2 / 5) ≤ ((area exDesc f).num : ℝ) * max 0 (inner3 (pointing (3 / 2) 3) (facetNormal f)) :=
    mul_le_mul (by linarith) hm (by norm_num) (by linarith)
  norm_num at *
  linarith

/-- A uniform field of strength 1 in the direction of the x axis, seen from the other side: the facet is visible and the entry is close to -1. -/
example : ∃ P A y, corners (some 2) (some 2) = .ok (P, A) ∧
    curve exCircle exDesc exSum P A [(fin false 1, fin false 0, fin false 0)] (fin false (3 / 2)) [fin false 3] = .ok [y] ∧ FinD y ∧ (y.num : ℝ) ≤ -(2 / 5) := by
  obtain ⟨P, A, e, g, f, ef, hf⟩ := two_by_two exField (by norm_num)
  have h32 : FinD (fin false (3 / 2)) := ⟨_, _, rfl, 3, -1, by norm_num, by norm_num, by norm_num, by norm_num⟩
  have h3 : FinD (fin false 3) := ⟨_, _, rfl, 3, 0, by norm_num, by norm_num, by norm_num, by norm_num⟩
  have en : (((fin false (3 / 2)).num : ℚ) : ℝ) = 3 / 2 ∧ (((fin false 3).num : ℚ) : ℝ) = 3 := by simp [PyFloat.num]
  have s : (1 : ℝ) / 2 ≤ Real.sin (3 / 2) ∧ Real.sin (3 / 2) ≤ 1 := by
    refine ⟨?_, Real.sin_le_one _⟩
    rw [← Real.sin_pi_div_six]
    apply Real.sin_le_sin_of_le_of_le_pi_div_two <;> linarith [Real.pi_gt_d2, Real.pi_lt_d2]
  have c : Real.cos 3 ≤ -(9 / 10) ∧ -1 ≤ Real.cos 3 := by
    refine ⟨?_, Real.neg_one_le_cos _⟩
    have h1 := Real.one_sub_sq_div_two_le_cos (x := Real.pi - 3)
    rw [Real.cos_pi_sub] at h1
    have p1 := Real.pi_gt_d2
    have p2 := Real.pi_lt_d2
    nlinarith
  have sc : Real.sin (3 / 2) * Real.cos 3 ≤ -(9 / 20) := by nlinarith
  have hV := exSeen g ef hf
  obtain ⟨y, e1, e2, -, e3⟩ := C126_between exCircle exCircle_good exDesc exDesc_good exSum exSum_ok P A _ 1 g (fin false (3 / 2)) (fin false 3)
    ⟨h32, by rw [en.1]; norm_num [abs_le]⟩ ⟨h3, by rw [en.2]; norm_num [abs_le]⟩ (-1) (-(9 / 20)) (by
      intro b hb
      obtain rfl := List.mem_singleton.1 hb
      rw [en.1, en.2]
      have e : inner3 (real3 (fin false 1, fin false 0, fin false 0)) (pointing (3 / 2) 3) = Real.sin (3 / 2) * Real.cos 3 := by
        simp [inner3, real3, pointing, PyFloat.num]
      rw [e]
      exact ⟨by nlinarith, sc⟩)
    (by rw [en.1, en.2]; exact hV)
  refine ⟨P, A, y, e, e1, e2, e3.trans ?_⟩
  have := tiny_le (a := 800) (b := 100) (by norm_num)
  generalize (1 : ℝ) / 2 ^ 800 = t at *
  norm_num at *
  linarith

example : ∃ P A, corners (some 2) (some 2) = .ok (P, A) ∧
    curve exCircle exDesc exSum P A [(fin false 1, fin false 0, fin false 0)] (fin false (3 / 2)) [fin false 0] = .ok [nan] :=
  C126_two_corners exCircle exCircle_good exDesc exDesc_good exSum exSum_ok _ 1 exField (by norm_num)

end Verif
