import Verif.Model.Maps
import Verif.Props.Describe
import Verif.Props.Zdi

/-!
# C72, C73: the numbers shown on the maps
-/

namespace Verif
open Geometry Spec Maps

/-- The values of an array. -/
def Spec.vals (x : List (List ℝ)) : Set ℝ := {v | ∃ j i, at2 x j i = some v}

/-- The field takes values of both signs. -/
def Spec.BothSigns (x : List (List ℝ)) : Prop := (∃ v ∈ vals x, v < 0) ∧ ∃ v ∈ vals x, 0 < v

namespace Maps

theorem mem_vals {x : Arr2 ℝ} {v : ℝ} : v ∈ vals x ↔ v ∈ x.flatten := by
  simp only [vals, at2, Set.mem_setOf_eq, List.mem_flatten, Option.bind_eq_some_iff]
  constructor
  · rintro ⟨j, i, r, h1, h2⟩
    exact ⟨r, List.mem_of_getElem? h1, List.mem_of_getElem? h2⟩
  · rintro ⟨r, h1, h2⟩
    obtain ⟨j, hj⟩ := List.mem_iff_getElem?.1 h1
    obtain ⟨i, hi⟩ := List.mem_iff_getElem?.1 h2
    exact ⟨j, i, r, hj, hi⟩

theorem amin_ok {x : Arr2 ℝ} {v : ℝ} : amin x = .ok v ↔ IsLeast (vals x) v := by
  rw [amin]
  have key : x.flatten.min? = some v ↔ IsLeast (vals x) v := by
    rw [List.min?_eq_some_iff]
    constructor
    · rintro ⟨h1, h2⟩
      exact ⟨mem_vals.2 h1, fun w hw => h2 w (mem_vals.1 hw)⟩
    · rintro ⟨h1, h2⟩
      exact ⟨mem_vals.1 h1, fun w hw => h2 (mem_vals.2 hw)⟩
  rw [← key]
  cases h : x.flatten.min? with
  | none => simp
  | some w => simp

theorem amax_ok {x : Arr2 ℝ} {v : ℝ} : amax x = .ok v ↔ IsGreatest (vals x) v := by
  rw [amax]
  have key : x.flatten.max? = some v ↔ IsGreatest (vals x) v := by
    rw [List.max?_eq_some_iff]
    constructor
    · rintro ⟨h1, h2⟩
      exact ⟨mem_vals.2 h1, fun w hw => h2 w (mem_vals.1 hw)⟩
    · rintro ⟨h1, h2⟩
      exact ⟨mem_vals.1 h1, fun w hw => h2 (mem_vals.2 hw)⟩
  rw [← key]
  cases h : x.flatten.max? with
  | none => simp
  | some w => simp

theorem amin_total {x : Arr2 ℝ} (h : (vals x).Nonempty) : ∃ v, amin x = .ok v := by
  obtain ⟨w, hw⟩ := h
  rw [mem_vals] at hw
  rw [amin]
  cases e : x.flatten.min? with
  | none => rw [List.min?_eq_none_iff] at e; rw [e] at hw; simp at hw
  | some v => exact ⟨v, rfl⟩

theorem amax_total {x : Arr2 ℝ} (h : (vals x).Nonempty) : ∃ v, amax x = .ok v := by
  obtain ⟨w, hw⟩ := h
  rw [mem_vals] at hw
  rw [amax]
  cases e : x.flatten.max? with
  | none => rw [List.max?_eq_none_iff] at e; rw [e] at hw; simp at hw
  | some v => exact ⟨v, rfl⟩

theorem amin_empty {x : Arr2 ℝ} (h : ¬ (vals x).Nonempty) : amin x = .error .value := by
  rw [amin]
  cases e : x.flatten.min? with
  | none => rfl
  | some v => exact absurd ⟨v, mem_vals.2 (List.min?_eq_some_iff.1 e).1⟩ h

theorem amax_empty {x : Arr2 ℝ} (h : ¬ (vals x).Nonempty) : amax x = .error .value := by
  rw [amax]
  cases e : x.flatten.max? with
  | none => rfl
  | some v => exact absurd ⟨v, mem_vals.2 (List.max?_eq_some_iff.1 e).1⟩ h

theorem vals_abs (x y z : Arr2 ℝ) (v : ℝ) :
    v ∈ vals (map1 (fun v => |v|) (x ++ y ++ z)) ↔ ∃ w, (w ∈ vals x ∨ w ∈ vals y ∨ w ∈ vals z) ∧ |w| = v := by
  simp only [mem_vals, map1, ← List.map_flatten, List.mem_map, List.flatten_append, List.mem_append, or_assoc]

end Maps

/-- **C72.** What the colour scale of a map is. It is symmetric if asked for, or by default if the field has both signs;
then it is centred on zero and the default colours are red and blue. Otherwise it runs from the least value to the
greatest, or to `abs_max` if that is given. -/
theorem C72_scale (field : Arr2 ℝ) (symmetric : Option Bool) (cmap : Option String) (absMax : Option ℝ) (p : Panel)
    (h : magneticField field symmetric cmap absMax = .ok p) :
    ∃ lo hi, IsLeast (vals field) lo ∧ IsGreatest (vals field) hi ∧
      (p.symmetric = true ↔ symmetric = some true ∨ symmetric = none ∧ BothSigns field) ∧
      p.cmap = cmap.getD (if p.symmetric then "RdBu_r" else "viridis") ∧
      (p.symmetric = true → p.vmin = -p.vmax ∧ p.vmax = max |lo| |absMax.getD hi|) ∧
      (p.symmetric = false → p.vmin = lo ∧ p.vmax = absMax.getD hi) := by
  by_cases hne : (vals field).Nonempty
  swap
  · rw [magneticField, amin_empty hne] at h
    simp [bind, Except.bind] at h
  obtain ⟨lo, hlo⟩ := amin_total hne
  obtain ⟨hi, hhi⟩ := amax_total hne
  have h1 := amin_ok.1 hlo
  have h2 := amax_ok.1 hhi
  have hb : BothSigns field ↔ lo < 0 ∧ 0 < hi := by
    constructor
    · rintro ⟨⟨v, hv, v0⟩, w, hw, w0⟩
      exact ⟨lt_of_le_of_lt (h1.2 hv) v0, lt_of_lt_of_le w0 (h2.2 hw)⟩
    · rintro ⟨a, b⟩
      exact ⟨⟨lo, h1.1, a⟩, hi, h2.1, b⟩
  rw [magneticField, hlo, hhi] at h
  simp only [bind, Except.bind, pure, Except.pure, Except.ok.injEq] at h
  refine ⟨lo, hi, h1, h2, ?_⟩
  rw [hb]
  subst h
  rcases symmetric with _ | b
  · by_cases hs : lo < 0 ∧ 0 < hi <;> rcases cmap with _ | c <;> rcases absMax with _ | m <;> simp [hs]
  · rcases b <;> rcases cmap with _ | c <;> rcases absMax with _ | m <;> simp

/-- **C72.** Every map of a non-empty array is drawn; an empty one raises ValueError. -/
theorem C72_defined (field : Arr2 ℝ) (symmetric : Option Bool) (cmap : Option String) (absMax : Option ℝ) :
    ((vals field).Nonempty → ∃ p, magneticField field symmetric cmap absMax = .ok p) ∧
    (¬ (vals field).Nonempty → magneticField field symmetric cmap absMax = .error .value) := by
  constructor
  · intro h
    obtain ⟨lo, hlo⟩ := amin_total h
    obtain ⟨hi, hhi⟩ := amax_total h
    rw [magneticField, hlo, hhi]
    exact ⟨_, rfl⟩
  · intro h
    rw [magneticField, amin_empty h]
    rfl

/-- **C72.** No value lies outside the colour range, as long as `abs_max`, if given, is not below a value. -/
theorem C72_no_clipping (field : Arr2 ℝ) (symmetric : Option Bool) (cmap : Option String) (absMax : Option ℝ) (p : Panel)
    (h : magneticField field symmetric cmap absMax = .ok p) (hm : ∀ m, absMax = some m → ∀ v ∈ vals field, v ≤ m)
    (v : ℝ) (hv : v ∈ vals field) : p.vmin ≤ v ∧ v ≤ p.vmax := by
  obtain ⟨lo, hi, h1, h2, -, -, h3, h4⟩ := C72_scale field symmetric cmap absMax p h
  have hup : v ≤ absMax.getD hi := by
    cases absMax with
    | none => exact h2.2 hv
    | some m => exact hm m rfl v hv
  have hlo := h1.2 hv
  cases hs : p.symmetric with
  | true =>
    obtain ⟨e1, e2⟩ := h3 hs
    rw [e1, e2]
    have := neg_abs_le lo
    have := le_abs_self (absMax.getD hi)
    have := le_max_left |lo| |absMax.getD hi|
    have := le_max_right |lo| |absMax.getD hi|
    constructor <;> linarith
  | false =>
    obtain ⟨e1, e2⟩ := h4 hs
    rw [e1, e2]
    exact ⟨hlo, hup⟩

/-- **C72.** `abs_max` is not the upper limit of a symmetric scale if the field has a value below `-abs_max`. -/
theorem C72_abs_max_exceeded (field : Arr2 ℝ) (symmetric : Option Bool) (cmap : Option String) (m : ℝ) (p : Panel)
    (h : magneticField field symmetric cmap (some m) = .ok p) (hs : p.symmetric = true) (v : ℝ) (hv : v ∈ vals field)
    (hvm : v < -|m|) : m < p.vmax := by
  obtain ⟨lo, hi, h1, h2, -, -, h3, -⟩ := C72_scale field symmetric cmap _ p h
  rw [(h3 hs).2]
  refine lt_of_lt_of_le ?_ (le_max_left _ _)
  have := h1.2 hv
  have := neg_abs_le lo
  have := le_abs_self m
  linarith

/-- The largest absolute value of the three components. -/
def Spec.Largest (fr fp fa : List (List ℝ)) (A : ℝ) : Prop :=
  IsGreatest {v | ∃ w, (w ∈ vals fr ∨ w ∈ vals fp ∨ w ∈ vals fa) ∧ |w| = v} A

namespace Maps

theorem components_ok {fr fp fa : Arr2 ℝ} {symmetric : Option Bool} {c : Components}
    (h : components fr fp fa symmetric = .ok c) : ∃ A, Largest fr fp fa A ∧
      magneticField fr symmetric none (some A) = .ok c.radial ∧ magneticField fp symmetric none (some A) = .ok c.polar ∧
      magneticField fa symmetric none (some A) = .ok c.azimuthal ∧ c.bar = c.azimuthal := by
  rw [components] at h
  by_cases hne : (vals (map1 (fun v => |v|) (fr ++ fp ++ fa))).Nonempty
  swap
  · rw [amax_empty hne] at h
    simp [bind, Except.bind] at h
  obtain ⟨A, hA⟩ := amax_total hne
  have hA' := amax_ok.1 hA
  rw [hA] at h
  simp only [bind, Except.bind] at h
  refine ⟨A, ?_, ?_⟩
  · have : {v | ∃ w, (w ∈ vals fr ∨ w ∈ vals fp ∨ w ∈ vals fa) ∧ |w| = v}
        = vals (map1 (fun v => |v|) (fr ++ fp ++ fa)) := by
      ext v
      rw [vals_abs]
      rfl
    rw [Largest, this]
    exact hA'
  · cases hr : magneticField fr symmetric none (some A) with
    | error e => rw [hr] at h; simp at h
    | ok r =>
      cases hp : magneticField fp symmetric none (some A) with
      | error e => rw [hr, hp] at h; simp at h
      | ok p =>
        cases ha : magneticField fa symmetric none (some A) with
        | error e => rw [hr, hp, ha] at h; simp at h
        | ok a =>
          rw [hr, hp, ha] at h
          simp only [pure, Except.pure, Except.ok.injEq] at h
          subst h
          exact ⟨rfl, rfl, rfl, rfl⟩

theorem components_total {fr fp fa : Arr2 ℝ} (symmetric : Option Bool) (hr : (vals fr).Nonempty)
    (hp : (vals fp).Nonempty) (ha : (vals fa).Nonempty) : ∃ c, components fr fp fa symmetric = .ok c := by
  rw [components]
  have : (vals (map1 (fun v => |v|) (fr ++ fp ++ fa))).Nonempty := by
    obtain ⟨w, hw⟩ := hr
    exact ⟨|w|, (vals_abs _ _ _ _).2 ⟨w, Or.inl hw, rfl⟩⟩
  obtain ⟨A, hA⟩ := amax_total this
  obtain ⟨r, e1⟩ := (C72_defined fr symmetric none (some A)).1 hr
  obtain ⟨p, e2⟩ := (C72_defined fp symmetric none (some A)).1 hp
  obtain ⟨a, e3⟩ := (C72_defined fa symmetric none (some A)).1 ha
  rw [hA]
  simp only [bind, Except.bind, e1, e2, e3]
  exact ⟨_, rfl⟩

/-- A symmetric panel of `components`. -/
theorem symmetric_panel {fr fp fa f : Arr2 ℝ} {A : ℝ} (hA : Largest fr fp fa A)
    (hf : ∀ v ∈ vals f, v ∈ vals fr ∨ v ∈ vals fp ∨ v ∈ vals fa) {symmetric : Option Bool} {p : Panel}
    (h : magneticField f symmetric none (some A) = .ok p) (hs : symmetric = some true ∨ symmetric = none ∧ BothSigns f) :
    p = ⟨true, "RdBu_r", -A, A⟩ := by
  obtain ⟨lo, hi, h1, h2, h3, h4, h5, -⟩ := C72_scale f symmetric none (some A) p h
  have ht := h3.2 hs
  obtain ⟨e1, e2⟩ := h5 ht
  rw [ht] at h4
  have hA0 : 0 ≤ A := by obtain ⟨w, -, hw⟩ := hA.1; rw [← hw]; exact abs_nonneg w
  have hlo : |lo| ≤ A := hA.2 ⟨lo, hf lo h1.1, rfl⟩
  simp only [Option.getD_some, abs_of_nonneg hA0, max_eq_right hlo] at e2
  rw [e2] at e1
  obtain ⟨a, b, c, d⟩ := p
  simp only [Option.getD_none, if_true] at h4
  simp only at ht e1 e2
  subst ht h4 e1 e2
  rfl

end Maps

/-- **C72.** If all three components have both signs, or if `symmetric=True` is passed, the three maps and the colour bar
have one scale: red and blue, from minus to plus the largest absolute value of all components. -/
theorem C72_shared (fr fp fa : Arr2 ℝ) (symmetric : Option Bool) (c : Components)
    (h : components fr fp fa symmetric = .ok c)
    (hs : symmetric = some true ∨ symmetric = none ∧ BothSigns fr ∧ BothSigns fp ∧ BothSigns fa) :
    ∃ A, Largest fr fp fa A ∧ c.radial = ⟨true, "RdBu_r", -A, A⟩ ∧ c.polar = c.radial ∧ c.azimuthal = c.radial ∧
      c.bar = c.radial := by
  obtain ⟨A, hA, h1, h2, h3, h4⟩ := components_ok h
  have e1 := symmetric_panel hA (fun v hv => Or.inl hv) h1 (hs.imp_right fun x => ⟨x.1, x.2.1⟩)
  have e2 := symmetric_panel hA (fun v hv => Or.inr (Or.inl hv)) h2 (hs.imp_right fun x => ⟨x.1, x.2.2.1⟩)
  have e3 := symmetric_panel hA (fun v hv => Or.inr (Or.inr hv)) h3 (hs.imp_right fun x => ⟨x.1, x.2.2.2⟩)
  exact ⟨A, hA, e1, e2.trans e1.symm, e3.trans e1.symm, by rw [h4, e1, e3]⟩

/-- **C72.** Exactly when the scale is shared: in the default mode, if the maps exist, all four scales are equal if and
only if either all components have both signs, or none has and the three least values are equal. -/
theorem C72_shared_iff (fr fp fa : Arr2 ℝ) (c : Components) (h : components fr fp fa = .ok c) :
    (c.polar = c.radial ∧ c.azimuthal = c.radial ∧ c.bar = c.radial) ↔
      (BothSigns fr ∧ BothSigns fp ∧ BothSigns fa) ∨
      (¬ BothSigns fr ∧ ¬ BothSigns fp ∧ ¬ BothSigns fa ∧
        ∃ lo, IsLeast (vals fr) lo ∧ IsLeast (vals fp) lo ∧ IsLeast (vals fa) lo) := by
  constructor
  · rintro ⟨e1, e2, -⟩
    obtain ⟨A, hA, h1, h2, h3, h4⟩ := components_ok h
    obtain ⟨lo1, _, l1, -, s1, -, -, n1⟩ := C72_scale _ _ _ _ _ h1
    obtain ⟨lo2, _, l2, -, s2, -, -, n2⟩ := C72_scale _ _ _ _ _ h2
    obtain ⟨lo3, _, l3, -, s3, -, -, n3⟩ := C72_scale _ _ _ _ _ h3
    simp only [reduceCtorEq, true_and, false_or] at s1 s2 s3
    rw [e1] at s2 n2
    rw [e2] at s3 n3
    cases hs : c.radial.symmetric with
    | true => exact Or.inl ⟨s1.1 hs, s2.1 hs, s3.1 hs⟩
    | false =>
      rw [hs] at s1 s2 s3
      simp only [Bool.false_eq_true, false_iff] at s1 s2 s3
      refine Or.inr ⟨s1, s2, s3, lo1, l1, ?_, ?_⟩
      · rw [← (n1 hs).1, (n2 hs).1]; exact l2
      · rw [← (n1 hs).1, (n3 hs).1]; exact l3
  · rintro (hs | ⟨b1, b2, b3, lo, l1, l2, l3⟩)
    · obtain ⟨A, -, -, h2, h3, h4⟩ := C72_shared fr fp fa none c h (Or.inr ⟨rfl, hs⟩)
      exact ⟨h2, h3, h4⟩
    · obtain ⟨A, hA, h1, h2, h3, h4⟩ := components_ok h
      have key : ∀ f p, magneticField f none none (some A) = .ok p → ¬ BothSigns f → IsLeast (vals f) lo →
          p = ⟨false, "viridis", lo, A⟩ := by
        intro f p hp hb hl
        obtain ⟨lo', _, l', -, s, cm, -, n⟩ := C72_scale _ _ _ _ _ hp
        simp only [reduceCtorEq, true_and, false_or] at s
        have hf : p.symmetric = false := by
          cases hh : p.symmetric with
          | true => exact absurd (s.1 hh) hb
          | false => rfl
        obtain ⟨n1, n2⟩ := n hf
        rw [hf] at cm
        rw [l'.unique hl] at n1
        obtain ⟨a, b, c, d⟩ := p
        simp only [Option.getD_none, Bool.false_eq_true, if_false, Option.getD_some] at cm n1 n2 hf
        subst cm n1 n2 hf
        rfl
      have e1 := key _ _ h1 b1 l1
      have e2 := key _ _ h2 b2 l2
      have e3 := key _ _ h3 b3 l3
      exact ⟨by rw [e1, e2], by rw [e1, e3], by rw [h4, e1, e3]⟩

namespace Maps

theorem vals_grid {P A : List ℝ} {f : ℝ × ℝ → ℝ × ℝ → ℝ} {v : ℝ} :
    v ∈ vals (grid P A f) ↔ ∃ p ∈ steps P, ∃ a ∈ steps A, f p a = v := by
  rw [mem_vals, mem_flatten_grid]

theorem steps_ne {P : List ℝ} (h : 2 ≤ P.length) : ∃ p, p ∈ steps P :=
  ⟨_, List.mem_of_getElem? (steps_get P 0 (by omega))⟩

theorem evalAt_congr (P A : List ℝ) (f f' : ℝ → ℝ → Res ℝ) (h : ∀ p ∈ steps P, ∀ φ, f (mid p) φ = f' (mid p) φ) :
    evalAt (meshgrid P A) f = evalAt (meshgrid P A) f' := by
  rw [evalAt, evalAt, centres_eq]
  rw [grid, List.mapM_map, List.mapM_map]
  congr 1
  funext a
  simp only [Function.comp, List.mapM_map]
  have : ∀ (xs : List (ℝ × ℝ)), (∀ p ∈ xs, p ∈ steps P) →
      xs.mapM ((fun c : ℝ × ℝ => f c.1 c.2) ∘ fun p => (mid p, mid a))
        = xs.mapM ((fun c : ℝ × ℝ => f' c.1 c.2) ∘ fun p => (mid p, mid a)) := by
    intro xs
    induction xs with
    | nil => intro _; rfl
    | cons x xs ih =>
      intro hx
      rw [List.mapM_cons, List.mapM_cons, ih fun p hp => hx p (List.mem_cons_of_mem _ hp)]
      simp only [Function.comp, h x (hx x (by simp))]
  exact this _ fun p hp => hp

/-- The three components of a magnetogram of non-negative orders. -/
theorem components_defined {z : Zdi} (hz : NonnegOrders z) : ∃ p a : ℝ → ℝ → ℝ, ∀ θ φ, OffAxis θ →
    z.polar θ φ = .ok (p θ φ) ∧ z.azimuthal θ φ = .ok (a θ φ) := by
  obtain ⟨p, hp⟩ := polarPoloidal_defined hz
  obtain ⟨a, ha⟩ := azimuthalToroidal_defined hz
  refine ⟨fun θ φ => p θ φ + z.polarToroidal θ φ, fun θ φ => z.azimuthalPoloidal θ φ + a θ φ, fun θ φ hθ => ?_⟩
  rw [Zdi.polar, Zdi.azimuthal, hp θ φ hθ, ha θ φ hθ]
  exact ⟨rfl, rfl⟩

theorem zdiComponents_eq (P A : List ℝ) (z : Zdi) (p a : ℝ → ℝ → ℝ)
    (h : ∀ q ∈ steps P, ∀ φ, z.polar (mid q) φ = .ok (p (mid q) φ) ∧ z.azimuthal (mid q) φ = .ok (a (mid q) φ))
    (s : Option Bool) (cm : Option String) :
    zdiComponents z (meshgrid P A) s cm = components (grid P A fun q b => z.radial (mid q) (mid b))
      (grid P A fun q b => p (mid q) (mid b)) (grid P A fun q b => a (mid q) (mid b)) := by
  rw [zdiComponents, getters]
  simp only [bind, Except.bind]
  rw [evalAt_ok P A _ (fun θ φ => z.radial θ φ) fun _ _ _ => rfl, evalAt_ok P A _ p fun q hq φ => (h q hq φ).1,
    evalAt_ok P A _ a fun q hq φ => (h q hq φ).2]

theorem grid_nonempty {P A : List ℝ} (hP : 2 ≤ P.length) (hA : 2 ≤ A.length) (f : ℝ × ℝ → ℝ × ℝ → ℝ) :
    (vals (grid P A f)).Nonempty := by
  obtain ⟨p, hp⟩ := steps_ne hP
  obtain ⟨a, ha⟩ := steps_ne hA
  exact ⟨_, vals_grid.2 ⟨p, hp, a, ha, rfl⟩⟩

theorem full_grid {n k : ℕ} {g : Geom} (hn : 2 ≤ n) (hk : 2 ≤ k) (hg : Geom.init (.int n) (.int k) = .ok g) :
    g = meshgrid (lin Real.pi n) (lin (2 * Real.pi) k) := by
  rw [init_ints, init_lin hn hk] at hg
  exact (Except.ok.inj hg).symm

theorem full_offAxis {n : ℕ} (hn : 2 ≤ n) {p : ℝ × ℝ} (hp : p ∈ steps (lin Real.pi n)) : OffAxis (mid p) :=
  mid_offAxis (lin_increasing Real.pi_pos hn) (fun _ h => lin_mem Real.pi_pos hn h) hp

end Maps

/-- **C72.** The component maps of every magnetogram of non-negative orders are drawn on every full-sphere grid, and no
value lies outside the colour range of its map. -/
theorem C72_zdi_defined (z : Zdi) (hz : NonnegOrders z) (n k : ℕ) (hn : 2 ≤ n) (hk : 2 ≤ k) (g : Geom)
    (hg : Geom.init (.int n) (.int k) = .ok g) (s : Option Bool) (cm : Option String) :
    ∃ c, zdiComponents z g s cm = .ok c ∧ ∀ p ∈ steps (lin Real.pi n), ∀ a ∈ steps (lin (2 * Real.pi) k), ∃ bp ba,
      z.polar (mid p) (mid a) = .ok bp ∧ z.azimuthal (mid p) (mid a) = .ok ba ∧
      (c.radial.vmin ≤ z.radial (mid p) (mid a) ∧ z.radial (mid p) (mid a) ≤ c.radial.vmax) ∧
      (c.polar.vmin ≤ bp ∧ bp ≤ c.polar.vmax) ∧ (c.azimuthal.vmin ≤ ba ∧ ba ≤ c.azimuthal.vmax) := by
  obtain ⟨fp, fa, hf⟩ := components_defined hz
  rw [full_grid hn hk hg, zdiComponents_eq _ _ z fp fa fun q hq φ => hf _ _ (full_offAxis hn hq)]
  have lP : 2 ≤ (lin Real.pi n).length := by rw [lin_length]; exact hn
  have lA : 2 ≤ (lin (2 * Real.pi) k).length := by rw [lin_length]; exact hk
  obtain ⟨c, hc⟩ := components_total none (grid_nonempty lP lA fun q b => z.radial (mid q) (mid b))
    (grid_nonempty lP lA fun q b => fp (mid q) (mid b)) (grid_nonempty lP lA fun q b => fa (mid q) (mid b))
  refine ⟨c, hc, fun p hp a ha => ⟨fp (mid p) (mid a), fa (mid p) (mid a), (hf _ _ (full_offAxis hn hp)).1,
    (hf _ _ (full_offAxis hn hp)).2, ?_⟩⟩
  obtain ⟨A, hA, h1, h2, h3, -⟩ := components_ok hc
  have up : ∀ f, (∀ v ∈ vals f, v ∈ vals (grid (lin Real.pi n) (lin (2 * Real.pi) k) fun q b => z.radial (mid q) (mid b)) ∨
      v ∈ vals (grid (lin Real.pi n) (lin (2 * Real.pi) k) fun q b => fp (mid q) (mid b)) ∨
      v ∈ vals (grid (lin Real.pi n) (lin (2 * Real.pi) k) fun q b => fa (mid q) (mid b))) →
      ∀ m, some A = some m → ∀ v ∈ vals f, v ≤ m := by
    rintro f hf m ⟨⟩ v hv
    exact le_trans (le_abs_self v) (hA.2 ⟨v, hf v hv, rfl⟩)
  refine ⟨?_, ?_, ?_⟩
  · exact C72_no_clipping _ _ _ _ _ h1 (up _ fun v hv => Or.inl hv) _ (vals_grid.2 ⟨p, hp, a, ha, rfl⟩)
  · exact C72_no_clipping _ _ _ _ _ h2 (up _ fun v hv => Or.inr (Or.inl hv)) _ (vals_grid.2 ⟨p, hp, a, ha, rfl⟩)
  · exact C72_no_clipping _ _ _ _ _ h3 (up _ fun v hv => Or.inr (Or.inr hv)) _ (vals_grid.2 ⟨p, hp, a, ha, rfl⟩)

/-- A poloidal magnetogram that is symmetric about the rotation axis. -/
def Spec.AxialPoloidal (z : Zdi) : Prop := ∀ r ∈ z, r.m = 0 ∧ r.g = 0

/-- **C72 violated.** For every axially symmetric poloidal magnetogram the azimuthal field is zero, so the colour bar,
which is made from the azimuthal map, is green from zero to the largest absolute value, whatever `symmetric` and `cmap`
the caller asked for; a radial map with both signs is red and blue on twice that range. -/
theorem C72_axial_bar (z : Zdi) (hz : NonnegOrders z) (hs : AxialPoloidal z) (n k : ℕ) (hn : 2 ≤ n) (hk : 2 ≤ k)
    (g : Geom) (hg : Geom.init (.int n) (.int k) = .ok g) (s : Option Bool) (cm : Option String) :
    ∃ c A, zdiComponents z g s cm = .ok c ∧ 0 ≤ A ∧ c.bar = ⟨false, "viridis", 0, A⟩ ∧
      ∀ fr, evalAt g (fun θ φ => .ok (z.radial θ φ)) = .ok fr → BothSigns fr → c.radial = ⟨true, "RdBu_r", -A, A⟩ := by
  obtain ⟨fp, fa, hf⟩ := components_defined hz
  have hzero : ∀ θ φ, OffAxis θ → fa θ φ = 0 := by
    intro θ φ hθ
    have h1 := (hf θ φ hθ).2
    have hsin := Real.sin_pos_of_pos_of_lt_pi hθ.1 hθ.2
    have e1 : z.azimuthalPoloidal θ φ = 0 := by
      rw [Zdi.azimuthalPoloidal_eq hz.2 hsin.le, Zdi.harm, List.map_congr_left (g := fun _ => (0 : ℂ))]
      · simp
      · intro r hr; simp [(hs r hr).1]
    have e2 : z.azimuthalToroidal θ φ = .ok 0 := by
      rw [Zdi.azimuthalToroidal_eq hz hsin, Zdi.harm, List.map_congr_left (g := fun _ => (0 : ℂ))]
      · simp
      · intro r hr; simp [(hs r hr).2]
    rw [Zdi.azimuthal, e1, e2] at h1
    simp only [bind, Except.bind, pure, Except.pure, add_zero, Except.ok.injEq] at h1
    exact h1.symm
  rw [full_grid hn hk hg, zdiComponents_eq _ _ z fp fa fun q hq φ => hf _ _ (full_offAxis hn hq)]
  have lP : 2 ≤ (lin Real.pi n).length := by rw [lin_length]; exact hn
  have lA : 2 ≤ (lin (2 * Real.pi) k).length := by rw [lin_length]; exact hk
  obtain ⟨c, hc⟩ := components_total none (grid_nonempty lP lA fun q b => z.radial (mid q) (mid b))
    (grid_nonempty lP lA fun q b => fp (mid q) (mid b)) (grid_nonempty lP lA fun q b => fa (mid q) (mid b))
  obtain ⟨A, hA, h1, h2, h3, h4⟩ := components_ok hc
  have hv0 : ∀ v, v ∈ vals (grid (lin Real.pi n) (lin (2 * Real.pi) k) fun q b => fa (mid q) (mid b)) ↔ v = 0 := by
    intro v
    rw [vals_grid]
    constructor
    · rintro ⟨p, hp, a, ha, rfl⟩
      exact hzero _ _ (full_offAxis hn hp)
    · rintro rfl
      obtain ⟨p, hp⟩ := steps_ne lP
      obtain ⟨a, ha⟩ := steps_ne lA
      exact ⟨p, hp, a, ha, hzero _ _ (full_offAxis hn hp)⟩
  refine ⟨c, A, hc, ?_, ?_, ?_⟩
  · obtain ⟨w, -, hw⟩ := hA.1
    rw [← hw]; exact abs_nonneg w
  · rw [h4]
    obtain ⟨lo, hi, l, -, sy, cm', -, nn⟩ := C72_scale _ _ _ _ _ h3
    have hlo := (hv0 lo).1 l.1
    simp only [reduceCtorEq, true_and, false_or] at sy
    have hf : c.azimuthal.symmetric = false := by
      cases hh : c.azimuthal.symmetric with
      | true =>
        obtain ⟨⟨v, hv, v0⟩, -⟩ := sy.1 hh
        rw [(hv0 v).1 hv] at v0
        exact absurd v0 (lt_irrefl _)
      | false => rfl
    obtain ⟨n1, n2⟩ := nn hf
    rw [hf] at cm'
    rw [hlo] at n1
    generalize c.azimuthal = q at *
    obtain ⟨a, b, c, d⟩ := q
    simp only [Option.getD_none, Bool.false_eq_true, if_false, Option.getD_some] at cm' n1 n2 hf
    subst cm' n1 n2 hf
    rfl
  · intro fr hfr hb
    rw [evalAt_ok _ _ _ (fun θ φ => z.radial θ φ) fun _ _ _ => rfl] at hfr
    cases hfr
    exact symmetric_panel hA (fun v hv => Or.inl hv) h1 (Or.inr ⟨rfl, hb⟩)

/-- **C72.** The maps of one term are the maps of `as_poloidal()` and `as_toroidal()`; any other term raises
NotImplementedError. -/
theorem C72_terms (z : Zdi) (hz : NonnegOrders z) (n k : ℕ) (hn : 2 ≤ n) (hk : 2 ≤ k) (g : Geom)
    (hg : Geom.init (.int n) (.int k) = .ok g) (s : Option Bool) (cm : Option String) :
    zdiComponents z g s cm (some "poloidal") = zdiComponents z.poloidal g ∧
    zdiComponents z g s cm (some "toroidal") = zdiComponents z.toroidal g ∧
    ∀ t, t ≠ "poloidal" → t ≠ "toroidal" → zdiComponents z g s cm (some t) = .error .notImpl := by
  have hsin : ∀ p ∈ steps (lin Real.pi n), 0 < Real.sin (mid p) := fun p hp =>
    Real.sin_pos_of_pos_of_lt_pi (full_offAxis hn hp).1 (full_offAxis hn hp).2
  have hp : NonnegOrders z.poloidal := by
    refine ⟨by simpa [Zdi.poloidal, Zdi.copy] using hz.1, ?_⟩
    intro r hr
    obtain ⟨r', hr', rfl⟩ := List.mem_map.1 hr
    exact hz.2 r' hr'
  have ht : NonnegOrders z.toroidal := by
    refine ⟨by simpa [Zdi.toroidal, Zdi.copy] using hz.1, ?_⟩
    intro r hr
    obtain ⟨r', hr', rfl⟩ := List.mem_map.1 hr
    exact hz.2 r' hr'
  rw [full_grid hn hk hg]
  refine ⟨?_, ?_, ?_⟩
  · rw [zdiComponents, zdiComponents, getters, getters]
    simp only [bind, Except.bind]
    rw [evalAt_congr _ _ (fun θ φ => .ok (z.poloidal.radial θ φ)) (fun θ φ => .ok (z.radialPoloidal θ φ)),
      evalAt_congr _ _ z.poloidal.polar z.polarPoloidal,
      evalAt_congr _ _ z.poloidal.azimuthal (fun θ φ => .ok (z.azimuthalPoloidal θ φ))]
    · intro p hq φ
      rw [Zdi.azimuthal, Zdi.azimuthalToroidal_eq hp (hsin p hq)]
      simp [bind, Except.bind, pure, Except.pure, Zdi.harm, Zdi.azimuthalPoloidal, Zdi.poloidal, Zdi.copy,
        Function.comp_def]
    · intro p hq φ
      rw [Zdi.polar, Zdi.polarPoloidal_eq hp (hsin p hq), Zdi.polarPoloidal_eq hz (hsin p hq)]
      simp [bind, Except.bind, pure, Except.pure, Zdi.harm, Zdi.polarToroidal, Zdi.poloidal, Zdi.copy,
        Function.comp_def]
    · intro p hq φ
      simp [Zdi.radial, Zdi.radialPoloidal, Zdi.radialToroidal, Zdi.poloidal, Zdi.copy, Function.comp_def]
  · rw [zdiComponents, zdiComponents, getters, getters]
    simp only [bind, Except.bind]
    rw [evalAt_congr _ _ (fun θ φ => .ok (z.toroidal.radial θ φ)) (fun θ φ => .ok (z.radialToroidal θ φ)),
      evalAt_congr _ _ z.toroidal.polar (fun θ φ => .ok (z.polarToroidal θ φ)),
      evalAt_congr _ _ z.toroidal.azimuthal z.azimuthalToroidal]
    · intro p hq φ
      rw [Zdi.azimuthal, Zdi.azimuthalToroidal_eq ht (hsin p hq), Zdi.azimuthalToroidal_eq hz (hsin p hq)]
      simp [bind, Except.bind, pure, Except.pure, Zdi.harm, Zdi.azimuthalPoloidal, Zdi.toroidal, Zdi.copy,
        Function.comp_def]
    · intro p hq φ
      rw [Zdi.polar, Zdi.polarPoloidal_eq ht (hsin p hq)]
      simp [bind, Except.bind, pure, Except.pure, Zdi.harm, Zdi.polarToroidal, Zdi.toroidal, Zdi.copy,
        Function.comp_def]
    · intro p hq φ
      simp [Zdi.radial, Zdi.radialPoloidal, Zdi.radialToroidal, Zdi.toroidal, Zdi.copy, Function.comp_def]
  · intro t h1 h2
    rw [zdiComponents, getters]
    · rfl
    · exact h1
    · exact h2

/-! ## C73: markers -/

namespace Maps

theorem flat_index {α : Type} {x : Arr2 α} {n k : ℕ} (hx : HasShape x n k) (j i : ℕ) (hi : i < k) :
    x.flatten[j * k + i]? = at2 x j i := by
  obtain ⟨h1, h2⟩ := hx
  induction x generalizing n j with
  | nil => simp [at2]
  | cons r rs ih =>
    have hr : r.length = k := h2 r (by simp)
    rw [List.flatten_cons]
    cases j with
    | zero =>
      rw [Nat.zero_mul, Nat.zero_add, List.getElem?_append_left (by omega)]
      simp [at2]
    | succ j =>
      rw [List.getElem?_append_right (by rw [hr]; nlinarith), hr,
        show (j + 1) * k + i - k = j * k + i by rw [Nat.add_mul]; omega,
        ih (n := n - 1) j (by simp at h1; omega) fun q hq => h2 q (by simp [hq])]
      simp [at2]

theorem item_ok {α : Type} {x : Arr2 α} {ij : ℕ × ℕ} {v : α} : item x ij = .ok v ↔ at2 x ij.1 ij.2 = some v := by
  rw [item, at2]
  cases x[ij.1]?.bind (·[ij.2]?) <;> simp

/-- The first index with a property. -/
theorem findIdx_spec {x : Arr2 ℝ} {n k : ℕ} (hx : HasShape x n k) {m : ℝ} (hm : m ∈ vals x) (d : ℝ → Bool)
    (hd : ∀ v, d v = true ↔ v = m) :
    at2 x (unravel x (x.flatten.findIdx d)).1 (unravel x (x.flatten.findIdx d)).2 = some m ∧
    ∀ j i v, at2 x j i = some v → (j < (unravel x (x.flatten.findIdx d)).1 ∨
      j = (unravel x (x.flatten.findIdx d)).1 ∧ i < (unravel x (x.flatten.findIdx d)).2) → v ≠ m := by
  have hmem := mem_vals.1 hm
  have hlt : x.flatten.findIdx d < x.flatten.length := List.findIdx_lt_length_of_exists ⟨m, hmem, (hd m).2 rfl⟩
  have hget : x.flatten[x.flatten.findIdx d]? = some m := by
    rw [List.getElem?_eq_getElem hlt]
    have := List.findIdx_getElem (p := d) (xs := x.flatten) (w := hlt)
    rw [(hd _).1 this]
  have hk : (x.headD []).length = k := by
    cases x with
    | nil => simp at hmem
    | cons r rs => exact hx.2 r (by simp)
  have hk0 : 0 < k := by
    rcases Nat.eq_zero_or_pos k with h0 | h0
    · exfalso
      obtain ⟨r, hr, hv⟩ := List.mem_flatten.1 hmem
      have := hx.2 r hr
      rw [h0] at this
      rw [List.length_eq_zero_iff.1 this] at hv
      simp at hv
    · exact h0
  set q := x.flatten.findIdx d with hq
  simp only [unravel, hk]
  have hdm := Nat.div_add_mod' q k
  constructor
  · rw [← flat_index hx _ _ (Nat.mod_lt q hk0), hdm]
    exact hget
  · intro j i v hv hlt' he
    subst he
    have hi : i < k := by
      rw [at2, Option.bind_eq_some_iff] at hv
      obtain ⟨r, hr, hri⟩ := hv
      rw [← hx.2 r (List.mem_of_getElem? hr)]
      exact (List.getElem?_eq_some_iff.1 hri).1
    have hidx := flat_index hx j i hi
    rw [hv] at hidx
    have hpos : j * k + i < q := by
      rcases hlt' with h | ⟨rfl, h⟩
      · have : (j + 1) * k ≤ q / k * k := Nat.mul_le_mul_right k h
        rw [Nat.add_mul] at this
        omega
      · omega
    obtain ⟨hb, hval⟩ := List.getElem?_eq_some_iff.1 hidx
    have := List.not_of_lt_findIdx (p := d) (xs := x.flatten) hpos
    simp only [hval] at this
    rw [(hd v).2 rfl] at this
    cases this

end Maps

/-- The entry `[j, i]` comes before `[j', i']` row by row. -/
def Spec.Before (j i j' i' : ℕ) : Prop := j < j' ∨ j = j' ∧ i < i'

/-- A marker sits at the first facet where the field has the value `v`; its coordinates are in degrees. -/
def Spec.Marks (polar azim field : List (List ℝ)) (m : Marker) : Prop :=
  ∃ j i θ φ, at2 polar j i = some θ ∧ at2 azim j i = some φ ∧ at2 field j i = some m.value ∧
    m.x = φ * 180 / Real.pi ∧ m.y = θ * 180 / Real.pi ∧
    ∀ j' i' v, at2 field j' i' = some v → Before j' i' j i → v ≠ m.value

/-- **C73.** `add_extrema` marks the greatest and the least value of the field, each at the first facet that has it. -/
theorem C73_extrema (polar azim field : Arr2 ℝ) (n k : ℕ) (h1 : HasShape polar n k) (h2 : HasShape azim n k)
    (h3 : HasShape field n k) (hne : (vals field).Nonempty) :
    ∃ M m, extrema polar azim field = .ok (M, m) ∧ IsGreatest (vals field) M.value ∧ IsLeast (vals field) m.value ∧
      Marks polar azim field M ∧ Marks polar azim field m := by
  obtain ⟨hi, hhi⟩ := amax_total hne
  obtain ⟨lo, hlo⟩ := amin_total hne
  have gr := amax_ok.1 hhi
  have le := amin_ok.1 hlo
  have same : ∀ (x : Arr2 ℝ) j i v, HasShape x n k → at2 field j i = some v → ∃ w, at2 x j i = some w := by
    intro x j i v hx hv
    rw [at2, Option.bind_eq_some_iff] at hv
    obtain ⟨r, hr, hri⟩ := hv
    have hj := (List.getElem?_eq_some_iff.1 hr).1
    have hi := (List.getElem?_eq_some_iff.1 hri).1
    rw [h3.1, ← hx.1] at hj
    have hl := hx.2 _ (List.getElem_mem hj)
    rw [h3.2 r (List.mem_of_getElem? hr), ← hl] at hi
    exact ⟨_, by rw [at2, List.getElem?_eq_getElem hj, Option.bind_some, List.getElem?_eq_getElem hi]⟩
  classical
  have s1 := findIdx_spec h3 gr.1 (fun v => decide (v = hi)) fun v => decide_eq_true_iff
  have s2 := findIdx_spec h3 le.1 (fun v => decide (v = lo)) fun v => decide_eq_true_iff
  obtain ⟨p1, hp1⟩ := same polar _ _ _ h1 s1.1
  obtain ⟨a1, ha1⟩ := same azim _ _ _ h2 s1.1
  obtain ⟨p2, hp2⟩ := same polar _ _ _ h1 s2.1
  obtain ⟨a2, ha2⟩ := same azim _ _ _ h2 s2.1
  refine ⟨⟨deg a1, deg p1, hi⟩, ⟨deg a2, deg p2, lo⟩, ?_, gr, le, ?_, ?_⟩
  · rw [extrema, argmax, argmin, hhi, hlo]
    simp only [bind, Except.bind, pure, Except.pure]
    have t1 := item_ok.2 s1.1
    have t2 := item_ok.2 s2.1
    have t3 := item_ok.2 hp1
    have t4 := item_ok.2 ha1
    have t5 := item_ok.2 hp2
    have t6 := item_ok.2 ha2
    rw [t3, t4, t5, t6, t1, t2]
  · exact ⟨_, _, p1, a1, hp1, ha1, s1.1, by simp only [deg]; ring, by simp only [deg]; ring, s1.2⟩
  · exact ⟨_, _, p2, a2, hp2, ha2, s2.1, by simp only [deg]; ring, by simp only [deg]; ring, s2.2⟩

/-- **C73.** An empty field raises ValueError. -/
theorem C73_empty (polar azim field : Arr2 ℝ) (h : ¬ (vals field).Nonempty) :
    extrema polar azim field = .error .value := by
  rw [extrema, argmax, amax_empty h]
  rfl

/-- **C73.** On the map of any method of the magnetogram that has values off the axis, each marker sits where the method
itself has the value of its label; these values bound the field at all facet centres; and the text `abs mean` is a
number between the least and the greatest absolute value, the mean that `numerical_description` reports. -/
theorem C73_field (getter : ℝ → ℝ → Res ℝ) (hdef : ∀ θ φ, OffAxis θ → ∃ v, getter θ φ = .ok v) (n k : ℕ) (hn : 2 ≤ n)
    (hk : 2 ≤ k) (g : Geom) (hg : Geom.init (.int n) (.int k) = .ok g) (s : Option Bool) (cm : Option String) :
    ∃ img M m mean, zdiField getter g s cm = .ok (img, (M, m), mean) ∧
      getter (M.y * Real.pi / 180) (M.x * Real.pi / 180) = .ok M.value ∧
      getter (m.y * Real.pi / 180) (m.x * Real.pi / 180) = .ok m.value ∧
      (∀ p ∈ steps (lin Real.pi n), ∀ a ∈ steps (lin (2 * Real.pi) k), ∀ v, getter (mid p) (mid a) = .ok v →
        m.value ≤ v ∧ v ≤ M.value ∧ img.vmin ≤ v ∧ v ≤ img.vmax) ∧
      (∀ lo hi, (∀ p ∈ steps (lin Real.pi n), ∀ a ∈ steps (lin (2 * Real.pi) k), ∀ v, getter (mid p) (mid a) = .ok v →
        lo ≤ |v| ∧ |v| ≤ hi) → lo ≤ mean ∧ mean ≤ hi) ∧
      ∃ field st, evalAt g getter = .ok field ∧ describe g.areas field = .ok st ∧ mean = st.mean := by
  choose! w hw using hdef
  obtain ⟨g', hg', -, htot, hpos, -⟩ := C46_full_sphere n k hn hk
  rw [hg] at hg'
  obtain rfl := Except.ok.inj hg'
  have hgm := full_grid hn hk hg
  set P := lin Real.pi n with hP
  set A := lin (2 * Real.pi) k with hA
  have lP : 2 ≤ P.length := by rw [hP, lin_length]; exact hn
  have lA : 2 ≤ A.length := by rw [hA, lin_length]; exact hk
  have hoff : ∀ p ∈ steps P, OffAxis (mid p) := fun p hp => full_offAxis hn hp
  have hev : evalAt g getter = .ok (grid P A fun p a => w (mid p) (mid a)) := by
    rw [hgm]
    exact evalAt_ok P A getter w fun p hp φ => hw _ _ (hoff p hp)
  set field := grid P A fun p a => w (mid p) (mid a) with hfield
  have hne : (vals field).Nonempty := grid_nonempty lP lA _
  obtain ⟨img, himg⟩ := (C72_defined field s cm none).1 hne
  have hc1 : g.centers.1 = grid P A fun p _ => mid p := by rw [hgm, centers_eq]
  have hc2 : g.centers.2 = grid P A fun _ a => mid a := by rw [hgm, centers_eq]
  obtain ⟨M, m, hext, gr, le, hM, hm⟩ := C73_extrema g.centers.1 g.centers.2 field (A.length - 1) (P.length - 1)
    (by rw [hc1]; exact grid_shape _ _ _) (by rw [hc2]; exact grid_shape _ _ _) (grid_shape _ _ _) hne
  have place : ∀ q, Marks g.centers.1 g.centers.2 field q →
      getter (q.y * Real.pi / 180) (q.x * Real.pi / 180) = .ok q.value := by
    rintro q ⟨j, i, θ, φ, e1, e2, e3, e4, e5, -⟩
    rw [hc1] at e1
    rw [hc2] at e2
    obtain ⟨p, hp, a, ha, gp, ga, rfl⟩ := at2_grid_inv e1
    obtain ⟨p', hp', a', ha', gp', ga', rfl⟩ := at2_grid_inv e2
    obtain ⟨p'', hp'', a'', ha'', gp'', ga'', e3⟩ := at2_grid_inv e3
    rw [gp] at gp' gp''
    rw [ga] at ga' ga''
    obtain rfl := Option.some.inj gp'
    obtain rfl := Option.some.inj ga'
    obtain rfl := Option.some.inj gp''
    obtain rfl := Option.some.inj ga''
    rw [e4, e5, ← e3]
    have hpi := Real.pi_ne_zero
    rw [show mid p * 180 / Real.pi * Real.pi / 180 = mid p by field_simp,
      show mid a * 180 / Real.pi * Real.pi / 180 = mid a by field_simp]
    exact hw _ _ (hoff p hp)
  have hval : ∀ p ∈ steps P, ∀ a ∈ steps A, ∀ v, getter (mid p) (mid a) = .ok v → v ∈ vals field := by
    intro p hp a ha v hv
    rw [hw _ _ (hoff p hp)] at hv
    exact vals_grid.2 ⟨p, hp, a, ha, Except.ok.inj hv⟩
  have hshape : HasShape g.areas (A.length - 1) (P.length - 1) := by
    rw [hgm, areas_eq]; exact grid_shape _ _ _
  have hfl : field.flatten ≠ [] := by
    obtain ⟨v, hv⟩ := hne
    rw [mem_vals] at hv
    exact List.ne_nil_of_mem hv
  have hpos' : ∀ a ∈ g.areas.flatten, 0 ≤ a := by
    intro a ha
    obtain ⟨j, i, h⟩ := mem_vals.2 ha
    exact (hpos j i a h).le
  obtain ⟨st, hst, -⟩ := C49_full_sphere g.areas field _ _ (grid_shape _ _ _) hshape hpos' hfl htot
  have hmean := (C49_statistics g.areas field _ _ (grid_shape _ _ _) hshape hpos' st hst).2.2.1
  refine ⟨img, M, m, st.mean, ?_, place M hM, place m hm, ?_, ?_, field, st, hev, hst, rfl⟩
  · rw [zdiField, hev]
    simp only [bind, Except.bind, himg, hext, pure, Except.pure, hmean, total_eq]
    rfl
  · intro p hp a ha v hv
    have hv' := hval p hp a ha v hv
    exact ⟨le.2 hv', gr.2 hv', C72_no_clipping field s cm none img himg (fun _ h => by cases h) v hv'⟩
  · intro lo hi hb
    have hc : ∀ c ∈ cells field g.areas, 0 ≤ c.2 ∧ lo ≤ |c.1| ∧ |c.1| ≤ hi := by
      intro c hc
      have m1 : c.2 ∈ g.areas.flatten := by
        rw [← (cells_areas (grid_shape _ _ _) hshape).1]; exact List.mem_map.2 ⟨c, hc, rfl⟩
      have m2 : c.1 ∈ field.flatten := by
        rw [← (cells_areas (grid_shape _ _ _) hshape).2]; exact List.mem_map.2 ⟨c, hc, rfl⟩
      obtain ⟨p, hp, a, ha, e⟩ := mem_flatten_grid.1 m2
      have := hb p hp a ha c.1 (by rw [hw _ _ (hoff p hp), ← e])
      exact ⟨hpos' _ m1, this⟩
    have h4 : (0 : ℝ) < 4 * Real.pi := by positivity
    have hsum : ((cells field g.areas).map fun c => c.2).sum = 4 * Real.pi := by
      rw [← htot, total_eq, sum2, ← (cells_areas (grid_shape _ _ _) hshape).1]
    rw [hmean, total_eq]
    change lo ≤ sum2 (map2 (fun v a => |v| * a) field g.areas) / (4 * Real.pi) ∧
      sum2 (map2 (fun v a => |v| * a) field g.areas) / (4 * Real.pi) ≤ hi
    rw [sum2_cells, le_div_iff₀ h4, div_le_iff₀ h4, ← hsum, ← List.sum_map_mul_left, ← List.sum_map_mul_left]
    constructor
    · exact List.sum_le_sum fun c hcc => mul_le_mul_of_nonneg_right (hc c hcc).2.1 (hc c hcc).1
    · exact List.sum_le_sum fun c hcc => mul_le_mul_of_nonneg_right (hc c hcc).2.2 (hc c hcc).1

/-! ## Examples -/

/-- An axial dipole. -/
noncomputable def exAxial : Zdi := [⟨1, 0, 1, 1, 0⟩]

theorem exAxial_orders : NonnegOrders exAxial := ⟨by simp [exAxial], by simp [exAxial]⟩

theorem exAxial_axial : AxialPoloidal exAxial := by simp [AxialPoloidal, exAxial]

theorem exAxial_radial {θ : ℝ} (hθ : OffAxis θ) (φ : ℝ) :
    exAxial.radial θ φ = Real.sqrt (3 / (4 * Real.pi)) * Real.cos θ := by
  have hs := Real.sin_pos_of_pos_of_lt_pi hθ.1 hθ.2
  rw [Zdi.radial_eq exAxial_orders.2 hs.le]
  have h0 : Legendre.thP 1 0 θ = Real.cos θ := by
    simp [Legendre.thP, rodNorm, rod, rodBase]
    ring
  have hf : cLm 1 0 = Real.sqrt (3 / (4 * Real.pi)) := by
    rw [cLm, show (spFactorial (1 - 0) : ℝ) = 1 by simp [spFactorial], show (spFactorial (1 + 0) : ℝ) = 1 by simp [spFactorial]]
    norm_num
  rw [Zdi.harm, exAxial]
  simp only [List.map_cons, List.map_nil, List.sum_cons, List.sum_nil, Int.toNat_zero, Int.toNat_one, h0, Zdi.expi, hf]
  rw [one_mul, Int.cast_zero, mul_zero, zero_mul, Complex.exp_zero, mul_one, add_zero, ← Complex.ofReal_mul,
    Complex.ofReal_re]

/-- **C72 violated**: the maps of an axial dipole, on every grid with at least two rows of facets. The radial map is red
and blue from `-A` to `A`, the colour bar beside it is green from 0 to `A`, also if `symmetric=True` was asked for. -/
theorem C72_bar_witness (n k : ℕ) (hn : 3 ≤ n) (hk : 2 ≤ k) (s : Option Bool) (cm : Option String) :
    ∃ g c A, Geom.init (.int n) (.int k) = .ok g ∧ zdiComponents exAxial g s cm = .ok c ∧ 0 < A ∧
      c.radial = ⟨true, "RdBu_r", -A, A⟩ ∧ c.bar = ⟨false, "viridis", 0, A⟩ := by
  have hn2 : 2 ≤ n := by omega
  obtain ⟨g, hg, -⟩ := C46_full_sphere n k hn2 hk
  obtain ⟨c, A, hc, hA, hbar, hrad⟩ := C72_axial_bar exAxial exAxial_orders exAxial_axial n k hn2 hk g hg s cm
  have hgm := full_grid hn2 hk hg
  have hb : BothSigns (grid (lin Real.pi n) (lin (2 * Real.pi) k) fun p a => exAxial.radial (mid p) (mid a)) := by
    have hq : 0 < Real.sqrt (3 / (4 * Real.pi)) := Real.sqrt_pos.2 (by positivity)
    have hN : (3 : ℝ) ≤ n := by exact_mod_cast hn
    have hpi := Real.pi_pos
    obtain ⟨a, ha⟩ := steps_ne (P := lin (2 * Real.pi) k) (by rw [lin_length]; exact hk)
    have l0 : 0 + 1 < (lin Real.pi n).length := by rw [lin_length]; omega
    have l1 : n - 2 + 1 < (lin Real.pi n).length := by rw [lin_length]; omega
    have m0 := List.mem_of_getElem? (steps_get _ 0 l0)
    have m1 := List.mem_of_getElem? (steps_get _ (n - 2) l1)
    have o0 := full_offAxis hn2 m0
    have o1 := full_offAxis hn2 m1
    refine ⟨⟨_, vals_grid.2 ⟨_, m1, a, ha, rfl⟩, ?_⟩, _, vals_grid.2 ⟨_, m0, a, ha, rfl⟩, ?_⟩
    · rw [exAxial_radial o1]
      refine mul_neg_of_pos_of_neg hq (Real.cos_neg_of_pi_div_two_lt_of_lt ?_ (lt_of_lt_of_le o1.2 (by linarith)))
      rw [mid, lin_get, lin_get]
      have e1 : ((n - 2 : ℕ) : ℝ) = n - 2 := by rw [Nat.cast_sub hn2]; norm_num
      have e2 : ((n - 2 + 1 : ℕ) : ℝ) = n - 1 := by push_cast; rw [e1]; ring
      rw [e1, e2]
      have h1 : (0 : ℝ) < n - 1 := by linarith
      have key : ((n - 2 : ℝ) * (Real.pi / (n - 1)) + (n - 1) * (Real.pi / (n - 1))) / 2 - Real.pi / 2
          = (n - 2) * (Real.pi / (n - 1)) / 2 := by field_simp; ring
      have : 0 < (n - 2 : ℝ) * (Real.pi / (n - 1)) / 2 := by
        have : (0 : ℝ) < n - 2 := by linarith
        positivity
      linarith
    · rw [exAxial_radial o0]
      refine mul_pos hq (Real.cos_pos_of_mem_Ioo ⟨by linarith [o0.1], ?_⟩)
      rw [mid, lin_get, lin_get]
      have h1 : (1 : ℝ) < n - 1 := by linarith
      have : Real.pi / (n - 1) < Real.pi := div_lt_self hpi h1
      push_cast
      linarith
  have hA0 := hrad _ (by rw [hgm, evalAt_ok _ _ _ (fun θ φ => exAxial.radial θ φ) fun _ _ _ => rfl]) hb
  refine ⟨g, c, A, hg, hc, lt_of_le_of_ne hA fun h0 => ?_, hA0, hbar⟩
  obtain ⟨c', hc', hall⟩ := C72_zdi_defined exAxial exAxial_orders n k hn2 hk g hg s cm
  rw [hc] at hc'
  obtain rfl := Except.ok.inj hc'
  obtain ⟨v, hv, v0⟩ := hb.2
  obtain ⟨p, hp, a, ha, rfl⟩ := vals_grid.1 hv
  obtain ⟨_, _, -, -, ⟨-, hle⟩, -⟩ := hall p hp a ha
  rw [hA0, ← h0] at hle
  exact absurd (lt_of_lt_of_le v0 hle) (lt_irrefl _)

/-- Non-vacuity of C72: a field with both signs, one without, and `abs_max` below the depth of the minimum. -/
example : magneticField [[-2, 1]] = .ok ⟨true, "RdBu_r", -2, 2⟩ := by
  norm_num [magneticField, amin, amax, List.min?, List.max?, bind, Except.bind, pure, Except.pure]

example : magneticField [[2, 1]] = .ok ⟨false, "viridis", 1, 2⟩ := by
  norm_num [magneticField, amin, amax, List.min?, List.max?, bind, Except.bind, pure, Except.pure]

example : magneticField [[-2, 1]] none none (some 1) = .ok ⟨true, "RdBu_r", -2, 2⟩ := by
  norm_num [magneticField, amin, amax, List.min?, List.max?, bind, Except.bind, pure, Except.pure]

/-- Non-vacuity of C72: three components with both signs share the scale -3 to 3. -/
example : components [[-2, 1]] [[1, -1]] [[-1, 3]]
    = .ok ⟨⟨true, "RdBu_r", -3, 3⟩, ⟨true, "RdBu_r", -3, 3⟩, ⟨true, "RdBu_r", -3, 3⟩, ⟨true, "RdBu_r", -3, 3⟩⟩ := by
  norm_num [components, magneticField, map1, amin, amax, List.min?, List.max?, bind, Except.bind, pure, Except.pure]

/-- Non-vacuity of C73: a field with its maximum at [0, 1] (and again at [1, 1]) and its minimum at [1, 0]. -/
example : ∃ M m, extrema [[1, 2], [1, 2]] [[0, 0], [4, 4]] [[0, 5], [-3, 5]] = .ok (M, m) ∧ M.value = 5 ∧ m.value = -3 := by
  obtain ⟨M, m, h1, h2, h3, -⟩ := C73_extrema [[1, 2], [1, 2]] [[0, 0], [4, 4]] [[0, 5], [-3, 5]] 2 2
    ⟨rfl, by simp⟩ ⟨rfl, by simp⟩ ⟨rfl, by simp⟩ ⟨0, 0, 0, rfl⟩
  refine ⟨M, m, h1, h2.unique ⟨mem_vals.2 (by simp), ?_⟩, h3.unique ⟨mem_vals.2 (by simp), ?_⟩⟩
  · intro v hv
    rw [mem_vals] at hv
    simp only [List.flatten_cons, List.flatten_nil, List.cons_append, List.nil_append, List.mem_cons, List.not_mem_nil,
      or_false] at hv
    rcases hv with rfl | rfl | rfl | rfl <;> norm_num
  · intro v hv
    rw [mem_vals] at hv
    simp only [List.flatten_cons, List.flatten_nil, List.cons_append, List.nil_append, List.mem_cons, List.not_mem_nil,
      or_false] at hv
    rcases hv with rfl | rfl | rfl | rfl <;> norm_num

/-- Non-vacuity of C73: the methods of a magnetogram have values off the axis. -/
example (z : Zdi) (hz : NonnegOrders z) : ∀ θ φ, OffAxis θ → ∃ v, z.polar θ φ = .ok v := by
  obtain ⟨p, a, h⟩ := components_defined hz
  exact fun θ φ hθ => ⟨_, (h θ φ hθ).1⟩

end Verif
