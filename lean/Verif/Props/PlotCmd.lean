import Verif.Model.PlotCmd
import Verif.Props.Cli
import Verif.Props.Maps
import Verif.Props.Conversion
import Verif.Props.Reachable

/-!
# C76: the plot command
-/

namespace Verif
open Spec Coefs PlotCmd Cli Geometry Maps

/-- The figure is the map of a function of the polar angle and the azimuth: the values are those at the centres of 64
by 129 equal intervals, and no value is outside the colour range. -/
def Spec.ShowsField (pic : Picture) (w : ℝ → ℝ → ℝ) : Prop :=
  ∃ title symbol values img marks mean, pic = .field title symbol values img marks mean ∧ HasShape values 129 64 ∧
    (∀ j < 129, ∀ i < 64, at2 values j i = some (w ((i + 1 / 2) * (Real.pi / 64)) ((j + 1 / 2) * (2 * Real.pi / 129)))) ∧
    ∀ v ∈ values.flatten, img.vmin ≤ v ∧ v ≤ img.vmax

namespace PlotCmd

/-! ### Exact numbers -/

theorem exact_keys (s : Coefs PyComplex) : (exact s).keys = s.keys := by
  simp [exact, Coefs.keys, Function.comp_def]

theorem exact_stores (s : Coefs PyComplex) (l m : ℤ) : stores (exact s) l m ↔ stores s l m := by
  rw [stores, stores, has_int, has_int, exact_keys]

theorem exact_WF {s : Coefs PyComplex} (h : s.WF) (hd : s.dtype = .cplx) : (exact s).WF where
  nodup := by rw [exact_keys]; exact h.nodup
  valid := by rw [exact_keys]; exact h.valid
  shape := by
    intro kv hk
    obtain ⟨kv', hk', rfl⟩ := List.mem_map.1 hk
    simpa [exact] using h.shape kv' hk'
  dtyped := by
    intro kv _ x _
    rw [show (exact s).dtype = .cplx from hd]; rfl
  dfltTyped := by
    intro x _
    rw [show (exact s).dtype = .cplx from hd]; rfl
  degUpper := by rw [exact_keys]; exact h.degUpper
  degAttained := by rw [exact_keys]; exact h.degAttained
  ordLower := by rw [exact_keys]; exact h.ordLower
  ordAttained := by rw [exact_keys]; exact h.ordAttained
  ordNonpos := h.ordNonpos

theorem exact_operand {s : Coefs PyComplex} (h : s.WF) (hd : s.dtype = .cplx) {n : ℕ}
    (hz : s.dflt = List.replicate n zeroJ) : Operand .cplx n (exact s) := by
  refine ⟨(exact_WF h hd).reach, ?_, hd, ?_⟩
  · rw [ZeroDefault]
    intro x hx
    rw [exact, hz] at hx
    simp only [List.map_replicate] at hx
    rw [List.eq_of_mem_replicate hx]
    simp [exactC, exactF, zeroJ]
    rfl
  · simp [exact, hz]

/-! ### The run -/

theorem main_run (E : PyEnv) (b : Bool) (render : Text → Picture → Res Text) (o : PlotCmd.Options) (d : Disk) :
    PlotCmd.main E b render o d = match d.read o.input with
      | .error e => .error e d
      | .ok text => match readMagnetogram E text with
        | .error e => .error e d
        | .ok s => match magnetogram E o.type (exact s) with
          | .error e => .error e d
          | .ok z => match draw b z (starName o.input) o.plotType with
            | .error e => .error e d
            | .ok pic => match o.output with
              | none => .ok pic d
              | some name => match render name pic with
                | .error e => .error e d
                | .ok text => if d.writable (d.place name) = false then .error .noFile d
                    else .ok pic (d.put (d.place name) text) := by
  rw [PlotCmd.main, load_run]
  rcases d.read o.input with e | text
  · rfl
  simp only
  rcases readMagnetogram E text with e | s
  · rfl
  simp only
  rcases magnetogram E o.type (exact s) with e | z
  · rfl
  rw [lift_ok]
  simp only
  rcases draw b z (starName o.input) o.plotType with e | pic
  · rfl
  rw [lift_ok]
  simp only
  rcases o.output with _ | name
  · rfl
  simp only
  rcases render name pic with e | t
  · rfl
  · rfl

/-- The default grid. -/
theorem default_grid : Geom.init .none .none = .ok (meshgrid (lin Real.pi 65) (lin (2 * Real.pi) 130)) := by
  rw [init_none_none, init_lin (by norm_num) (by norm_num)]

theorem default_ints : Geom.init (.int (65 : ℕ)) (.int (130 : ℕ)) = .ok (meshgrid (lin Real.pi 65) (lin (2 * Real.pi) 130)) := by
  rw [init_ints, init_lin (by norm_num) (by norm_num)]

theorem lin_step (b : ℝ) (n i : ℕ) (hi : i < n) :
    ∃ p, (steps (lin b (n + 1)))[i]? = some p ∧ mid p = (i + 1 / 2) * (b / n) := by
  refine ⟨_, steps_get _ _ (by rw [lin_length]; omega), ?_⟩
  rw [mid, lin_get, lin_get]
  push_cast
  rw [add_sub_cancel_right]
  ring

/-- The map of one field. -/
theorem draw_field (b : Bool) {z : Zdi} (star : Text) {t : String} {name symbol : Text} {f : ℝ → ℝ → Res ℝ} {w : ℝ → ℝ → ℝ}
    (ht : getter z t = some (name, f, symbol)) (hw : ∀ θ φ, OffAxis θ → f θ φ = .ok (w θ φ)) :
    ∃ values img marks mean, draw b z star t = .ok (.field (star ++ ' ' :: fieldName name) symbol values img marks mean) ∧
      HasShape values 129 64 ∧
      (∀ j < 129, ∀ i < 64, at2 values j i = some (w ((i + 1 / 2) * (Real.pi / 64)) ((j + 1 / 2) * (2 * Real.pi / 129)))) ∧
      ∀ v ∈ values.flatten, img.vmin ≤ v ∧ v ≤ img.vmax := by
  have hoff : ∀ p ∈ steps (lin Real.pi 65), OffAxis (mid p) := fun p hp => full_offAxis (by norm_num) hp
  have hev := evalAt_ok (lin Real.pi 65) (lin (2 * Real.pi) 130) f w fun p hp φ => hw _ φ (hoff p hp)
  obtain ⟨img, M, m, mean, hz, -, -, hb, -⟩ := C73_field f (fun θ φ h => ⟨_, hw θ φ h⟩) 65 130 (by norm_num) (by norm_num) _
    default_ints none none
  refine ⟨grid (lin Real.pi 65) (lin (2 * Real.pi) 130) fun p a => w (mid p) (mid a), img, (M, m), mean, ?_, by simpa [lin_length] using grid_shape (lin Real.pi 65) (lin (2 * Real.pi) 130) _,
    fun j hj i hi => ?_, ?_⟩
  · rw [draw, default_grid]
    simp only [bind, Except.bind, ht, hev, hz]
    rfl
  · obtain ⟨p, hp, ep⟩ := lin_step Real.pi 64 i hi
    obtain ⟨a, ha, ea⟩ := lin_step (2 * Real.pi) 129 j hj
    rw [at2, grid, List.getElem?_map, ha, Option.map_some, Option.bind_some, List.getElem?_map, hp, Option.map_some, ep, ea]
    norm_cast
  · intro v hv
    obtain ⟨r, hr, hv⟩ := List.mem_flatten.1 hv
    obtain ⟨a, ha, rfl⟩ := List.mem_map.1 hr
    obtain ⟨p, hp, rfl⟩ := List.mem_map.1 hv
    obtain ⟨-, -, h3, h4⟩ := hb p hp a ha _ (hw _ _ (hoff p hp))
    exact ⟨h3, h4⟩

/-- A run that shows a field. -/
theorem run_field (E : PyEnv) (b : Bool) (render : Text → Picture → Res Text) (o : PlotCmd.Options) (t : String)
    (ho : o.output = none) (d : Disk) {text : Text} (hr : d.read o.input = .ok text) {s : Coefs PyComplex} (hs : readMagnetogram E text = .ok s) {z : Zdi}
    (hz : magnetogram E o.type (exact s) = .ok z) {name symbol : Text} {f : ℝ → ℝ → Res ℝ} {w : ℝ → ℝ → ℝ}
    (ht : getter z t = some (name, f, symbol)) (hw : ∀ θ φ, OffAxis θ → f θ φ = .ok (w θ φ)) :
    ∃ pic, PlotCmd.main E b render { o with plotType := t } d = .ok pic d ∧ ShowsField pic w := by
  obtain ⟨values, img, marks, mean, e, h1, h2, h3⟩ := draw_field b (starName o.input) ht hw
  refine ⟨.field (starName o.input ++ ' ' :: fieldName name) symbol values img marks mean, ?_, _, _, values, img, marks, mean, rfl, h1, h2, h3⟩
  rw [PlotCmd.main_run, show ({ o with plotType := t } : PlotCmd.Options).input = o.input from rfl, hr]
  simp only [hs, hz, e, ho]

theorem strength_ok {z : Zdi} {p a : ℝ} {θ φ : ℝ} (hp : z.polar θ φ = .ok p) (ha : z.azimuthal θ φ = .ok a) :
    z.strength θ φ = .ok (Real.sqrt (z.radial θ φ ^ 2 + p ^ 2 + a ^ 2)) := by
  rw [Zdi.strength, hp, ha]; rfl

/-- A figure of one field comes from one of the getters. -/
theorem draw_inv {b : Bool} {z : Zdi} {star : Text} {t : String} {title symbol : Text} {values : Arr2 ℝ} {img : Panel}
    {marks : Marker × Marker} {mean : ℝ} (h : draw b z star t = .ok (.field title symbol values img marks mean)) :
    ∃ name f, getter z t = some (name, f, symbol) ∧ title = star ++ ' ' :: fieldName name := by
  rw [draw, default_grid] at h
  simp only [bind, Except.bind] at h
  rcases hg : getter z t with _ | ⟨name, f, sym⟩
  · rw [hg] at h
    simp only at h
    unfold otherPlot at h
    split at h
    all_goals
      try simp only [bind, Except.bind, pure, Except.pure] at h
      repeat' (split at h)
      all_goals simp at h
  · rw [hg] at h
    simp only at h
    repeat' (split at h)
    · cases h
    · cases h
    · cases h; exact ⟨_, _, rfl, rfl⟩

theorem getter_inv {z : Zdi} {t : String} {x : Text × (ℝ → ℝ → Res ℝ) × Text} (h : getter z t = some x) :
    (t = "radial" ∧ x.1 = "get_radial_field".toList ∧ x.2.2 = "B_r".toList) ∨
    (t = "polar" ∧ x.1 = "get_polar_field".toList ∧ x.2.2 = "B_\\phi".toList) ∨
    ((t = "azimuthal" ∨ t = "azimuth") ∧ x.1 = "get_azimuthal_field".toList ∧ x.2.2 = "B_\\theta".toList) ∨
    (t = "strength" ∧ x.1 = "get_field_strength".toList ∧ x.2.2 = "|B|".toList) := by
  unfold getter at h
  split at h
  · cases h; exact .inl ⟨rfl, rfl, rfl⟩
  · cases h; exact .inr (.inl ⟨rfl, rfl, rfl⟩)
  · cases h; exact .inr (.inr (.inl ⟨.inl rfl, rfl, rfl⟩))
  · cases h; exact .inr (.inr (.inr ⟨rfl, rfl, rfl⟩))
  · cases h; exact .inr (.inr (.inl ⟨.inr rfl, rfl, rfl⟩))
  · cases h

end PlotCmd

/-! ## C76 -/

/-- The files that can be plotted: one to three columns, at least one record, no negative orders. -/
structure Spec.Plottable (s : Coefs PyComplex) : Prop where
  /-- no infinities, no nan -/
  finite : ∀ l m : ℤ, ∀ v ∈ valueAt s l m, ∃ a p b q, v = (PyFloat.fin a p, PyFloat.fin b q)
  cols : s.dflt.length = 1 ∨ s.dflt.length = 2 ∨ s.dflt.length = 3
  nonempty : ∃ l m : ℤ, stores s l m
  orders : ∀ l m : ℤ, stores s l m → 0 ≤ m

/-- **C76.** With a magnetogram file of the ZDI type, the plot types radial, polar, azimuthal (or azimuth) and strength
show the radial, polar and azimuthal components and the strength of the field with the coefficients in the file; the disk
does not change. -/
theorem C76_zdi (E : PyEnv) (b : Bool) (render : Text → Picture → Res Text) (o : PlotCmd.Options) (ho : o.output = none)
    (ht : o.type = "zdi") (d : Disk) (text : Text) (hr : d.read o.input = .ok text) (s : Coefs PyComplex)
    (hs : readMagnetogram E text = .ok s) (hp : Plottable s) :
    ∃ z wp wa, Zdi.fromCoefficients (exact s) = .ok z ∧
      (∀ θ φ, OffAxis θ → z.polar θ φ = .ok (wp θ φ) ∧ z.azimuthal θ φ = .ok (wa θ φ)) ∧
      ∀ (t : String) (w : ℝ → ℝ → ℝ),
        (t = "radial" ∧ w = surfaceField (exact s)) ∨ (t = "polar" ∧ w = wp) ∨
        ((t = "azimuthal" ∨ t = "azimuth") ∧ w = wa) ∨
        (t = "strength" ∧ w = fun θ φ => Real.sqrt (surfaceField (exact s) θ φ ^ 2 + wp θ φ ^ 2 + wa θ φ ^ 2)) →
        ∃ pic, PlotCmd.main E b render { o with plotType := t } d = .ok pic d ∧ ShowsField pic w := by
  obtain ⟨hw, hd, n, hn⟩ := read_column E hs
  have hzs : ZdiSet (exact s) := by
    refine ⟨wellFormed_of_WF (exact_WF hw hd), by simpa [exact] using hp.cols, ?_⟩
    obtain ⟨l, m, h⟩ := hp.nonempty
    exact ⟨l, m, (exact_stores s l m).2 h⟩
  have hf := hzs.fromCoefficients
  have hnn := hzs.nonnegOrders fun l m h => hp.orders l m ((exact_stores s l m).1 h)
  obtain ⟨z, hze⟩ : ∃ z : Zdi, z = (exact s).rowKeys.map (zrow (exact s)) := ⟨_, rfl⟩
  rw [← hze] at hf hnn
  obtain ⟨wp, wa, hpa⟩ := components_defined hnn
  have hz : magnetogram E o.type (exact s) = .ok z := by
    rw [ht, magnetogram]
    exact hf
  have hrad : ∀ θ φ, z.radial θ φ = surfaceField (exact s) θ φ := C25_radial_is_surfaceField _ hzs z hf
  refine ⟨z, wp, wa, hf, hpa, fun t w h => ?_⟩
  rcases h with ⟨rfl, rfl⟩ | ⟨rfl, rfl⟩ | ⟨rfl | rfl, rfl⟩ | ⟨rfl, rfl⟩
  · exact run_field E b render o _ ho d hr hs hz rfl fun θ φ _ => by rw [hrad]
  · exact run_field E b render o _ ho d hr hs hz rfl fun θ φ h => (hpa θ φ h).1
  · exact run_field E b render o _ ho d hr hs hz rfl fun θ φ h => (hpa θ φ h).2
  · exact run_field E b render o _ ho d hr hs hz rfl fun θ φ h => (hpa θ φ h).2
  · refine run_field E b render o _ ho d hr hs hz rfl fun θ φ h => ?_
    rw [strength_ok (hpa θ φ h).1 (hpa θ φ h).2, hrad]

/-- **C76.** With a file of the PFSS type, the maps show the surface field of the potential field extrapolation with source
surface at three stellar radii, mirrored: the value drawn at an azimuth is that at minus the azimuth, with the opposite
sign for the azimuthal component. -/
theorem C76_pfss (E : PyEnv) (b : Bool) (render : Text → Picture → Res Text) (o : PlotCmd.Options) (ho : o.output = none)
    (ht : o.type = "pfss") (d : Disk) (text : Text) (hr : d.read o.input = .ok text) (s : Coefs PyComplex)
    (hs : readMagnetogram E text = .ok s) (hp : Plottable s) (h1 : s.dflt.length = 1) :
    ∃ br bp ba : ℝ → ℝ → ℝ, (∀ θ φ, OffAxis θ → Pfss.evalSpherical (exact s) 1 θ φ 1 3 = .ok (br θ φ, bp θ φ, ba θ φ)) ∧
      ∀ (t : String) (w : ℝ → ℝ → ℝ),
        (t = "radial" ∧ w = fun θ φ => br θ (-φ)) ∨ (t = "polar" ∧ w = fun θ φ => bp θ (-φ)) ∨
        ((t = "azimuthal" ∨ t = "azimuth") ∧ w = fun θ φ => -ba θ (-φ)) ∨
        (t = "strength" ∧ w = fun θ φ => Real.sqrt (br θ (-φ) ^ 2 + bp θ (-φ) ^ 2 + ba θ (-φ) ^ 2)) →
        ∃ pic, PlotCmd.main E b render { o with plotType := t } d = .ok pic d ∧ ShowsField pic w := by
  obtain ⟨hw, hd, n, hn⟩ := read_column E hs
  have hop : Operand .cplx 1 (exact s) := by
    have := exact_operand hw hd hn
    rwa [show n + 1 = 1 by rw [hn] at h1; simpa using h1] at this
  have hrs : RadialSet (exact s) := by
    refine ⟨wellFormed_of_WF (exact_WF hw hd), by simpa [exact] using h1, ?_, fun l m h => hp.orders l m ((exact_stores s l m).1 h)⟩
    obtain ⟨l, m, h⟩ := hp.nonempty
    exact ⟨l, m, (exact_stores s l m).2 h⟩
  have hk := E.iter_ok (exact s).keys
  have key := fun θ φ hθ => C29_three_radii .cplx (.inr rfl) (exact s) hop hrs _ hk 1 one_pos θ φ hθ
  have hpi : OffAxis 1 := ⟨one_pos, by linarith [Real.pi_gt_three]⟩
  obtain ⟨u, z, -, -, -, eu, ez, -⟩ := key 1 0 hpi
  have all : ∀ θ φ, ∃ v : ℝ × ℝ × ℝ, OffAxis θ → Pfss.evalSpherical (exact s) 1 θ φ 1 3 = .ok v ∧
      z.radial θ (-φ) = v.1 ∧ z.polar θ (-φ) = .ok v.2.1 ∧ z.azimuthal θ (-φ) = .ok (-v.2.2) := by
    intro θ φ
    by_cases hθ : OffAxis θ
    · obtain ⟨u', z', br, bp, ba, eu', ez', e, e1, e2, e3⟩ := key θ φ hθ
      rw [eu] at eu'; cases eu'
      rw [ez] at ez'; cases ez'
      exact ⟨(br, bp, ba), fun _ => ⟨by rw [mul_one] at e; exact e, e1, e2, e3⟩⟩
    · exact ⟨0, fun h => absurd h hθ⟩
  choose v hv using all
  have hz : magnetogram E o.type (exact s) = .ok z := by
    rw [ht, magnetogram, if_pos rfl, eu]
    exact ez
  refine ⟨fun θ φ => (v θ φ).1, fun θ φ => (v θ φ).2.1, fun θ φ => (v θ φ).2.2, fun θ φ hθ => (hv θ φ hθ).1, fun t w h => ?_⟩
  have hv' : ∀ θ φ, OffAxis θ → z.radial θ φ = (v θ (-φ)).1 ∧ z.polar θ φ = .ok (v θ (-φ)).2.1 ∧
      z.azimuthal θ φ = .ok (-(v θ (-φ)).2.2) := by
    intro θ φ hθ
    have := (hv θ (-φ) hθ).2
    rwa [neg_neg] at this
  rcases h with ⟨rfl, rfl⟩ | ⟨rfl, rfl⟩ | ⟨rfl | rfl, rfl⟩ | ⟨rfl, rfl⟩
  · exact run_field E b render o _ ho d hr hs hz rfl fun θ φ h => by rw [(hv' θ φ h).1]
  · exact run_field E b render o _ ho d hr hs hz rfl fun θ φ h => (hv' θ φ h).2.1
  · exact run_field E b render o _ ho d hr hs hz rfl fun θ φ h => (hv' θ φ h).2.2
  · exact run_field E b render o _ ho d hr hs hz rfl fun θ φ h => (hv' θ φ h).2.2
  · refine run_field E b render o _ ho d hr hs hz rfl fun θ φ h => ?_
    rw [strength_ok (hv' θ φ h).2.1 (hv' θ φ h).2.2, (hv' θ φ h).1, neg_sq]


/-- **C76.** An unknown magnetogram type or plot type gives a ValueError, after the file has been read without error. -/
theorem C76_unknown (E : PyEnv) (b : Bool) (render : Text → Picture → Res Text) (o : PlotCmd.Options) (d : Disk) (text : Text)
    (hr : d.read o.input = .ok text) (s : Coefs PyComplex) (hs : readMagnetogram E text = .ok s) (hp : Plottable s)
    (h : (o.type ≠ "zdi" ∧ o.type ≠ "pfss") ∨ (o.type = "zdi" ∧ o.plotType ∉ ["map", "radial", "polar", "azimuthal",
      "azimuth", "strength", "energy-by-degree", "energy-matrix", "energy-summary"])) :
    PlotCmd.main E b render o d = .error .value d := by
  rw [PlotCmd.main_run, hr]
  simp only [hs]
  rcases h with ⟨h1, h2⟩ | ⟨h1, h2⟩
  · rw [magnetogram, if_neg h2, if_neg h1]; rfl
  · obtain ⟨hw, hd, n, hn⟩ := read_column E hs
    have hzs : ZdiSet (exact s) := by
      refine ⟨wellFormed_of_WF (exact_WF hw hd), by simpa [exact] using hp.cols, ?_⟩
      obtain ⟨l, m, h⟩ := hp.nonempty
      exact ⟨l, m, (exact_stores s l m).2 h⟩
    rw [show magnetogram E o.type (exact s) = Zdi.fromCoefficients (exact s) by
      rw [h1, magnetogram, if_neg (by decide), if_pos rfl]; rfl, hzs.fromCoefficients]
    simp only
    have hg : ∀ z, getter z o.plotType = none := by
      intro z
      unfold getter
      split <;> simp_all
    have ho : ∀ g z, otherPlot b g z o.plotType = .error .value := by
      intro g z
      unfold otherPlot
      split <;> simp_all
    rw [draw, default_grid]
    simp only [bind, Except.bind, hg, ho]

/-- **C76.** An error leaves the disk as it was. A run without an output name leaves the disk as it was. With an output
name nothing but the file of that name is changed, and it holds the rendered figure. -/
theorem C76_disk (E : PyEnv) (b : Bool) (render : Text → Picture → Res Text) (o : PlotCmd.Options) (d : Disk) :
    match PlotCmd.main E b render o d with
    | .error _ d' => d' = d
    | .ok pic d' => match o.output with
      | none => d' = d
      | some name => SameElsewhere d d' (d.place name) ∧ ∃ text, render name pic = .ok text ∧ d'.read name = .ok text := by
  rw [PlotCmd.main_run]
  rcases d.read o.input with e | text
  · rfl
  simp only
  rcases readMagnetogram E text with e | s
  · rfl
  simp only
  rcases magnetogram E o.type (exact s) with e | z
  · rfl
  simp only
  rcases draw b z (starName o.input) o.plotType with e | pic
  · rfl
  simp only
  rcases o.output with _ | name
  · rfl
  simp only
  rcases hx : render name pic with e | t
  · rfl
  simp only
  split_ifs with h
  · rfl
  · exact ⟨put_same _ _ _, t, hx, read_put _ _ _⟩

/-- **C76.** What is saved is what would be shown. -/
theorem C76_saved (E : PyEnv) (b : Bool) (render : Text → Picture → Res Text) (o : PlotCmd.Options) (name : Text) (d d' : Disk)
    (pic : Picture) (h : PlotCmd.main E b render { o with output := none } d = .ok pic d') (text : Text)
    (hr : render name pic = .ok text) (hw : d.writable (d.place name) = true) :
    ∃ d'', PlotCmd.main E b render { o with output := some name } d = .ok pic d'' ∧ d''.read name = .ok text := by
  refine ⟨d.put (d.place name) text, ?_, read_put _ _ _⟩
  rw [PlotCmd.main_run] at h ⊢
  revert h
  simp only
  rcases d.read o.input with e | t
  · intro h; cases h
  simp only
  rcases readMagnetogram E t with e | s
  · intro h; cases h
  simp only
  rcases magnetogram E o.type (exact s) with e | z
  · intro h; cases h
  simp only
  rcases draw b z (starName o.input) o.plotType with e | pic'
  · intro h; cases h
  intro h
  cases h
  simp only [hr, hw, Bool.true_eq_false, if_false]

/-- **C76.** What is drawn comes from the numbers that were read: the set handed on has, at every degree and order, the numbers that the
floats of the set read stand for, with their signs. -/
theorem C76_exact (s : Coefs PyComplex) (l m : ℤ) :
    valueAt (exact s) l m = (valueAt s l m).map fun z => (⟨(z.1.num : ℝ), (z.2.num : ℝ)⟩ : ℂ) := by
  have e1 : ∀ x : PyFloat, exactF x = (x.num : ℝ) := by
    intro x
    rcases x with ⟨s, a⟩ | s | _
    · cases s <;> simp [exactF, PyFloat.num]
    · simp [exactF, PyFloat.num]
    · simp [exactF, PyFloat.num]
  have e2 : exactC = fun z : PyComplex => (⟨(z.1.num : ℝ), (z.2.num : ℝ)⟩ : ℂ) := by
    funext z
    rw [exactC, e1, e1]
  rw [← e2]
  have h : ∀ d : List (Key × List PyComplex), dictGet (d.map fun kv => (kv.1, kv.2.map exactC)) (l, m) =
      (dictGet d (l, m)).map (List.map exactC) := by
    intro d
    induction d with
    | nil => rfl
    | cons kv d ih =>
      simp only [List.map_cons, dictGet, List.find?_cons] at ih ⊢
      by_cases hk : kv.1 = (l, m)
      · simp [hk]
      · simp [hk] at ih ⊢
        exact ih
  simp only [valueAt, Coefs.get, Idx.isPlainInt, Idx.toInt, if_true, exact, h]
  rcases dictGet s.dict (l, m) with _ | v <;> rfl

/-- A set with a negative coefficient. -/
example : valueAt (exact { dflt := [zeroJ], dtype := .cplx, dict := [((1, 0), [(.fin true 3, .fin false 2)])], degreeMax := 1, orderMin := 0 }) 1 0
    = [⟨-3, 2⟩] := by
  rw [C76_exact]
  simp [valueAt, Coefs.get, dictGet, Idx.isPlainInt, Idx.toInt, PyFloat.num]

/-- **C76.** Unlike the conversion program, this one does not mind an output file that is the input file: the magnetogram
is replaced by the figure. -/
theorem C76_overwrites (E : PyEnv) (b : Bool) (render : Text → Picture → Res Text) (o : PlotCmd.Options)
    (ho : o.output = some o.input) (d d' : Disk) (pic : Picture) (h : PlotCmd.main E b render o d = .ok pic d') :
    ∃ text, render o.input pic = .ok text ∧ d'.read o.input = .ok text := by
  have := C76_disk E b render o d
  rw [h] at this
  simp only [ho] at this
  exact this.2

/-- The star's name and the file name around it: a directory, six characters, the name, four characters. -/
theorem C76_star (dir six star four : Text) (hd : dir = [] ∨ ∃ p, dir = p ++ ['/']) (h6 : six.length = 6) (h4 : four.length = 4)
    (hs : '/' ∉ six ++ star ++ four) : starName (dir ++ (six ++ star ++ four)) = star := by
  rw [starName, basename_append hd hs, List.take_left' (by simp [h4]; omega), List.drop_left' h6]

/-- **C76.** The title of the map of one component: the star's name and the words in the method's name. -/
theorem C76_title (b : Bool) (z : Zdi) (star : Text) (t : String) (title symbol : Text) (values : Arr2 ℝ) (img : Panel)
    (marks : Marker × Marker) (mean : ℝ) (h : draw b z star t = .ok (.field title symbol values img marks mean)) :
    (t = "radial" ∧ title = star ++ " radial field".toList) ∨ (t = "polar" ∧ title = star ++ " polar field".toList) ∨
    ((t = "azimuthal" ∨ t = "azimuth") ∧ title = star ++ " azimuthal field".toList) ∨
    (t = "strength" ∧ title = star ++ " field strength".toList) := by
  obtain ⟨name, f, hg, rfl⟩ := draw_inv h
  clear h
  have e1 : ' ' :: fieldName "get_radial_field".toList = " radial field".toList := by decide +kernel
  have e2 : ' ' :: fieldName "get_polar_field".toList = " polar field".toList := by decide +kernel
  have e3 : ' ' :: fieldName "get_azimuthal_field".toList = " azimuthal field".toList := by decide +kernel
  have e4 : ' ' :: fieldName "get_field_strength".toList = " field strength".toList := by decide +kernel
  rcases getter_inv hg with ⟨h, h', -⟩ | ⟨h, h', -⟩ | ⟨h, h', -⟩ | ⟨h, h', -⟩ <;> simp only at h' <;> subst h'
  · exact .inl ⟨h, by rw [e1]⟩
  · exact .inr (.inl ⟨h, by rw [e2]⟩)
  · exact .inr (.inr (.inl ⟨h, by rw [e3]⟩))
  · exact .inr (.inr (.inr ⟨h, by rw [e4]⟩))

/-- The symbols of the spherical components with the usual meaning of the angles, which is that of `plots.py:48, 84-85`:
theta is the polar angle, phi the azimuth. -/
def Spec.symbolOf : String → Text
  | "radial" => "B_r".toList
  | "polar" => "B_\\theta".toList
  | "azimuthal" => "B_\\phi".toList
  | "azimuth" => "B_\\phi".toList
  | _ => "|B|".toList

/-- **C76.** The symbol in the legend is that of the component for the maps of the radial component and of the strength.
Missing: the polar and azimuthal maps, for which it is false (`C76_symbols_swapped`). -/
theorem C76_symbols_partial (b : Bool) (z : Zdi) (star : Text) (t : String) (title symbol : Text) (values : Arr2 ℝ)
    (img : Panel) (marks : Marker × Marker) (mean : ℝ) (h : draw b z star t = .ok (.field title symbol values img marks mean))
    (ht : t = "radial" ∨ t = "strength") : symbol = symbolOf t := by
  obtain ⟨name, f, hg, rfl⟩ := draw_inv h
  clear h
  rcases getter_inv hg with ⟨h, -, h'⟩ | ⟨h, -, h'⟩ | ⟨h | h, -, h'⟩ | ⟨h, -, h'⟩ <;> simp only at h' <;> subst h' <;>
    subst h <;> first | rfl | (exfalso; revert ht; decide)

/-- **C76 is violated.** The map of the polar component is labelled with the symbol of the azimuthal component and the
reverse. -/
theorem C76_symbols_swapped (b : Bool) (z : Zdi) (star : Text) (t : String) (title symbol : Text) (values : Arr2 ℝ)
    (img : Panel) (marks : Marker × Marker) (mean : ℝ) (h : draw b z star t = .ok (.field title symbol values img marks mean)) :
    (t = "polar" → symbol = symbolOf "azimuthal") ∧ (t = "azimuthal" ∨ t = "azimuth" → symbol = symbolOf "polar") := by
  obtain ⟨name, f, hg, rfl⟩ := draw_inv h
  clear h
  rcases getter_inv hg with ⟨h, -, h'⟩ | ⟨h, -, h'⟩ | ⟨h | h, -, h'⟩ | ⟨h, -, h'⟩ <;> simp only at h' <;> subst h' <;>
    subst h <;> exact ⟨by first | exact fun _ => rfl | (intro h; revert h; decide),
      by first | exact fun _ => rfl | (intro h; revert h; decide)⟩

/-- **C76.** The plot types for energies draw what `plot_energy_by_degree` (with normalisation), `plot_energy_matrix`
(`C44`, `C45`) and `plot_energy_summary` (`C75`) draw. -/
theorem C76_energies (b : Bool) (z : Zdi) (star : Text) :
    (∀ c, Plots.energyByDegree z true = .ok c → draw b z star "energy-by-degree" = .ok (.byDegree c)) ∧
    (∀ r, Plots.plotEnergy z .total false = .ok r → draw b z star "energy-matrix" = .ok (.matrix r)) ∧
    (∀ s, Summary.energySummary b z = .ok s → draw b z star "energy-summary" = .ok (.summary s)) := by
  refine ⟨fun c h => ?_, fun c h => ?_, fun c h => ?_⟩ <;> rw [draw, default_grid] <;>
    simp only [bind, Except.bind, getter, otherPlot, h] <;> rfl

/-! ### Cases that meet the hypotheses -/

private def plotDisk : Disk where
  place := fun n => n.length
  node := fun i => if i = 15 then some (some "1 1 0 1\n".toList) else none
  writable := fun _ => true
  encodes := fun c => decide (c.toNat < 128)
  ascii := by intro c h; simpa using h

private def plotSet : Coefs PyComplex :=
  ⟨[zeroJ], .cplx, [((1, 1), [(.fin false 0, .fin false 1)])], 1, 0⟩

private def plotOptions (type : String) : PlotCmd.Options := { input := "maps/fieldX.dat".toList, type := type }

private theorem plot_text : plotDisk.read (plotOptions "").input = .ok "1 1 0 1\n".toList := by decide +kernel

private theorem plot_read : readMagnetogram demoEnv "1 1 0 1\n".toList = .ok plotSet := by decide +kernel

private theorem plotSet_keys : plotSet.keys = [(1, 1)] := rfl

private theorem plotSet_stores (l m : ℤ) : stores plotSet l m ↔ l = 1 ∧ m = 1 := by
  rw [stores, has_int, plotSet_keys]; simp

private theorem plotSet_plottable : Plottable plotSet where
  finite := by
    intro l m v hv
    rw [valueAt_eq] at hv
    by_cases h : ((l, m) : Key) ∈ plotSet.keys
    · obtain ⟨rfl, rfl⟩ : l = 1 ∧ m = 1 := by rw [plotSet_keys] at h; simpa using h
      rw [show plotSet.getI (1, 1) = [(.fin false 0, .fin false 1)] by decide +kernel, List.mem_singleton] at hv
      exact ⟨_, _, _, _, hv⟩
    · rw [getI_of_not_mem _ _ h, show plotSet.dflt = [zeroJ] from rfl, List.mem_singleton] at hv
      exact ⟨_, _, _, _, hv⟩
  cols := .inl rfl
  nonempty := ⟨1, 1, (plotSet_stores 1 1).2 ⟨rfl, rfl⟩⟩
  orders := by
    intro l m h
    rw [plotSet_stores] at h
    omega

/-- **C76.** The mirroring in `C76_pfss` is visible: for the file with the single record `1 1 0 1` the radial map of the
command is minus the radial surface field of the extrapolation, and that is not zero. -/
theorem C76_mirrored (b : Bool) (render : Text → Picture → Res Text) :
    ∃ (E : PyEnv) (o : PlotCmd.Options) (d : Disk) (s : Coefs PyComplex) (text : Text) (pic : Picture) (br : ℝ → ℝ → ℝ),
      o.type = "pfss" ∧ o.plotType = "radial" ∧ d.read o.input = .ok text ∧ readMagnetogram E text = .ok s ∧ Plottable s ∧
      (∀ θ φ, OffAxis θ → ∃ bp ba, Pfss.evalSpherical (exact s) 1 θ φ 1 3 = .ok (br θ φ, bp, ba)) ∧
      PlotCmd.main E b render o d = .ok pic d ∧ ShowsField pic (fun θ φ => -br θ φ) ∧ br (Real.pi / 2) (Real.pi / 2) ≠ 0 := by
  obtain ⟨br, bp, ba, he, h⟩ := C76_pfss demoEnv b render (plotOptions "pfss") rfl rfl plotDisk _ plot_text plotSet plot_read
    plotSet_plottable rfl
  obtain ⟨pic, h1, values, img, marks, mean, x, y, h2, h3, h4, h5⟩ := h "radial" _ (.inl ⟨rfl, rfl⟩)
  have hw : plotSet.WF := (read_column demoEnv plot_read).1
  have hrs : RadialSet (exact plotSet) := by
    refine ⟨wellFormed_of_WF (exact_WF hw rfl), rfl, ⟨1, 1, (exact_stores _ _ _).2 ((plotSet_stores 1 1).2 ⟨rfl, rfl⟩)⟩,
      fun l m h => plotSet_plottable.orders l m ((exact_stores _ l m).1 h)⟩
  have hp : pairs (exact plotSet) = {(1, 1)} := by rw [pairs_eq]; simp [exact_keys, plotSet_keys]
  have hc : coef (exact plotSet) 1 1 = Complex.I := by
    rw [coef, valueAt_eq]
    have : (exact plotSet).getI (1, 1) = [exactC (.fin false 0, .fin false 1)] := by simp [exact, plotSet, getI, dictGet]
    rw [this]
    apply Complex.ext <;> simp [exactC, exactF]
  have hbr : ∀ θ φ, OffAxis θ → br θ φ = schmidt 1 1 θ * Real.sin φ := by
    intro θ φ hθ
    obtain ⟨bp', ba', e⟩ := C30_surface (exact plotSet) hrs 1 3 one_pos (by norm_num) θ φ
    rw [he θ φ hθ, hp, Finset.sum_singleton, hc] at e
    simp only [Except.ok.injEq, Prod.mk.injEq] at e
    rw [e.1]
    simp
  refine ⟨demoEnv, { plotOptions "pfss" with plotType := "radial" }, plotDisk, plotSet, _, pic, br, rfl, rfl, plot_text, plot_read,
    plotSet_plottable, fun θ φ hθ => ⟨_, _, he θ φ hθ⟩, h1, ⟨values, img, marks, mean, x, y, h2, h3, fun j hj i hi => ?_, h5⟩, ?_⟩
  · rw [h4 j hj i hi]
    have hi' : (i : ℝ) + 1 ≤ 64 := by exact_mod_cast hi
    have hθ : OffAxis ((i + 1 / 2) * (Real.pi / 64)) := by
      constructor
      · positivity
      · have : (i : ℝ) + 1 / 2 < 64 := by linarith
        nlinarith [Real.pi_pos]
    simp only
    rw [hbr _ _ hθ, hbr _ _ hθ, Real.sin_neg, mul_neg]
  · rw [hbr _ _ ⟨by positivity, by linarith [Real.pi_pos]⟩]
    rw [schmidt]
    simp [legendrePZ, legendreP, rodNorm, rod, rodBase]

/-- `C76_zdi` on this disk. -/
example (b : Bool) (render : Text → Picture → Res Text) :
    ∃ pic, PlotCmd.main demoEnv b render { plotOptions "zdi" with plotType := "radial" } plotDisk = .ok pic plotDisk ∧
      ShowsField pic (surfaceField (exact plotSet)) := by
  obtain ⟨z, wp, wa, -, -, h⟩ := C76_zdi demoEnv b render (plotOptions "zdi") rfl rfl plotDisk _ plot_text plotSet plot_read
    plotSet_plottable
  exact h _ _ (.inl ⟨rfl, rfl⟩)

/-- `C76_unknown`: a misspelt plot type. -/
example (b : Bool) (render : Text → Picture → Res Text) :
    PlotCmd.main demoEnv b render { plotOptions "zdi" with plotType := "maps" } plotDisk = .error .value plotDisk :=
  C76_unknown demoEnv b render _ plotDisk _ plot_text plotSet plot_read plotSet_plottable (.inr ⟨rfl, by decide⟩)

/-- `C76_overwrites`: the file that was read has been replaced. -/
example (b : Bool) : ∃ pic d', PlotCmd.main demoEnv b (fun _ _ => .ok "image".toList)
    { plotOptions "zdi" with plotType := "radial", output := some (plotOptions "").input } plotDisk = .ok pic d' ∧
      d'.read (plotOptions "").input = .ok "image".toList := by
  obtain ⟨z, wp, wa, -, -, h⟩ := C76_zdi demoEnv b (fun _ _ => .ok "image".toList) (plotOptions "zdi") rfl rfl plotDisk _ plot_text plotSet
    plot_read plotSet_plottable
  obtain ⟨pic, h1, -⟩ := h _ _ (.inl ⟨rfl, rfl⟩)
  obtain ⟨d', h2, h3⟩ := C76_saved demoEnv b (fun _ _ => .ok "image".toList) { plotOptions "zdi" with plotType := "radial" }
    (plotOptions "").input plotDisk plotDisk pic h1 _ rfl rfl
  exact ⟨pic, d', h2, h3⟩

/-- `C76_star`, `C76_title`. -/
example : starName "maps/field_tauBoo.dat".toList = "tauBoo".toList := by decide +kernel

end Verif
