import Verif.Model.Geometry
import Verif.Model.Pfss

/-!
# Model of the numbers behind the maps (plots.py, plot_zdi.py, plot_pfss.py)

Drawing is not modelled; the model gives the numbers that are passed to matplotlib: colour ranges, marker positions and
values, the points of a slice. Of matplotlib it uses: an image without `norm` starts with the range from the least to the
greatest value; `set_clim(vmax=x)` replaces the upper limit only; `set_clim([a, b])` replaces both.
-/

namespace Verif
namespace Maps
open Geometry

/-- `np.min(x)`: ValueError for an empty array (plots.py:51, 128-148). -/
noncomputable def amin (x : Arr2 ℝ) : Res ℝ := x.flatten.min?.elim (.error .value) .ok
/-- `np.max(x)` (plots.py:51, 128-148). -/
noncomputable def amax (x : Arr2 ℝ) : Res ℝ := x.flatten.max?.elim (.error .value) .ok

/-- An image: whether it is `symmetric`, its colour map and its colour limits (plots.py:94-169). -/
structure Panel where
  symmetric : Bool
  cmap : String
  vmin : ℝ
  vmax : ℝ

/-- `plot_magnetic_field` (plots.py:94-169) with `norm=None`: the image. An empty array raises in all cases here (with
`symmetric` given, matplotlib may accept it). -/
noncomputable def magneticField (field : Arr2 ℝ) (symmetric : Option Bool := none) (cmap : Option String := none)
    (absMax : Option ℝ := none) : Res Panel := open Classical in do
  let lo ← amin field
  let hi ← amax field
  let sym := match symmetric with
    | none => decide (lo < 0 ∧ 0 < hi)
    | some b => b
  let cmap := match cmap with
    | some c => c
    | none => if sym then "RdBu_r" else "viridis"
  let hi := match absMax with
    | some m => m
    | none => hi
  let clim := if sym then (-1 * max |lo| |hi|, 1 * max |lo| |hi|) else (lo, hi)
  pure ⟨sym, cmap, clim.1, clim.2⟩

/-- The three images of `plot_components` (plots.py:48-63) and the image whose colours the colour bar shows, the last
one (line 66). -/
structure Components where
  radial : Panel
  polar : Panel
  azimuthal : Panel
  bar : Panel

/-- `plot_components` (plots.py:46-91): the images and the colour bar. -/
noncomputable def components (fr fp fa : Arr2 ℝ) (symmetric : Option Bool := none) : Res Components := do
  let absMax ← amax (map1 (fun v => |v|) (fr ++ fp ++ fa))
  let r ← magneticField fr symmetric none (some absMax)
  let p ← magneticField fp symmetric none (some absMax)
  let a ← magneticField fa symmetric none (some absMax)
  pure ⟨r, p, a, a⟩

/-- The methods chosen by `plot_zdi_components` (plot_zdi.py:261-268). -/
noncomputable def getters (z : Zdi) : Option String → Res ((ℝ → ℝ → Res ℝ) × (ℝ → ℝ → Res ℝ) × (ℝ → ℝ → Res ℝ))
  | none => .ok (fun θ φ => .ok (z.radial θ φ), z.polar, z.azimuthal)
  | some "poloidal" => .ok (fun θ φ => .ok (z.radialPoloidal θ φ), z.polarPoloidal,
      fun θ φ => .ok (z.azimuthalPoloidal θ φ))
  | some "toroidal" => .ok (fun θ φ => .ok (z.radialToroidal θ φ), fun θ φ => .ok (z.polarToroidal θ φ),
      z.azimuthalToroidal)
  | some _ => .error .notImpl

/-- `plot_zdi_components` (plot_zdi.py:250-277); it does not pass `symmetric` and `cmap` on (lines 274-275). -/
noncomputable def zdiComponents (z : Zdi) (g : Geom) (_symmetric : Option Bool := none)
    (_cmap : Option String := none) (term : Option String := none) : Res Components := do
  let (r, p, a) ← getters z term
  let fr ← evalAt g r
  let fp ← evalAt g p
  let fa ← evalAt g a
  components fr fp fa

/-- `plot_components` of plot_pfss.py (lines 11-40) (plot_pfss.py:12-39). -/
noncomputable def pfssComponents (s : Coefs ℂ) (g : Geom) (radius : ℝ := 1) (rss : ℝ := 2.5) : Res Components := do
  let f ← (map2 (fun θ φ => (θ, φ)) g.centers.1 g.centers.2).mapM fun row => row.mapM fun c =>
    Pfss.evalSpherical s radius c.1 c.2 1 rss
  components (map1 (fun v => v.1) f) (map1 (fun v => v.2.1) f) (map1 (fun v => v.2.2) f)

/-- `np.argmax(x, axis=None)`: the flat index of the first greatest entry; ValueError for an empty array
(plots.py:189-196). -/
noncomputable def argmax (x : Arr2 ℝ) : Res ℕ := open Classical in do
  let m ← amax x
  pure (x.flatten.findIdx fun v => decide (v = m))
/-- `np.argmin(x, axis=None)` (plots.py:189-196). -/
noncomputable def argmin (x : Arr2 ℝ) : Res ℕ := open Classical in do
  let m ← amin x
  pure (x.flatten.findIdx fun v => decide (v = m))

/-- `np.unravel_index(k, x.shape)` (plots.py:189-196) -/
def unravel {α : Type} (x : Arr2 α) (k : ℕ) : ℕ × ℕ := (k / (x.headD []).length, k % (x.headD []).length)

/-- `x[i, j]` (plots.py:189-196) -/
def item {α : Type} (x : Arr2 α) (ij : ℕ × ℕ) : Res α := (x[ij.1]?.bind (·[ij.2]?)).elim (.error .index) .ok

/-- `np.rad2deg` (plots.py:198-202) -/
noncomputable def deg (x : ℝ) : ℝ := x * (180 / Real.pi)

/-- A marker drawn by `add_extrema`: abscissa (azimuth in degrees), ordinate (polar angle in degrees) and the value of
the label (plots.py:198-203). -/
structure Marker where
  x : ℝ
  y : ℝ
  value : ℝ

/-- `add_extrema` (plots.py:188-205): the marker of the maximum and the marker of the minimum. -/
noncomputable def extrema (polar azim field : Arr2 ℝ) : Res (Marker × Marker) := do
  let iMax := unravel field (← argmax field)
  let pMax ← item polar iMax
  let aMax ← item azim iMax
  let iMin := unravel field (← argmin field)
  let pMin ← item polar iMin
  let aMin ← item azim iMin
  let fMax ← item field iMax
  let fMin ← item field iMin
  pure (⟨deg aMax, deg pMax, fMax⟩, ⟨deg aMin, deg pMin, fMin⟩)

/-- `plot_zdi_field` (plot_zdi.py:280-333): the image, the markers and the number of the text `abs mean`. -/
noncomputable def zdiField (getter : ℝ → ℝ → Res ℝ) (g : Geom) (symmetric : Option Bool := none)
    (cmap : Option String := none) : Res (Panel × (Marker × Marker) × ℝ) := do
  let field ← evalAt g getter
  let img ← magneticField field symmetric cmap
  let ext ← extrema g.centers.1 g.centers.2 field
  let mean := sum2 (map2 (fun v a => |v| * a) field g.areas) / (4 * Real.pi)
  pure (img, ext, mean)

end Maps
end Verif
