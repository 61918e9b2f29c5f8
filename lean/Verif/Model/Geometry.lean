import Verif.Model.Zdi

/-!
# Model of geometry.py and longitudinal_field.py

Two-dimensional numpy arrays are lists of rows (first index azimuth, second polar). Exact arithmetic; a quotient
0/0 (nan in numpy) is 0 here and no claim uses it. Log messages and the position of the maximum
(geometry.py:128-131, 141-145) are not modelled.
-/

namespace Verif
namespace Geometry

/-- A two-dimensional array (geometry.py:28). -/
abbrev Arr2 (α : Type) := List (List α)

/-- `x[:-1, :]` (geometry.py:42, 63-64) -/
def rInit {α : Type} (x : Arr2 α) : Arr2 α := x.dropLast
/-- `x[1:, :]` (geometry.py:42, 63-64) -/
def rTail {α : Type} (x : Arr2 α) : Arr2 α := x.tail
/-- `x[:, :-1]` (geometry.py:42, 63-64) -/
def cInit {α : Type} (x : Arr2 α) : Arr2 α := x.map List.dropLast
/-- `x[:, 1:]` (geometry.py:42, 63-64) -/
def cTail {α : Type} (x : Arr2 α) : Arr2 α := x.map List.tail
/-- An elementwise unary expression (geometry.py:42, 63-66). -/
def map1 {α β : Type} (f : α → β) (x : Arr2 α) : Arr2 β := x.map (List.map f)
/-- An elementwise binary expression of arrays of equal shape (geometry.py:42, 63-66). -/
def map2 {α β γ : Type} (f : α → β → γ) (x : Arr2 α) (y : Arr2 β) : Arr2 γ := List.zipWith (List.zipWith f) x y
/-- `np.sum(x)` (geometry.py:134-136, longitudinal_field.py:46) -/
def sum2 (x : Arr2 ℝ) : ℝ := x.flatten.sum

/-- A constructor argument: `None`, a python int or an array (geometry.py:10-22). -/
inductive CornerArg
  | none
  | int (n : ℤ)
  | arr (xs : List ℝ)

/-- The number(s) numpy makes of an argument: an int that is not replaced by a `linspace` is a 0-d array, which
`meshgrid` treats as one corner (geometry.py:10-22). -/
def CornerArg.values : CornerArg → Option (List ℝ)
  | none => Option.none
  | int n => some [(n : ℝ)]
  | arr xs => some xs

/-- `np.linspace(a, b, n)`; negative `n` raises ValueError (geometry.py:15-22). -/
noncomputable def linspace (a b : ℝ) (n : ℤ) : Res (List ℝ) :=
  if n < 0 then .error .value
  else .ok ((List.range n.toNat).map fun (i : ℕ) => a + (i : ℝ) * ((b - a) / (n - 1)))

/-- `np.abs(np.max(x) - np.min(x))`: TypeError for None, ValueError for an empty array (geometry.py:25-26). -/
noncomputable def extent : Option (List ℝ) → Res ℝ
  | none => .error .type
  | some xs =>
    match xs.max?, xs.min? with
    | some a, some b => .ok |a - b|
    | _, _ => .error .value

/-- A `ZdiGeometry`: the two corner arrays (geometry.py:9-28; returned by `corners`, geometry.py:34-36). -/
structure Geom where
  polar : Arr2 ℝ
  azim : Arr2 ℝ

/-- The replacement of ints and missing arguments (geometry.py:14-22). -/
noncomputable def corners : CornerArg → CornerArg → Res (CornerArg × CornerArg)
  | .int n, .int k => do
    let p ← linspace 0 Real.pi n
    let a ← linspace 0 (2 * Real.pi) k
    pure (.arr p, .arr a)
  | .int n, .none => do
    let p ← linspace 0 Real.pi n
    let a ← linspace 0 (2 * Real.pi) (2 * p.length)
    pure (.arr p, .arr a)
  | .none, .none => do
    let p ← linspace 0 Real.pi (64 + 1)
    let a ← linspace 0 (2 * Real.pi) (2 * p.length)
    pure (.arr p, .arr a)
  | p, a => .ok (p, a)

/-- `np.meshgrid(p, a)` (geometry.py:28). -/
def meshgrid (p a : List ℝ) : Geom := ⟨a.map fun _ => p, a.map fun y => p.map fun _ => y⟩

/-- `ZdiGeometry.__init__` (geometry.py:10-28). -/
noncomputable def Geom.init (p a : CornerArg) : Res Geom := open Classical in do
  let (p, a) ← corners p a
  let ep ← extent p.values
  resAssert (ep ≤ Real.pi)
  let ea ← extent a.values
  resAssert (ea ≤ 2 * Real.pi)
  pure (meshgrid (p.values.getD []) (a.values.getD []))

/-- `shape` (geometry.py:30-32). -/
def Geom.shape (g : Geom) : ℕ × ℕ := (g.polar.length, (g.polar.headD []).length)

/-- `make_centers` (geometry.py:41-42). -/
noncomputable def makeCenters (x : Arr2 ℝ) : Arr2 ℝ :=
  map1 (0.25 * ·) (map2 (· + ·) (map2 (· + ·) (map2 (· + ·) (rInit (cInit x)) (rInit (cTail x))) (rTail (cInit x)))
    (rTail (cTail x)))

/-- `centers` (geometry.py:39-48): polar and azimuthal. -/
noncomputable def Geom.centers (g : Geom) : Arr2 ℝ × Arr2 ℝ := (makeCenters g.polar, makeCenters g.azim)

/-- `areas` (geometry.py:58-66). -/
noncomputable def Geom.areas (g : Geom) : Arr2 ℝ :=
  let heightDelta := map2 (fun x y => Real.cos x - Real.cos y) (cInit (rInit g.polar)) (cTail (rInit g.polar))
  let azimuthDelta := map2 (· - ·) (cTail (rTail g.azim)) (cTail (rInit g.azim))
  map2 (· * ·) heightDelta azimuthDelta

/-- `unit_normals` and `centers_cartesian` (geometry.py:50-52, 101-110). -/
noncomputable def Geom.unitNormals (g : Geom) : Arr2 (ℝ × ℝ × ℝ) :=
  map2 (fun θ φ => rectFromSpherical 1 θ φ) g.centers.1 g.centers.2

/-- `np.sum(v * w)` of two 3-vectors (geometry.py:82-85). -/
def dot3 (v w : ℝ × ℝ × ℝ) : ℝ := v.1 * w.1 + v.2.1 * w.2.1 + v.2.2 * w.2.2

/-- `projected_visible_area_fraction` (geometry.py:75-88). -/
noncomputable def Geom.projFrac (g : Geom) (d : ℝ × ℝ × ℝ) : Arr2 ℝ := open Classical in
  let len := Real.sqrt (d.1 ^ 2 + d.2.1 ^ 2 + d.2.2 ^ 2)
  let frac := map1 (fun n => dot3 (d.1 / len, d.2.1 / len, d.2.2 / len) n) g.unitNormals
  map1 (fun f => if 0 < f then f else 0) frac

/-- The cartesian field at the facet centres (longitudinal_field.py:36). -/
noncomputable def fieldXyz (g : Geom) (z : Zdi) : Res (Arr2 (ℝ × ℝ × ℝ)) :=
  (map2 (fun θ φ => (θ, φ)) g.centers.1 g.centers.2).mapM fun row => row.mapM fun c => do
    let v ← Zdi.cartesian z c.1 c.2
    pure (v 0, v 1, v 2)

/-- One pass of the loop over observers (longitudinal_field.py:38-46). -/
noncomputable def longitudinal (g : Geom) (field : Arr2 (ℝ × ℝ × ℝ)) (obsPolar obsAzimuth : ℝ) : ℝ :=
  let d := rectFromSpherical 1 obsPolar obsAzimuth
  let parallel := map1 (fun b => dot3 b d) field
  let visible := map2 (· * ·) g.areas (g.projFrac d)
  sum2 (map2 (· * ·) parallel visible) / sum2 visible

/-- The argument `observer_azimuths`: missing, an array of floats or an array of integers (longitudinal_field.py:11,
21-24). -/
inductive ObsArg
  | none
  | floats (xs : List ℝ)
  | ints (xs : List ℤ)

/-- Truncation towards zero: storing a float in an integer array (longitudinal_field.py:24, 46). -/
noncomputable def truncZ (x : ℝ) : ℝ := if 0 ≤ x then ⌊x⌋ else ⌈x⌉

/-- `get_longitudinal_field_curve` (longitudinal_field.py:11-48). `np.empty_like(observer_azimuths)` makes the result
array of integer dtype if the azimuths are integers. -/
noncomputable def longitudinalCurve (g : Geom) (z : Zdi) (obsPolar : ℝ) (obs : ObsArg := .none) : Res (List ℝ) := do
  match obs with
  | .none => do
    let xs ← linspace 0 360 g.shape.1
    let f ← fieldXyz g z
    pure (xs.map fun x => longitudinal g f obsPolar (x * (Real.pi / 180)))
  | .floats xs => do
    let f ← fieldXyz g z
    pure (xs.map fun x => longitudinal g f obsPolar x)
  | .ints xs => do
    let f ← fieldXyz g z
    pure (xs.map fun x : ℤ => truncZ (longitudinal g f obsPolar x))

/-- The numbers computed by `describe` (geometry.py:126-151): maximum, mean, rms, standard deviation. -/
structure Stats where
  max : ℝ
  mean : ℝ
  rms : ℝ
  std : ℝ

/-- `describe` (geometry.py:126-151): `np.argmax` of an empty array raises ValueError; `np.isclose` has its default
tolerances. -/
noncomputable def describe (areas values : Arr2 ℝ) : Res Stats := open Classical in do
  let m ← match (map1 (fun v => |v|) values).flatten.max? with
    | some m => .ok m
    | none => .error .value
  let mean := sum2 (map2 (fun v a => |v| * a) values areas) / (4 * Real.pi)
  let rms := Real.sqrt (sum2 (map2 (fun v a => v ^ 2 * a) values areas) / (4 * Real.pi))
  let std := Real.sqrt (sum2 (map2 (fun v a => (|v| - mean) ^ 2 * a) values areas) / (4 * Real.pi))
  resAssert (|rms ^ 2 - (mean ^ 2 + std ^ 2)| ≤ 1e-8 + 1e-5 * |mean ^ 2 + std ^ 2|)
  pure ⟨m, mean, rms, std⟩

/-- Evaluate one method of the magnetogram at the facet centres (geometry.py:159). -/
noncomputable def evalAt (g : Geom) (f : ℝ → ℝ → Res ℝ) : Res (Arr2 ℝ) :=
  (map2 (fun θ φ => (θ, φ)) g.centers.1 g.centers.2).mapM fun row => row.mapM fun c => f c.1 c.2

/-- One direction of `numerical_description` (geometry.py:157-163): describes the poloidal part, the toroidal part and
their sum. -/
noncomputable def describeDirection (g : Geom) (name : String) (pol tor : ℝ → ℝ → Res ℝ) :
    Res (List (String × Stats) × Arr2 ℝ) := do
  let vp ← evalAt g pol
  let sp ← describe g.areas vp
  let vt ← evalAt g tor
  let st ← describe g.areas vt
  let acc := map2 (· + ·) vp vt
  let sa ← describe g.areas acc
  pure ([(name ++ "-poloidal", sp), (name ++ "-toroidal", st), (name, sa)], acc)

/-- `numerical_description` (geometry.py:113-169) with the methods listed by `get_all` (zdi_magnetogram.py:294-307). -/
noncomputable def numericalDescription (g : Geom) (z : Zdi) : Res (List (String × Stats)) := do
  let (dr, r) ← describeDirection g "radial" (fun θ φ => .ok (Zdi.radialPoloidal z θ φ))
    (fun θ φ => .ok (Zdi.radialToroidal z θ φ))
  let (dp, p) ← describeDirection g "polar" (fun θ φ => Zdi.polarPoloidal z θ φ)
    (fun θ φ => .ok (Zdi.polarToroidal z θ φ))
  let (da, a) ← describeDirection g "azimuthal" (fun θ φ => .ok (Zdi.azimuthalPoloidal z θ φ))
    (fun θ φ => Zdi.azimuthalToroidal z θ φ)
  let strength := map1 Real.sqrt (map2 (· + ·) (map2 (· + ·) (map1 (· ^ 2) r) (map1 (· ^ 2) p)) (map1 (· ^ 2) a))
  let s ← describe g.areas strength
  pure (dr ++ dp ++ da ++ [("field strength", s)])

end Geometry
end Verif
