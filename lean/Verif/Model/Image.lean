import Verif.Model.Geometry

/-!
# Model of image_converter.py and of `positive_lm` in converter.py

`scipy.special.sph_harm(m, l, azimuth, polar)` is a parameter `Y m l azimuth polar`. The cache is modelled as a state
machine over a heap of arrays (`Cache`), because it hands out the same array object again; `fromImage` and `toImage` use
the values it returns (`cachedValue`), which is justified by C56 since they do not write into the arrays. Timing and log
messages are not modelled.
-/

namespace Verif
namespace Image
open Geometry

/-- `sph_harm` (image_converter.py:83, 99). -/
abbrev SphHarm := ℤ → ℤ → ℝ → ℝ → ℂ

/-- `spherical_harmonic(..., use_cache=False)` (image_converter.py:99) on arrays of equal shape. -/
def direct (Y : SphHarm) (m l : ℤ) (azimuth polar : Arr2 ℝ) : Arr2 ℂ := map2 (Y m l) azimuth polar

/-- The arguments of `_cached_spherical_harmonic`, which are the key of the cache (image_converter.py:78-83). -/
abbrev CKey := ℤ × ℤ × List ℝ × List ℝ

/-- `row[0]` (image_converter.py:92-93). -/
def first : List ℝ → Res ℝ
  | [] => .error .index
  | x :: _ => .ok x

/-- `tuple(azimuth[..., 0])` and `tuple(polar[0, ...])` (image_converter.py:89-93) of two-dimensional arrays. -/
def ckey (m l : ℤ) (azimuth polar : Arr2 ℝ) : Res CKey := do
  let az ← azimuth.mapM first
  match polar with
  | [] => .error .index
  | row :: _ => .ok (m, l, az, row)

/-- The body of `_cached_spherical_harmonic` (image_converter.py:79-83). -/
def body (Y : SphHarm) (k : CKey) : Arr2 ℂ := k.2.2.1.map fun a => k.2.2.2.map fun p => Y k.1 k.2.1 a p

/-- The arrays made so far (an address is a position) and the cache, most recently used entry first
(image_converter.py:78-83). -/
structure Cache where
  heap : List (Arr2 ℂ)
  entries : List (CKey × ℕ)

/-- Before the first call (image_converter.py:78). -/
def Cache.init : Cache := ⟨[], []⟩

/-- A call of a function decorated with `functools.lru_cache(maxsize=N)` (image_converter.py:78): the address of the
returned array and the new state. -/
noncomputable def Cache.call (Y : SphHarm) (N : ℕ) (k : CKey) (c : Cache) : ℕ × Cache := open Classical in
  match c.entries.find? fun e => decide (e.1 = k) with
  | some e => (e.2, { c with entries := e :: c.entries.filter fun e' => decide (e'.1 ≠ k) })
  | none => (c.heap.length, ⟨c.heap ++ [body Y k], ((k, c.heap.length) :: c.entries).take N⟩)

/-- `maxsize` (image_converter.py:12, 78). -/
def maxsize : ℕ := 30 ^ 2

/-- `spherical_harmonic(..., use_cache=True)` (image_converter.py:86-97) with a cache of capacity `N`, `maxsize` in the
code. -/
noncomputable def harmonic (Y : SphHarm) (N : ℕ) (m l : ℤ) (azimuth polar : Arr2 ℝ) (c : Cache) : Res (ℕ × Cache) := do
  let k ← ckey m l azimuth polar
  pure (Cache.call Y N k c)

/-- The caller overwrites the contents of an array it got (image_converter.py:78). -/
def Cache.write (i : ℕ) (x : Arr2 ℂ) (c : Cache) : Cache := { c with heap := c.heap.set i x }

/-- The value `spherical_harmonic` returns when nobody writes into the cached arrays (image_converter.py:86-97). -/
def cachedValue (Y : SphHarm) (m l : ℤ) (azimuth polar : Arr2 ℝ) : Res (Arr2 ℂ) := do
  let k ← ckey m l azimuth polar
  pure (body Y k)

/-- `_indices` (image_converter.py:119-127). -/
def indices (lmax : ℤ) : List Key :=
  (pyRange 0 lmax).flatMap fun l => (pyRange (-l) (l + 1)).map fun m => (l, m)

/-- `positive_lm` (converter.py:264-267). -/
def positiveLm (L : ℤ) : List Key :=
  (pyRange 0 (L + 1)).flatMap fun l => (pyRange 0 (l + 1)).map fun m => (l, m)

/-- `_deltas` (image_converter.py:102-116): polar and azimuthal steps. The rows (columns) compared by the two asserts are
equal for every geometry, because the corners are made by `meshgrid`; the asserts are omitted. `delta_polar[0, :]` and
`delta_azimuth[:, 0]` raise IndexError when there is no corner. -/
noncomputable def deltas (g : Geom) : Res (Arr2 ℝ × Arr2 ℝ) :=
  if g.polar = [] ∨ g.azim.headD [] = [] then .error .index
  else
    .ok (rTail (map2 (fun x y => y - x) (cInit g.polar) (cTail g.polar)),
      cTail (map2 (fun x y => y - x) (rInit g.azim) (rTail g.azim)))

/-- Two arrays of equal shape (image_converter.py:48). -/
def sameShape {α β : Type} (x : Arr2 α) (y : Arr2 β) : Bool := decide (x.map List.length = y.map List.length)

/-- `from_image` (image_converter.py:30-58). The image has the shape of the facets; numpy would also broadcast some other
shapes, the model raises for them. -/
noncomputable def fromImage (Y : SphHarm) (image : Arr2 ℂ) (zg : Option Geom) (lmax : ℤ) : Res (Coefs ℂ × Geom) := do
  let g ← match zg with
    | some g => pure g
    | none => Geom.init (.int ((image.headD []).length + 1)) (.int (image.length + 1))
  let (polar, azimuth) := g.centers
  let (dPolar, dAzimuth) ← deltas g
  if sameShape image polar = false then throw .value
  let fixed := map2 (· * ·) (map2 (· * ·) (map2 (· * ·) image (map1 (fun p => ((Real.sin p : ℝ) : ℂ)) polar))
    (map1 (fun x : ℝ => (x : ℂ)) dAzimuth)) (map1 (fun x : ℝ => (x : ℂ)) dPolar)
  let rows ← (indices lmax).mapM fun k => do
    let ylm ← cachedValue Y k.2 k.1 azimuth polar
    pure (Coefs.intRow k [(map2 (fun y f => (starRingEnd ℂ) y * f) ylm fixed).flatten.sum])
  let coeffs ← Coefs.appendAll (Coefs.new [0] .cplx) rows
  pure (coeffs, g)

/-- `image += val * ylm` for one row of the image (image_converter.py:72). -/
noncomputable def addRow (val row ylm : List ℂ) : Res (List ℂ) := do
  let x ← bcast (· * ·) val ylm
  if x.length = row.length then pure (List.zipWith (· + ·) row x) else throw .value

/-- `to_image` (image_converter.py:61-75). -/
noncomputable def toImage (Y : SphHarm) (s : Coefs ℂ) (g : Geom) : Res (Arr2 ℂ) := do
  let (polar, azimuth) := g.centers
  s.contents.foldlM (fun (image : Arr2 ℂ) kv => do
    let ylm ← cachedValue Y kv.1.2 kv.1.1 azimuth polar
    (image.zip ylm).mapM fun r => addRow kv.2 r.1 r.2) (map1 (fun _ => (0 : ℂ)) azimuth)

end Image
end Verif
