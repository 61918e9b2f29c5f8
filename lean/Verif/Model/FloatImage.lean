import Verif.Model.Image
import Verif.Model.FloatVisible
import Verif.Model.FloatSets

/-!
# Images and coefficients in double precision (image_converter.py:30-75, 102-116)

`Model.Image` is exact. Here products and sums are those of binary64 numbers. As in `Model.FloatVisible` the grid is given by its polar and azimuthal
corners and arrays are flat lists in C order (azimuth first). `sph_harm` (`Y`), `np.sin` (`T`) and the order in which `np.sum` adds (`S`) are parameters. The
cache is left out (C56). Images are complex; a real image is one with imaginary parts 0, which the products keep.
-/

namespace Verif
namespace FloatImage
open PyFloat FloatDescribe FloatVisible

/-- `sph_harm(m, l, azimuth, polar)` (image_converter.py:83). -/
abbrev Harm := ℤ → ℤ → PyFloat → PyFloat → PyComplex

/-- A two-dimensional image (image_converter.py:30). -/
structure Picture where
  rows : ℕ
  cols : ℕ
  data : List PyComplex

/-- A real factor of a complex product (image_converter.py:47). -/
def toComplex (x : PyFloat) : PyComplex := (x, fin false 0)

/-- `np.conj` (image_converter.py:53). -/
def conj (z : PyComplex) : PyComplex := (z.1, neg z.2)

/-- `np.sum` of complex numbers, which adds real and imaginary parts in the same order (image_converter.py:53). -/
def csum (S : List PyFloat → PyFloat) (zs : List PyComplex) : PyComplex := (S (zs.map (·.1)), S (zs.map (·.2)))

/-- `ylm` at the centre of a facet (image_converter.py:52, 72, 86-97). -/
def harmonic (Y : Harm) (k : Key) (f : (PyFloat × PyFloat) × (PyFloat × PyFloat)) : PyComplex := Y k.2 k.1 (centreAzimuth f.1) (centrePolar f.2)

/-- An entry of `fixed_factors`; the widths are those of `_deltas` (image_converter.py:47, 109-116). -/
def fixedFactor (T : SineLib) (f : (PyFloat × PyFloat) × (PyFloat × PyFloat)) (z : PyComplex) : PyComplex :=
  cmul (cmul (cmul z (toComplex (T.sin (centrePolar f.2)))) (toComplex (sub f.1.2 f.1.1))) (toComplex (sub f.2.2 f.2.1))

/-- `flm` (image_converter.py:52-53). -/
def project (Y : Harm) (T : SineLib) (S : List PyFloat → PyFloat) (P A : List PyFloat) (data : List PyComplex) (k : Key) : PyComplex :=
  csum S (((facets P A).zip data).map fun x => cmul (conj (harmonic Y k x.1)) (fixedFactor T x.1 x.2))

/-- The indexing of `spherical_harmonic` and `_deltas`, which needs a facet (image_converter.py:92-93, 113-114). -/
def needFacets (P A : List PyFloat) : Res Unit := if 2 ≤ P.length ∧ 2 ≤ A.length then .ok () else .error .index

/-- `from_image` (image_converter.py:30-58): the coefficients and the corners of the grid. The image has the shape of the facets, for other shapes that numpy
would broadcast the model raises. The asserts of `_deltas` compare a row with itself and are left out. Grids without facets
always raise IndexError here, in the code only if they fit the image and `lmax` is positive. -/
def fromImage (Y : Harm) (T : SineLib) (S : List PyFloat → PyFloat) (x : Picture) (zg : Option (List PyFloat × List PyFloat)) (lmax : ℤ) :
    Res (Coefs PyComplex × (List PyFloat × List PyFloat)) := do
  let g ← match zg with
    | some g => pure g
    | none => corners (some ((x.cols : ℤ) + 1)) (some ((x.rows : ℤ) + 1))
  needFacets g.1 g.2
  if x.rows = g.2.length - 1 ∧ x.cols = g.1.length - 1 then
    let c ← Coefs.appendAll (Coefs.new [zeroJ] .cplx) ((Image.indices lmax).map fun k => Coefs.intRow k [project Y T S g.1 g.2 x.data k])
    pure (c, g)
  else throw .value

/-- `image += val * ylm` (image_converter.py:72) for a coefficient with one column. -/
def addTerm (Y : Harm) (P A : List PyFloat) (image : List PyComplex) (kv : Key × List PyComplex) : List PyComplex :=
  List.zipWith cadd image ((facets P A).map fun f => cmul (kv.2.headD zeroJ) (harmonic Y kv.1 f))

/-- `to_image` (image_converter.py:61-75) for sets with one column; the model raises for others, which numpy would broadcast over the polar angles or refuse. Grids
without facets raise even if the set is empty. -/
def toImage (Y : Harm) (s : Coefs PyComplex) (P A : List PyFloat) : Res Picture := do
  needFacets P A
  if s.dflt.length = 1 then
    pure ⟨A.length - 1, P.length - 1, s.contents.foldl (addTerm Y P A) ((facets P A).map fun _ => zeroJ)⟩
  else throw .value

end FloatImage
end Verif
