import Verif.Model.NdArray
import Verif.Model.Zdi

/-!
# Model of the field functions of zdi_magnetogram.py on arrays

The getters of `Model.Zdi` on numpy arrays of points of any shapes (0-dimensional arrays for single points). Exact
arithmetic; division by `sin θ = 0` gives inf or nan in numpy and 0 here. For arrays without any points, exceptions caused by
the degrees and orders in `calculate_lpmn` are not modelled.
-/

namespace Verif
namespace Zdi

/-- A loop `for … in zip(…): field += …` over the rows, where what is added is an elementwise expression of the two arrays
of angles (for example zdi_magnetogram.py:91-97). -/
noncomputable def loopArr (term : ZRow → ℝ → ℝ → ℂ) (θ φ : Nd ℝ) : Zdi → Nd ℂ → Res (Nd ℂ)
  | [], acc => .ok acc
  | r :: z, acc => do
    let t ← Nd.zip (term r) θ φ
    let acc ← Nd.inplace (fun x y : ℂ => x + y) acc t
    loopArr term θ φ z acc

/-- The real part of the loop on `np.zeros_like(points_azimuth, dtype=complex)` (zdi_magnetogram.py:82-99, 125-149,
248-267). -/
noncomputable def fieldArr (term : ZRow → ℝ → ℝ → ℂ) (z : Zdi) (θ φ : Nd ℝ) : Res (Nd ℝ) := do
  let f ← loopArr term θ φ z (Nd.fillLike 0 φ)
  pure (f.map Complex.re)

/-- `get_radial_poloidal_field` (zdi_magnetogram.py:82-99). -/
noncomputable def radialPoloidalArr (z : Zdi) (θ φ : Nd ℝ) : Res (Nd ℝ) :=
  fieldArr (fun r θ φ => r.a * cLm r.l r.m * lpmv r.m r.l (Real.cos θ) * expi r.m φ) z θ φ

/-- `get_radial_toroidal_field` (zdi_magnetogram.py:101-111). -/
noncomputable def radialToroidalArr (_z : Zdi) (_θ φ : Nd ℝ) : Res (Nd ℝ) :=
  .ok ((Nd.fillLike (0 : ℂ) φ).map Complex.re)

/-- The sum of two fields (zdi_magnetogram.py:113-123, 192-202, 269-279). -/
noncomputable def addArr (x y : Res (Nd ℝ)) : Res (Nd ℝ) := do
  let a ← x
  let b ← y
  Nd.zip (fun x y : ℝ => x + y) a b

/-- `get_radial_field` (zdi_magnetogram.py:113-123). -/
noncomputable def radialArr (z : Zdi) (θ φ : Nd ℝ) : Res (Nd ℝ) := addArr (radialPoloidalArr z θ φ) (radialToroidalArr z θ φ)

/-- `get_azimuthal_poloidal_field` (zdi_magnetogram.py:125-149): `-=` is written as adding the negative. -/
noncomputable def azimuthalPoloidalArr (z : Zdi) (θ φ : Nd ℝ) : Res (Nd ℝ) :=
  fieldArr (fun r θ φ => -(r.b * cLm r.l r.m * lpmv r.m r.l (Real.cos θ) * Complex.I * r.m * expi r.m φ
    / (r.l + 1) / (Real.sin θ : ℂ))) z θ φ

/-- `get_polar_toroidal_field` (zdi_magnetogram.py:248-267). -/
noncomputable def polarToroidalArr (z : Zdi) (θ φ : Nd ℝ) : Res (Nd ℝ) :=
  fieldArr (fun r θ φ => r.g * cLm r.l r.m * lpmv r.m r.l (Real.cos θ) * Complex.I * r.m * expi r.m φ
    / (r.l + 1) / (Real.sin θ : ℂ)) z θ φ

/-- A list as an array (zdi_magnetogram.py:182-190, 236-243). -/
noncomputable def rowArr (xs : List ℂ) : Nd ℂ := ⟨[xs.length], fun i => xs.getD (i.headD 0) 0⟩

/-- `x[..., np.newaxis]` (zdi_magnetogram.py:182-190, 236-243). -/
def newaxis (x : Nd ℝ) : Nd ℝ := ⟨1 :: x.shape, fun i => x.val i.tail⟩

/-- The derivatives from `calculate_lpmn` (associated_legendre.py:5-30) with the rows along the last axis. -/
noncomputable def derivArr (z : Zdi) (θ : Nd ℝ) : Res (Nd ℝ) := do
  let pd ← Nd.mapRes [] (calcLpmn z.lm) θ
  pure ⟨z.length :: θ.shape, fun i => ((pd.val i.tail).getD (i.headD 0) (0, 0)).2⟩

/-- `np.sum(x, axis=-1)` (zdi_magnetogram.py:182-190, 236-243). -/
noncomputable def sumLast (x : Nd ℂ) : Nd ℂ :=
  ⟨x.shape.tail, fun i => ((List.range (x.shape.headD 0)).map fun k => x.val (k :: i)).sum⟩

/-- The two getters with the rows along the last axis (zdi_magnetogram.py:182-190, 236-243); `c` are the coefficients. -/
noncomputable def lastAxisArr (c : ZRow → ℂ) (z : Zdi) (θ φ : Nd ℝ) : Res (Nd ℝ) := do
  let d ← derivArr z θ
  let e ← Nd.zip (fun (m : ℤ) (φ : ℝ) => expi m φ) ⟨[z.length], fun i => (z.map ZRow.m).getD (i.headD 0) 0⟩ (newaxis φ)
  let f ← Nd.zip (fun x y : ℂ => x * y) (rowArr (z.map fun r => c r * cLm r.l r.m / (r.l + 1))) e
  let f ← Nd.inplace (fun (x : ℂ) (y : ℝ) => x * (-y : ℝ)) f d
  pure ((sumLast f).map Complex.re)

/-- `get_azimuthal_toroidal_field_new` (zdi_magnetogram.py:175-190). -/
noncomputable def azimuthalToroidalArr (z : Zdi) (θ φ : Nd ℝ) : Res (Nd ℝ) := lastAxisArr ZRow.g z θ φ

/-- `get_polar_poloidal_field_new` (zdi_magnetogram.py:227-243). -/
noncomputable def polarPoloidalArr (z : Zdi) (θ φ : Nd ℝ) : Res (Nd ℝ) := lastAxisArr ZRow.b z θ φ

/-- `get_azimuthal_field` (zdi_magnetogram.py:192-202). -/
noncomputable def azimuthalArr (z : Zdi) (θ φ : Nd ℝ) : Res (Nd ℝ) :=
  addArr (azimuthalPoloidalArr z θ φ) (azimuthalToroidalArr z θ φ)

/-- `get_polar_field` (zdi_magnetogram.py:269-279). -/
noncomputable def polarArr (z : Zdi) (θ φ : Nd ℝ) : Res (Nd ℝ) := addArr (polarPoloidalArr z θ φ) (polarToroidalArr z θ φ)

/-- `get_field_strength` (zdi_magnetogram.py:281-292). -/
noncomputable def strengthArr (z : Zdi) (θ φ : Nd ℝ) : Res (Nd ℝ) := do
  let r ← radialArr z θ φ
  let p ← polarArr z θ φ
  let a ← azimuthalArr z θ φ
  let rp ← Nd.zip (fun x y : ℝ => x ^ 2 + y ^ 2) r p
  Nd.zip (fun x y : ℝ => Real.sqrt (x + y ^ 2)) rp a

/-- `_cartesian_from_spherical_helper` (zdi_magnetogram.py:596-610); the last axis of length 3 of the result is written as a
vector at every point. -/
noncomputable def helperArr (fr fp fa θ φ : Nd ℝ) : Res (Nd (Fin 3 → ℝ)) := do
  resAssert (fr.shape = θ.shape)
  resAssert (fp.shape = θ.shape)
  resAssert (fa.shape = θ.shape)
  let rows := (fr.flatten.zip (fp.flatten.zip fa.flatten)).zip (θ.flatten.zip φ.flatten)
  pure (Nd.reshape 0 θ.shape (rows.map fun q => toCartesian q.2.1 q.2.2 q.1.1 q.1.2.1 q.1.2.2))

/-- `get_cartesian_field` (zdi_magnetogram.py:546-555). -/
noncomputable def cartesianArr (z : Zdi) (θ φ : Nd ℝ) : Res (Nd (Fin 3 → ℝ)) := do
  let r ← radialArr z θ φ
  let p ← polarArr z θ φ
  let a ← azimuthalArr z θ φ
  helperArr r p a θ φ

/-- `get_cartesian_toroidal_field` (zdi_magnetogram.py:568-577): `get_azimuthal_toroidal_field` (zdi_magnetogram.py:151-173)
is `assert False` (line 159). -/
noncomputable def cartesianToroidalArr (z : Zdi) (θ φ : Nd ℝ) : Res (Nd (Fin 3 → ℝ)) := do
  let _ ← radialToroidalArr z θ φ
  let _ ← polarToroidalArr z θ φ
  .error .assertion

end Zdi
end Verif
