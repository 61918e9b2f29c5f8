import Verif.Model.Pfss
import Verif.Model.Zdi

/-!
# Model of converter.py (conversions between the ZDI and PFSS conventions)
-/

namespace Verif
namespace Converter

/-- `collect_cosines` (converter.py:14-29). -/
noncomputable def collectCosines (r α s β : ℝ) : ℝ × ℝ :=
  let c := r * Real.cos α + s * Real.cos β
  let d := r * Real.sin α - s * Real.sin β
  (Real.sqrt (c ^ 2 + d ^ 2), arctan2 d c)

/-- `collect_sines` (converter.py:32-47). -/
noncomputable def collectSines (r α s β : ℝ) : ℝ × ℝ :=
  let c := r * Real.cos α - s * Real.cos β
  let d := r * Real.sin α + s * Real.sin β
  (Real.sqrt (c ^ 2 + d ^ 2), arctan2 d c)

/-- `cmath.rect(t, γ)` (converter.py:72-79). -/
noncomputable def cRect (t γ : ℝ) : ℂ := ⟨t * Real.cos γ, t * Real.sin γ⟩

/-- The folded coefficient (converter.py:72-79); `cmath.polar(c) = (|c|, arg c)`. -/
noncomputable def foldPair (m : ℤ) (cp cn : ℂ) : ℂ :=
  let t := collectCosines ‖cp‖ cp.arg ((-1) ^ m * ‖cn‖) cn.arg
  cRect t.1 t.2

/-- One pass of the loop body of `map_to_positive_orders` for pair `k` (converter.py:61-80). -/
noncomputable def foldRow (s : Coefs ℂ) (k : ℤ × ℤ) : Res (Idx × Idx × List ℂ) :=
  if k.2 = 0 then .ok (Coefs.intRow k (s.getI k))
  else match s.getI k, s.getI (k.1, -k.2) with
    | [cp], [cn] => .ok (Coefs.intRow k [foldPair k.2 cp cn])
    | _, _ => .error .assertion

/-- The pairs in the order of the two loops (converter.py:60-62). -/
def foldKeys (L : ℤ) : List (ℤ × ℤ) :=
  (pyRange 0 (L + 1)).flatMap fun l => (l, 0) :: (pyRange 1 (l + 1)).map fun m => (l, m)

/-- `map_to_positive_orders` (converter.py:50-81). The rows are computed first and appended afterwards; since an
exception abandons the local output this is the same. -/
noncomputable def mapToPositiveOrders (s : Coefs ℂ) : Res (Coefs ℂ) := do
  let rows ← (foldKeys s.degreeMax).mapM (foldRow s)
  Coefs.appendAll s.emptyLike rows

/-- `forward_conversion_factor` (converter.py:84-113). -/
noncomputable def forwardFactor (l m : ℤ) : ℝ :=
  Real.sqrt (2 * l + 1) / ((-1) ^ (m % 2) * Real.sqrt (-(if m = 0 then 1 else 0) + 2) * Real.sqrt (4 * Real.pi))

/-- `convert_zdi_to_pfss` (converter.py:116-125). -/
noncomputable def zdiToPfss (s : Coefs ℂ) : Res (Coefs ℂ) := s.scale (fun l m => (forwardFactor l m : ℂ)) 1

/-- `_beta_inverse_conversion_factor` (converter.py:128-130). -/
noncomputable def betaFactor (l _m : ℤ) : ℝ := (Pfss.rL l 1 1 3).1 * (l + 1)

/-- `convert_pfss_to_zdi` (converter.py:133-149). `ks` is the iteration order of the key set in `hstack`. -/
noncomputable def pfssToZdi (ks : List Key) (s : Coefs ℂ) : Res (Coefs ℂ) := do
  let alpha ← s.scale (fun l m => (forwardFactor l m : ℂ)) (-1)
  let beta ← alpha.scale (fun l m => (betaFactor l m : ℂ)) 1
  let gamma ← alpha.zerosLike
  Coefs.hstack ks [alpha, beta, gamma]

end Converter
end Verif
