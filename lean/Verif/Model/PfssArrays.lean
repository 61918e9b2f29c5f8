import Verif.Model.NdArray
import Verif.Model.Pfss

/-!
# Model of the field evaluation of pfss_magnetogram.py on arrays

`evaluate_spherical` and `evaluate_cartesian` on numpy arrays of points of any shapes and coefficient sets with any number
of columns. Exact arithmetic; dividing by `r sin θ = 0` gives 0 here and inf or nan in numpy. The arguments are arrays
(0-dimensional for numbers).
-/

namespace Verif
namespace Pfss

/-- The three field arrays (pfss_magnetogram.py:235). -/
abbrev Fields := Nd ℝ × Nd ℝ × Nd ℝ

/-- The arrays `g_lm` and `h_lm` of one coefficient line: one entry per column (pfss_magnetogram.py:201). -/
noncomputable def columnArr (c : List ℂ) : Nd ℂ := ⟨[c.length], fun i => c.getD (i.headD 0) 0⟩

/-- One entry of the quotient on lines 221-223 of pfss_magnetogram.py (pfss_magnetogram.py:221-223). -/
noncomputable def whereQuot (a b : ℝ) : ℝ := open Classical in if a ≠ 0 then a / b else 0

/-- `np.divide(u, v, out=np.zeros_like(f), where=u != 0)` (pfss_magnetogram.py:221-223). -/
noncomputable def divideWhere (u v f : Nd ℝ) : Res (Nd ℝ) := do
  let q ← Nd.zip whereQuot u v
  Nd.inplace (fun _ x : ℝ => x) (Nd.fillLike (0 : ℝ) f) q

/-- One pass of the loop over coefficient lines (pfss_magnetogram.py:206-223): `t` and `d` are the slices
`buffered_theta[..., coeff_id]` and `buffered_dtheta[..., coeff_id]`. -/
noncomputable def lineStep (r0 rss : ℝ) (pr pp pa : Nd ℝ) (l m : ℤ) (c : List ℂ) (t d : Nd ℝ) (F : Fields) :
    Res Fields := do
  let rl := pr.map fun r => rL l r r0 rss
  let ph ← Nd.zip (fun (z : ℂ) φ => phiLm m z.re z.im φ) (columnArr c) pa
  let ur ← Nd.zip (fun a b : ℝ => a * b) (rl.map Prod.snd) t
  let ur ← Nd.zip (fun a b : ℝ => a * b) ur (ph.map Prod.fst)
  let up ← Nd.zip (fun a b : ℝ => a * b) (rl.map Prod.fst) d
  let up ← Nd.zip (fun a b : ℝ => a * b) up (ph.map Prod.fst)
  let ua ← Nd.zip (fun a b : ℝ => a * b) (rl.map Prod.fst) t
  let ua ← Nd.zip (fun a b : ℝ => a * b) ua (ph.map Prod.snd)
  let fr ← Nd.inplace (fun a b : ℝ => a - b) F.1 ur
  let q ← Nd.zip (fun a b : ℝ => a / b) up pr
  let fp ← Nd.inplace (fun a b : ℝ => a - b) F.2.1 q
  let v ← Nd.zip (fun a b : ℝ => a * b) pr (pp.map Real.sin)
  let q ← divideWhere ua v F.2.2
  let fa ← Nd.inplace (fun a b : ℝ => a - b) F.2.2 q
  pure (fr, fp, fa)

/-- The loop over coefficient lines (pfss_magnetogram.py:201-223), from line number `k`. -/
noncomputable def lineLoop (r0 rss : ℝ) (pr pp pa : Nd ℝ) (th : Nd (List (ℝ × ℝ))) :
    List (ℤ × ℤ × List ℂ) → ℕ → Fields → Res Fields
  | [], _, F => .ok F
  | (l, m, c) :: rest, k, F => do
    let F' ← lineStep r0 rss pr pp pa l m c (th.map fun x => (x.getD k (0, 0)).1) (th.map fun x => (x.getD k (0, 0)).2) F
    lineLoop r0 rss pr pp pa th rest (k + 1) F'

/-- The assignments to points inside the star and beyond the source surface (pfss_magnetogram.py:184-188, 225-233);
`pr` are the original radii. -/
noncomputable def clampFields (r0 rss : ℝ) (pr f : Nd ℝ) : Nd ℝ := open Classical in
  ⟨f.shape, fun i =>
    let x := if pr.val i < r0 then 0 else f.val i
    if rss < pr.val i then x * (min (pr.val i) rss / pr.val i) ^ 2 else x⟩

/-- `evaluate_spherical` (pfss_magnetogram.py:147-235) on arrays. -/
noncomputable def evalSphericalArr (s : Coefs ℂ) (pr pp pa : Nd ℝ) (r0 : ℝ := 1) (rss : ℝ := 2.5) : Res Fields :=
    open Classical in do
  resAssert (r0 < rss)
  let pr := pr.atleast1
  let pp := pp.atleast1
  let pa := pa.atleast1
  resAssert (pp.shape = pa.shape)
  let pr ← Nd.zip (fun a b : ℝ => a * b) pr (Nd.fillLike 1 pp)
  resAssert (pr.shape = pp.shape)
  let rc := pr.map fun r => min r rss
  let z := Nd.fillLike (0 : ℝ) pp
  let (ls, ms, vs) ← s.asArrays false
  if ms = [] then throw .value
  resAssert (∀ m ∈ ms, 0 ≤ m)
  let th ← Nd.mapRes [] (calcAllTheta (ls.zip ms)) pp
  let F ← lineLoop r0 rss rc pp pa th (ls.zip (ms.zip vs)) 0 (z, z, z)
  pure (clampFields r0 rss pr F.1, clampFields r0 rss pr F.2.1, clampFields r0 rss pr F.2.2)

/-- `evaluate_cartesian` (pfss_magnetogram.py:238-301) on arrays: spherical and cartesian components. -/
noncomputable def evalCartesianArr (s : Coefs ℂ) (px py pz : Nd ℝ) (r0 : ℝ := 1) (rss : ℝ := 2.5) :
    Res (Fields × Fields) := open Classical in do
  resAssert (r0 < rss)
  let px := px.atleast1
  let py := py.atleast1
  let pz := pz.atleast1
  resAssert (px.shape = py.shape)
  resAssert (px.shape = pz.shape)
  let p : Nd (ℝ × ℝ × ℝ) := ⟨px.shape, fun i => sphericalFromRect (px.val i) (py.val i) (pz.val i)⟩
  let pp := p.map fun x => x.2.1
  let pa := p.map fun x => x.2.2
  let F ← evalSphericalArr s (p.map Prod.fst) pp pa r0 rss
  resAssert (F.1.shape = px.shape)
  resAssert (F.2.1.shape = px.shape)
  resAssert (F.2.2.shape = px.shape)
  let rows := (F.1.flatten.zip (F.2.1.flatten.zip F.2.2.flatten)).zip (pp.flatten.zip pa.flatten)
  let xyz := rows.map fun q => toCartesian q.2.1 q.2.2 q.1.1 q.1.2.1 q.1.2.2
  let out := fun k : Fin 3 => Nd.reshape 0 px.shape (xyz.map fun v => v k)
  pure (F, out 0, out 1, out 2)

end Pfss
end Verif
