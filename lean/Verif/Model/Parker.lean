import Verif.Py.Basic
import Mathlib.Analysis.SpecialFunctions.Log.Basic
import Mathlib.Analysis.SpecialFunctions.Exponential
import Mathlib.Analysis.SpecialFunctions.Trigonometric.Basic
import Mathlib.Algebra.Order.Floor.Ring
import Mathlib.Logic.Function.Basic

/-!
# Model of parker_solution.py

Exact real arithmetic. `scipy.special.lambertw(x, k)` is the real solution `w` of `w e^w = x` on the branch asked for
(`w ≥ -1` for `k = 0`, `w ≤ -1` for `k = -1`), which exists for `-1/e ≤ x < 0`; all arguments of the code lie there
(`C51`). `np.real_if_close` does nothing to real numbers. Arrays are one-dimensional. `speed_surface` is an array with
one entry; the model keeps the entry. The physical constants are parameters. `__str__` is in `Model.ParkerText`.
-/

namespace Verif
namespace Parker

/-- `scipy.special.lambertw(x, k)` for `k` 0 or -1 and real `-1/e ≤ x < 0` (parker_solution.py:49, 52). -/
noncomputable def lambertW (k : ℤ) (x : ℝ) : ℝ := open Classical in
  if h : ∃ w : ℝ, w * Real.exp w = x ∧ if k = 0 then -1 ≤ w else w ≤ -1 then h.choose else 0

/-- `parker_lhs` (parker_solution.py:8-15). -/
noncomputable def lhs (u : ℝ) : ℝ := u ^ 2 - 1 - 2 * Real.log u

/-- `parker_rhs` (parker_solution.py:17-24). -/
noncomputable def rhs (r : ℝ) : ℝ := 4 * Real.log r + 4 * (1 / r - 1)

/-- `_branch` (parker_solution.py:42-46). -/
noncomputable def branch (r : ℝ) : ℤ := open Classical in if r < 1 then 0 else -1

/-- `find_parker_analytic` with `all_sols=False` (parker_solution.py:26-50). -/
noncomputable def find (r : ℝ) : ℝ := Real.sqrt (-lambertW (branch r) (-Real.exp (-rhs r - 1)))

/-- `find_parker_analytic` with `all_sols=True` (parker_solution.py:51-54). -/
noncomputable def findAll (r : ℝ) : ℝ × ℝ :=
  (Real.sqrt (-lambertW 0 (-Real.exp (-rhs r - 1))), Real.sqrt (-lambertW (-1) (-Real.exp (-rhs r - 1))))

/-- The constants of scipy.constants used (parker_solution.py:77-79). -/
structure Consts where
  G : ℝ
  protonMass : ℝ
  kB : ℝ

/-- The constructor arguments of `ParkerSolution` (parker_solution.py:59-75). -/
structure Star where
  temperature : ℝ
  baseDensity : ℝ
  radius : ℝ
  mass : ℝ

variable (c : Consts) (s : Star)

/-- `radius_sonic` (parker_solution.py:82). -/
noncomputable def radiusSonic : ℝ := c.G * s.mass * c.protonMass / (4 * s.temperature * c.kB)

/-- `speed_sonic` (parker_solution.py:83). -/
noncomputable def speedSonic : ℝ := Real.sqrt (2 * c.kB * s.temperature / c.protonMass)

/-- A numpy array of floats, or of integers (then all entries are integers) (parker_solution.py:102, 115). -/
structure Arr where
  isInt : Bool
  data : List ℝ

/-- Storing a float into an array element (parker_solution.py:103, 116). -/
noncomputable def Arr.stored (a : Arr) (x : ℝ) : ℝ := if a.isInt then (if 0 ≤ x then (⌊x⌋ : ℝ) else ⌈x⌉) else x

/-- The caller's arrays (parker_solution.py:102, 115). -/
abbrev Heap := ℕ → Arr

/-- The argument `radii`: a number or list (`np.atleast_1d` makes a new array of it), or an array of the caller
(`np.atleast_1d` returns it, or a view of it) (parker_solution.py:102, 115). -/
inductive RadArg
  | fresh (a : Arr)
  | array (i : ℕ)

/-- The array an argument stands for (parker_solution.py:102, 115). -/
def RadArg.contents (h : Heap) : RadArg → Arr
  | fresh a => a
  | array i => h i

/-- `radii[np.where(radii <= R)] = R` (parker_solution.py:103, 116). -/
noncomputable def clamp (R : ℝ) (a : Arr) : Arr := open Classical in
  { a with data := a.data.map fun x => if x ≤ R then a.stored R else x }

/-- The first two lines of `speed` and `density` (parker_solution.py:102-103, 115-116): the array and the heap after the
assignment. -/
noncomputable def prepare (R : ℝ) (h : Heap) : RadArg → Arr × Heap
  | .fresh a => (clamp R a, h)
  | .array i => (clamp R (h i), Function.update h i (clamp R (h i)))

/-- The rest of `speed` (parker_solution.py:105-107); `np.vectorize` refuses empty arrays. -/
noncomputable def speedOf (a : Arr) : Res (List ℝ) :=
  if a.data = [] then .error .value
  else .ok (a.data.map fun r => find (r / radiusSonic c s) * speedSonic c s)

/-- `speed` (parker_solution.py:96-107). -/
noncomputable def speed (h : Heap) (arg : RadArg) : Res (List ℝ) × Heap :=
  let (a, h') := prepare s.radius h arg
  (speedOf c s a, h')

/-- `speed_surface` (parker_solution.py:86): the speed for the python number `stellar_radius`. -/
noncomputable def speedSurface : ℝ := find (s.radius / radiusSonic c s) * speedSonic c s

/-- `density_sonic` (parker_solution.py:87-89). -/
noncomputable def densitySonic : ℝ :=
  s.baseDensity * (radiusSonic c s / s.radius) ^ (-2 : ℤ) * (speedSonic c s / speedSurface c s) ^ (-1 : ℤ)

/-- `density` (parker_solution.py:109-123). The inner call of `speed` gets the same array and writes to it again. -/
noncomputable def density (h : Heap) (arg : RadArg) : Res (List ℝ) × Heap :=
  let (a, h') := prepare s.radius h arg
  let arg' := match arg with
    | .fresh _ => RadArg.fresh a
    | .array i => .array i
  let (sp, h'') := speed c s h' arg'
  let a' := (prepare s.radius h' arg').1
  (do
    let v ← sp
    pure (List.zipWith (fun r v => s.baseDensity * (r / s.radius) ^ (-2 : ℤ) * (v / speedSurface c s) ^ (-1 : ℤ)) a'.data v),
   h'')

/-- `total_mass_flux` (parker_solution.py:125-132). -/
noncomputable def totalMassFlux : ℝ := 4 * Real.pi * radiusSonic c s ^ 2 * speedSonic c s * densitySonic c s

end Parker
end Verif
