import Verif.Py.Basic
import Mathlib.Analysis.SpecialFunctions.Trigonometric.Basic
import Mathlib.Algebra.Order.Floor.Ring
import Mathlib.Data.Real.Sqrt

/-!
# Model of fibonacci_sphere.py

Exact arithmetic. The random offset (`random.random() * num_points`, line 20) is an argument; without randomisation it
is 1 (line 18).
-/

namespace Verif

/-- Python's `x % n` on floats (fibonacci_sphere.py:29). -/
noncomputable def pyFMod (x n : ℝ) : ℝ := x - n * ⌊x / n⌋

/-- Point `i` of `n` (fibonacci_sphere.py:26-34). -/
noncomputable def fibPoint (n : ℕ) (rnd : ℝ) (i : ℕ) : ℝ × ℝ × ℝ :=
  let offset : ℝ := 2 / n
  let increment := Real.pi * (3 - Real.sqrt 5)
  let y := (i * offset - 1) + offset / 2
  let r := Real.sqrt (1 - y ^ 2)
  let phi := pyFMod (i + rnd) n * increment
  (Real.cos phi * r, y, Real.sin phi * r)

/-- `fibonacci_sphere` (fibonacci_sphere.py:8-36): `np.empty` refuses negative sizes, `2. / 0` raises; `random` is the
value drawn by `random.random()`, if `randomize` is set. -/
noncomputable def fibonacciSphere (n : ℤ) (random : Option ℝ := none) : Res (List (ℝ × ℝ × ℝ)) := do
  if n < 0 then throw .value
  let rnd := random.elim 1 (· * n)
  if n = 0 then throw .zeroDiv
  pure ((List.range n.toNat).map (fibPoint n.toNat rnd))

end Verif
