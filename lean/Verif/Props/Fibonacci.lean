import Verif.Model.Fibonacci

/-!
# C50: points on a Fibonacci sphere
-/

namespace Verif

theorem fib_height (n : ℕ) (rnd : ℝ) (i : ℕ) : (fibPoint n rnd i).2.1 = (2 * i + 1) / n - 1 := by
  simp only [fibPoint]; ring

theorem fib_height_sq {n : ℕ} {i : ℕ} (hi : i < n) : (((2 * i + 1) / n - 1 : ℝ)) ^ 2 < 1 := by
  have hn : (0 : ℝ) < n := by exact_mod_cast (by omega : 0 < n)
  have hi' : (i : ℝ) + 1 ≤ n := by exact_mod_cast hi
  have h1 : 0 < (2 * i + 1) / (n : ℝ) := by positivity
  have h2 : (2 * i + 1) / (n : ℝ) < 2 := by rw [div_lt_iff₀ hn]; linarith
  nlinarith

/-- **C50.** For every positive number of points, randomised or not, as many points come out. -/
theorem C50_count (n : ℤ) (hn : 0 < n) (random : Option ℝ) :
    ∃ ps, fibonacciSphere n random = .ok ps ∧ (ps.length : ℤ) = n := by
  rw [fibonacciSphere, if_neg (by omega), if_neg (by omega)]
  exact ⟨_, rfl, by simp; omega⟩

private theorem get {n : ℤ} {random : Option ℝ} {ps : List (ℝ × ℝ × ℝ)} (h : fibonacciSphere n random = .ok ps) {i : ℕ}
    (hi : i < ps.length) : ∃ rnd, ps[i] = fibPoint n.toNat rnd i ∧ i < n.toNat ∧ ps.length = n.toNat := by
  rw [fibonacciSphere] at h
  by_cases h1 : n < 0
  · rw [if_pos h1] at h; cases h
  · rw [if_neg h1] at h
    by_cases h2 : n = 0
    · rw [if_pos h2] at h; cases h
    · rw [if_neg h2] at h
      obtain rfl := Except.ok.inj h
      simp only [List.length_map, List.length_range] at hi
      exact ⟨random.elim 1 (· * (n : ℝ)), by simp only [List.getElem_map, List.getElem_range], hi, by simp⟩

/-- **C50.** All points lie on the unit sphere. -/
theorem C50_unit_sphere (n : ℤ) (random : Option ℝ) (ps : List (ℝ × ℝ × ℝ)) (h : fibonacciSphere n random = .ok ps)
    (p : ℝ × ℝ × ℝ) (hp : p ∈ ps) : p.1 ^ 2 + p.2.1 ^ 2 + p.2.2 ^ 2 = 1 := by
  obtain ⟨i, hi, rfl⟩ := List.getElem_of_mem hp
  obtain ⟨rnd, e, hi', _⟩ := get h hi
  rw [e]
  have hy := fib_height n.toNat rnd i
  have hs := Real.sq_sqrt (sub_nonneg.2 (fib_height_sq hi').le)
  rw [← hy] at hs
  have hsc := Real.sin_sq_add_cos_sq (pyFMod (i + rnd) n.toNat * (Real.pi * (3 - Real.sqrt 5)))
  simp only [fibPoint] at hs ⊢
  linear_combination (Real.sqrt (1 - (i * (2 / (n.toNat : ℝ)) - 1 + 2 / (n.toNat : ℝ) / 2) ^ 2)) ^ 2 * hsc + hs

/-- **C50.** Heights: point `i` is at `(2i + 1)/n - 1`. So they rise in steps of `2/n` from `-1 + 1/n` to `1 - 1/n`. -/
theorem C50_heights (n : ℤ) (random : Option ℝ) (ps : List (ℝ × ℝ × ℝ)) (h : fibonacciSphere n random = .ok ps) :
    (∀ (i : ℕ) (hi : i < ps.length), ps[i].2.1 = (2 * i + 1) / n - 1) ∧
    (∀ (i : ℕ) (hi : i + 1 < ps.length), ps[i + 1].2.1 = ps[i].2.1 + 2 / n) ∧
    (∀ hne : ps ≠ [], (ps.head hne).2.1 = -1 + 1 / n ∧ (ps.getLast hne).2.1 = 1 - 1 / n) := by
  have key : ∀ (i : ℕ) (hi : i < ps.length), ps[i].2.1 = (2 * i + 1) / n - 1 := by
    intro i hi
    obtain ⟨rnd, e, hi', _⟩ := get h hi
    rw [e, fib_height]
    have : ((n.toNat : ℕ) : ℝ) = (n : ℝ) := by
      have : ((n.toNat : ℕ) : ℤ) = n := by omega
      exact_mod_cast this
    rw [this]
  refine ⟨key, fun i hi => ?_, fun hne => ?_⟩
  · rw [key, key]; push_cast; ring
  · have hpos := List.length_pos_iff.2 hne
    obtain ⟨_, _, hl, hlen⟩ := get h hpos
    have hn : (n : ℝ) = (ps.length : ℝ) := by
      have : n = (ps.length : ℤ) := by omega
      exact_mod_cast this
    have hn0 : (n : ℝ) ≠ 0 := by rw [hn]; exact_mod_cast hpos.ne'
    rw [List.head_eq_getElem, List.getLast_eq_getElem, key, key]
    refine ⟨by push_cast; ring, ?_⟩
    rw [Nat.cast_sub hpos, ← hn]; field_simp; push_cast; ring

/-- **C50.** The points are distinct. -/
theorem C50_distinct (n : ℤ) (random : Option ℝ) (ps : List (ℝ × ℝ × ℝ)) (h : fibonacciSphere n random = .ok ps) :
    ps.Nodup := by
  rw [List.nodup_iff_injective_get]
  intro i j hij
  have h1 := (C50_heights n random ps h).1 i i.2
  have h2 := (C50_heights n random ps h).1 j j.2
  obtain ⟨_, _, hl, _⟩ := get h i.2
  have hn : (n : ℝ) ≠ 0 := by
    have : n ≠ 0 := by omega
    exact_mod_cast this
  simp only [List.get_eq_getElem] at hij
  rw [hij, h2] at h1
  have h3 : ((2 * (j : ℕ) + 1 : ℝ)) / n = (2 * (i : ℕ) + 1) / n := by linarith
  rw [div_left_inj' hn] at h3
  have h4 : ((j : ℕ) : ℝ) = ((i : ℕ) : ℝ) := by linarith
  exact Fin.ext (by exact_mod_cast h4.symm)

/-- **C50.** No point is one of the poles of the `y` axis, and successive points turn by the golden angle, up to the
wrap-around of the offset, which keeps the number of turns below `n`. -/
theorem C50_golden_angle (n : ℤ) (random : Option ℝ) (ps : List (ℝ × ℝ × ℝ)) (h : fibonacciSphere n random = .ok ps)
    (i : ℕ) (hi : i < ps.length) :
    ∃ (r : ℝ) (k : ℤ), 0 < r ∧ r ^ 2 = 1 - ps[i].2.1 ^ 2 ∧
      let turns := (i : ℝ) + random.elim 1 (· * (n : ℝ)) - k * n
      let φ := turns * (Real.pi * (3 - Real.sqrt 5))
      0 ≤ turns ∧ turns < n ∧ ps[i].1 = r * Real.cos φ ∧ ps[i].2.2 = r * Real.sin φ := by
  have hh := (C50_heights n random ps h).1 i hi
  have hn := (get h hi).choose_spec.2
  have hnr : ((n.toNat : ℕ) : ℝ) = (n : ℝ) := by
    have : ((n.toNat : ℕ) : ℤ) = n := by omega
    exact_mod_cast this
  have hsq := fib_height_sq hn.1
  rw [hnr, ← hh] at hsq
  have hp : ps[i] = fibPoint n.toNat (random.elim 1 (· * (n : ℝ))) i := by
    rw [fibonacciSphere, if_neg (by omega), if_neg (by omega)] at h
    obtain rfl := Except.ok.inj h
    simp only [List.getElem_map, List.getElem_range]
  refine ⟨Real.sqrt (1 - ps[i].2.1 ^ 2), ⌊((i : ℝ) + random.elim 1 (· * (n : ℝ))) / n⌋,
    Real.sqrt_pos.2 (by linarith), Real.sq_sqrt (by linarith), ?_⟩
  rw [hp]
  have hn0 : (0 : ℝ) < n := by
    have : 0 < n := by omega
    exact_mod_cast this
  have f1 := Int.floor_le (((i : ℝ) + random.elim 1 (· * (n : ℝ))) / n)
  have f2 := Int.lt_floor_add_one (((i : ℝ) + random.elim 1 (· * (n : ℝ))) / n)
  rw [le_div_iff₀ hn0] at f1
  rw [div_lt_iff₀ hn0] at f2
  simp only [fibPoint, pyFMod, hnr]
  refine ⟨by linarith, by linarith, ?_, ?_⟩
  · rw [mul_comm (Real.cos _)]; congr 3; ring
  · rw [mul_comm (Real.sin _)]; congr 3; ring

/-- **C50.** Without points the code divides by zero; a negative number is a ValueError. -/
theorem C50_errors (n : ℤ) (random : Option ℝ) :
    (n < 0 → fibonacciSphere n random = .error .value) ∧ fibonacciSphere 0 random = .error .zeroDiv := by
  refine ⟨fun h => by rw [fibonacciSphere, if_pos h]; rfl, by rw [fibonacciSphere, if_neg (by omega), if_pos rfl]; rfl⟩

/-- Three points with a random offset. -/
example : ∃ ps, fibonacciSphere 3 (some 0.25) = .ok ps ∧ ps.length = 3 ∧ ps.Nodup := by
  obtain ⟨ps, h, hl⟩ := C50_count 3 (by norm_num) (some 0.25)
  exact ⟨ps, h, by exact_mod_cast hl, C50_distinct _ _ _ h⟩

end Verif
