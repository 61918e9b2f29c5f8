import Verif.Model.Image
import Verif.Spec.Harmonics
import Verif.Spec.Geometry

/-!
# C56: the cache of spherical harmonics
-/

namespace Verif
open Spec Geometry Image

namespace Spec

/-- The coordinates of `meshgrid`: azimuth varies with the first index, polar angle with the second. -/
structure IsMesh (azimuth polar : List (List ℝ)) : Prop where
  form : ∃ az pl : List ℝ, az ≠ [] ∧ pl ≠ [] ∧ azimuth = az.map (fun a => pl.map fun _ => a) ∧ polar = az.map fun _ => pl

/-- The arguments of one call. -/
structure HarmCall where
  m : ℤ
  l : ℤ
  azimuth : List (List ℝ)
  polar : List (List ℝ)

/-- A program that makes calls and keeps the arrays it gets: their addresses and the final state. -/
noncomputable def runHarm (Y : SphHarm) (N : ℕ) (c : Cache) : List HarmCall → Res (List ℕ × Cache)
  | [] => .ok ([], c)
  | q :: qs => do
    let (i, c) ← harmonic Y N q.m q.l q.azimuth q.polar c
    let (is, c) ← runHarm Y N c qs
    pure (i :: is, c)

end Spec

namespace Image

variable {Y : SphHarm}

/-- Every entry of the cache points to the right values. -/
def Cache.Good (Y : SphHarm) (c : Cache) : Prop := ∀ e ∈ c.entries, c.heap[e.2]? = some (body Y e.1)

theorem Cache.good_init : Cache.Good Y Cache.init := by simp [Cache.Good, Cache.init]

open Classical in
theorem call_cases (N : ℕ) (k : CKey) (c : Cache) :
    (∃ e ∈ c.entries, e.1 = k ∧
      Cache.call Y N k c = (e.2, ⟨c.heap, e :: c.entries.filter fun e' => decide (e'.1 ≠ k)⟩)) ∨
    Cache.call Y N k c = (c.heap.length, ⟨c.heap ++ [body Y k], ((k, c.heap.length) :: c.entries).take N⟩) := by
  unfold Cache.call
  split
  · rename_i e hf
    exact Or.inl ⟨e, List.mem_of_find?_eq_some hf, by simpa using List.find?_some hf, rfl⟩
  · exact Or.inr rfl

theorem call_spec (N : ℕ) (k : CKey) {c : Cache} (hc : c.Good Y) :
    (Cache.call Y N k c).2.Good Y ∧ (Cache.call Y N k c).2.heap[(Cache.call Y N k c).1]? = some (body Y k) ∧
      ∀ (i : ℕ) x, c.heap[i]? = some x → (Cache.call Y N k c).2.heap[i]? = some x := by
  rcases call_cases (Y := Y) N k c with ⟨e, he, hk, h⟩ | h
  · rw [h]
    refine ⟨?_, by simp only; rw [hc e he, hk], fun _ _ h => h⟩
    intro e' he'
    rcases List.mem_cons.1 he' with rfl | h
    · exact hc _ he
    · exact hc e' (List.mem_of_mem_filter h)
  · rw [h]
    have hold : ∀ (i : ℕ) x, c.heap[i]? = some x → (c.heap ++ [body Y k])[i]? = some x := by
      intro i x h
      obtain ⟨h1, _⟩ := List.getElem?_eq_some_iff.1 h
      rw [List.getElem?_append_left h1, h]
    refine ⟨?_, by simp, hold⟩
    intro e he
    rcases List.mem_cons.1 (List.mem_of_mem_take he) with rfl | h
    · simp
    · exact hold _ _ (hc e h)

theorem call_size (N : ℕ) (k : CKey) {c : Cache} (hc : c.entries.length ≤ N) :
    (Cache.call Y N k c).2.entries.length ≤ N := by
  classical
  rcases call_cases (Y := Y) N k c with ⟨e, he, hk, h⟩ | h
  · rw [h]
    have : (c.entries.filter fun e' => decide (e'.1 ≠ k)).length < c.entries.length := by
      rw [List.length_filter_lt_length_iff_exists]
      exact ⟨e, he, by simp [hk]⟩
    simp only [List.length_cons]
    refine le_trans ?_ hc
    convert Nat.succ_le_of_lt this
  · rw [h]; exact List.length_take_le _ _

theorem ckey_mesh {azimuth polar : Arr2 ℝ} {az pl : List ℝ} (h1 : az ≠ []) (h2 : pl ≠ [])
    (e1 : azimuth = az.map fun a => pl.map fun _ => a) (e2 : polar = az.map fun _ => pl) (m l : ℤ) :
    ckey m l azimuth polar = .ok (m, l, az, pl) := by
  subst e1 e2
  have : (az.map fun a => pl.map fun _ => a).mapM first = .ok az := by
    clear h1
    obtain ⟨p, pl, rfl⟩ := List.exists_cons_of_ne_nil h2
    induction az with
    | nil => rfl
    | cons a az ih =>
      rw [List.map_cons, List.mapM_cons, ih]
      rfl
  obtain ⟨a, az, rfl⟩ := List.exists_cons_of_ne_nil h1
  rw [ckey, this]
  rfl

theorem body_mesh (m l : ℤ) (az pl : List ℝ) :
    body Y (m, l, az, pl) = direct Y m l (az.map fun a => pl.map fun _ => a) (az.map fun _ => pl) := by
  simp only [body, direct, map2, List.zipWith_map, List.zipWith_self]
  apply List.map_congr_left
  intro a _
  rw [List.zipWith_map_left, List.zipWith_self]

theorem harmonic_mesh (N : ℕ) {azimuth polar : Arr2 ℝ} (h : IsMesh azimuth polar) (m l : ℤ) {c : Cache} (hc : c.Good Y) :
    ∃ (i : ℕ) (c' : Cache), harmonic Y N m l azimuth polar c = .ok (i, c') ∧ c'.Good Y ∧
      c'.heap[i]? = some (direct Y m l azimuth polar) ∧ ∀ (j : ℕ) x, c.heap[j]? = some x → c'.heap[j]? = some x := by
  obtain ⟨az, pl, h1, h2, e1, e2⟩ := h.form
  obtain ⟨g1, g2, g3⟩ := call_spec (Y := Y) N (m, l, az, pl) hc
  refine ⟨(Cache.call Y N (m, l, az, pl) c).1, (Cache.call Y N (m, l, az, pl) c).2, ?_, g1, ?_, g3⟩
  · rw [harmonic, ckey_mesh h1 h2 e1 e2]; rfl
  · rw [g2, body_mesh, e1, e2]

theorem run_spec (N : ℕ) (qs : List HarmCall) (hq : ∀ q ∈ qs, IsMesh q.azimuth q.polar) {c : Cache} (hc : c.Good Y) :
    ∃ (is : List ℕ) (c' : Cache), runHarm Y N c qs = .ok (is, c') ∧ c'.Good Y ∧ (∀ (j : ℕ) x, c.heap[j]? = some x → c'.heap[j]? = some x) ∧
      is.map (fun i => c'.heap[i]?) = qs.map fun q => some (direct Y q.m q.l q.azimuth q.polar) := by
  induction qs generalizing c with
  | nil => exact ⟨[], c, rfl, hc, fun _ _ h => h, rfl⟩
  | cons q qs ih =>
    obtain ⟨i, c1, e1, g1, v1, k1⟩ := harmonic_mesh N (hq q (by simp)) q.m q.l hc
    obtain ⟨is, c2, e2, g2, k2, v2⟩ := ih (fun q' h => hq q' (by simp [h])) g1
    refine ⟨i :: is, c2, ?_, g2, fun j x h => k2 j x (k1 j x h), ?_⟩
    · rw [runHarm, e1]
      show (do let (is, c) ← runHarm Y N c1 qs; pure (i :: is, c)) = _
      rw [e2]; rfl
    · rw [List.map_cons, List.map_cons, v2, k2 i _ v1]

end Image

/-- **C56.** The cache is transparent: for every capacity and every list of calls on meshgrid coordinates, so whatever has been evicted, the
arrays the caller holds in the end are those computed without the cache. -/
theorem C56_transparent (Y : SphHarm) (N : ℕ) (qs : List HarmCall) (hq : ∀ q ∈ qs, IsMesh q.azimuth q.polar) :
    ∃ is c, runHarm Y N Cache.init qs = .ok (is, c) ∧
      is.map (fun i => c.heap[i]?) = qs.map fun q => some (direct Y q.m q.l q.azimuth q.polar) := by
  obtain ⟨is, c, h1, _, _, h2⟩ := run_spec N qs hq (Cache.good_init (Y := Y))
  exact ⟨is, c, h1, h2⟩

/-- **C56.** At most as many entries as the capacity are kept. -/
theorem C56_bounded (Y : SphHarm) (N : ℕ) (qs : List HarmCall) (is : List ℕ) (c : Cache)
    (h : runHarm Y N Cache.init qs = .ok (is, c)) : c.entries.length ≤ N := by
  have key : ∀ (qs : List HarmCall) (c0 : Cache) (is : List ℕ) (c : Cache), c0.entries.length ≤ N →
      runHarm Y N c0 qs = .ok (is, c) → c.entries.length ≤ N := by
    intro qs
    induction qs with
    | nil => intro c0 is c h0 h; cases h; exact h0
    | cons q qs ih =>
      intro c0 is c h0 h
      rw [runHarm, harmonic] at h
      rcases hk : ckey q.m q.l q.azimuth q.polar with e | k
      · rw [hk] at h; cases h
      · rw [hk] at h
        change (do let (is, c) ← runHarm Y N (Cache.call Y N k c0).2 qs
                   pure ((Cache.call Y N k c0).1 :: is, c)) = _ at h
        rcases hr : runHarm Y N (Cache.call Y N k c0).2 qs with e | ⟨is', c'⟩
        · rw [hr] at h; cases h
        · rw [hr] at h
          cases h
          exact ih _ _ _ (call_size (Y := Y) N k h0) hr
  exact key qs _ is c (by simp [Cache.init]) h

/-- **C56.** The exception for other coordinates: only the first azimuth of every row and the first row of polar angles
are used. -/
theorem C56_other_coordinates (Y : SphHarm) (N : ℕ) (m l : ℤ) (azimuth polar : List (List ℝ)) (az pl : List ℝ)
    (rest : List (List ℝ)) (h1 : azimuth.map List.head? = az.map some) (h2 : polar = pl :: rest) :
    ∃ i c, harmonic Y N m l azimuth polar Cache.init = .ok (i, c) ∧
      c.heap[i]? = some (az.map fun a => pl.map fun p => Y m l a p) := by
  have hk : ckey m l azimuth polar = .ok (m, l, az, pl) := by
    have : azimuth.mapM first = .ok az := by
      clear h2
      induction azimuth generalizing az with
      | nil => cases az with
        | nil => rfl
        | cons => simp at h1
      | cons r rs ih => cases az with
        | nil => simp at h1
        | cons a az =>
          simp only [List.map_cons, List.cons.injEq] at h1
          obtain ⟨x, hx⟩ := List.head?_eq_some_iff.1 h1.1
          rw [hx, List.mapM_cons, ih az h1.2]
          rfl
    rw [ckey, this, h2]
    rfl
  obtain ⟨_, g2, _⟩ := call_spec (Y := Y) N (m, l, az, pl) Cache.good_init
  exact ⟨(Cache.call Y N (m, l, az, pl) Cache.init).1, (Cache.call Y N (m, l, az, pl) Cache.init).2,
    by rw [harmonic, hk]; rfl, g2⟩

/-- **C56.** The exception for callers that write into the array they got: the next call returns what was written. -/
theorem C56_write_corrupts (Y : SphHarm) (N : ℕ) (hN : 0 < N) (m l : ℤ) (azimuth polar : List (List ℝ)) (h : IsMesh azimuth polar)
    (x : List (List ℂ)) :
    ∃ i c c', harmonic Y N m l azimuth polar Cache.init = .ok (i, c) ∧
      harmonic Y N m l azimuth polar (Cache.write i x c) = .ok (i, c') ∧ c'.heap[i]? = some x := by
  obtain ⟨az, pl, h1, h2, e1, e2⟩ := h.form
  have hk := ckey_mesh h1 h2 e1 e2 m l
  have c1 : Cache.call Y N (m, l, az, pl) Cache.init = (0, ⟨[body Y (m, l, az, pl)], [((m, l, az, pl), 0)]⟩) := by
    obtain ⟨n, rfl⟩ := Nat.exists_eq_succ_of_ne_zero hN.ne'
    simp [Cache.call, Cache.init]
  refine ⟨0, ⟨[body Y (m, l, az, pl)], [((m, l, az, pl), 0)]⟩, ⟨[x], [((m, l, az, pl), 0)]⟩, ?_, ?_, rfl⟩
  · rw [harmonic, hk]
    show Except.ok _ = _
    rw [c1]
  · rw [harmonic, hk]
    show Except.ok _ = _
    simp [Cache.call, Cache.write]

/-- A mesh with two azimuths and two polar angles. -/
example : IsMesh [[0, 0], [1, 1]] [[1, 2], [1, 2]] := ⟨⟨[0, 1], [1, 2], by simp, by simp, by simp, by simp⟩⟩

/-- Coordinates of two scattered points, given as one row: with the cache both get the azimuth of the first. Here for a
function that returns the azimuth. -/
example : ∃ i c, harmonic (fun _ _ a _ => (a : ℂ)) maxsize 0 0 [[0, 1]] [[1, 2]] Cache.init = .ok (i, c) ∧
    c.heap[i]? = some [[0, 0]] ∧ direct (fun _ _ a _ => (a : ℂ)) 0 0 [[0, 1]] [[1, 2]] = [[0, 1]] := by
  obtain ⟨i, c, h1, h2⟩ := C56_other_coordinates (fun _ _ a _ => (a : ℂ)) maxsize 0 0 [[0, 1]] [[1, 2]] [0] [1, 2] [] rfl rfl
  exact ⟨i, c, h1, by simpa using h2, by simp [direct, map2]⟩

end Verif
