import Verif.Model.Noise
import Verif.Props.Container
import Verif.Props.Pfss

/-!
# C84: random coefficient sets
-/

namespace Verif
open Spec Coefs Noise
namespace Noise

/-- Number of pairs of degree less than `l` with orders from 0. -/
def tri (l : ℤ) : ℕ := l.toNat * (l.toNat + 1) / 2

/-- The position of a pair in the loops. -/
def pos (lo : ℤ) (k : Key) : ℕ := tri k.1 - tri lo + k.2.toNat

theorem tri_neg {l : ℤ} (h : l ≤ 0) : tri l = 0 := by
  rw [tri, Int.toNat_of_nonpos h]

theorem tri_two (l : ℤ) (h : 0 ≤ l) : 2 * (tri l : ℤ) = l * (l + 1) := by
  obtain ⟨n, rfl⟩ := Int.eq_ofNat_of_zero_le h
  have h2 : 2 * tri n = n * (n + 1) := by
    rw [tri, Int.toNat_natCast, Nat.mul_div_cancel' (Nat.even_mul_succ_self n).two_dvd]
  exact_mod_cast h2

theorem tri_succ {l : ℤ} (h : 0 ≤ l) : tri (l + 1) = tri l + l.toNat + 1 := by
  have h1 := tri_two l h
  have h2 := tri_two (l + 1) (by omega)
  have : l.toNat = l := Int.toNat_of_nonneg h
  have : (2 : ℤ) * tri (l + 1) = 2 * (tri l + l.toNat + 1) := by rw [h2, this]; linarith
  omega

theorem tri_mono {a b : ℤ} (h : a ≤ b) : tri a ≤ tri b := by
  rw [tri, tri]
  have := Int.toNat_le_toNat h
  gcongr

theorem pyRange_snoc (a : ℤ) (n : ℕ) : pyRange a (a + (n + 1 : ℕ)) = pyRange a (a + n) ++ [a + n] := by
  simp [pyRange, List.range_succ]

theorem keys_pos (lo : ℤ) (n : ℕ) : (loopKeys lo (lo + n - 1)).length = tri (lo + n) - tri lo ∧
    (loopKeys lo (lo + n - 1)).map (pos lo) = List.range (tri (lo + n) - tri lo) := by
  induction n with
  | zero => simp [loopKeys, pyRange]
  | succ n ih =>
    have e : loopKeys lo (lo + (n + 1 : ℕ) - 1) = loopKeys lo (lo + n - 1) ++ (pyRange 0 (lo + n + 1)).map fun m => (lo + n, m) := by
      rw [loopKeys, loopKeys, sub_add_cancel, sub_add_cancel, pyRange_snoc, List.flatMap_append]
      simp
    rw [e, List.length_append, List.map_append, ih.1, ih.2]
    by_cases h : 0 ≤ lo + n
    · have h1 : tri (lo + (n + 1 : ℕ)) = tri (lo + n) + (lo + n).toNat + 1 := by
        rw [← tri_succ h]; congr 1; push_cast; ring
      have h2 := tri_mono (show lo ≤ lo + n by omega)
      have h3 : (lo + (n : ℤ) + 1 - 0).toNat = (lo + n).toNat + 1 := by omega
      constructor
      · rw [List.length_map, pyRange_length]; omega
      · rw [h1, show tri (lo + n) + (lo + n).toNat + 1 - tri lo = (tri (lo + n) - tri lo) + ((lo + n).toNat + 1) by omega,
          List.range_add, pyRange, h3, List.map_map, List.map_map]
        congr 1
        apply List.map_congr_left
        intro i _
        simp [pos]
    · have h1 : pyRange 0 (lo + n + 1) = [] := by
        rw [pyRange, show (lo + (n : ℤ) + 1 - 0).toNat = 0 by omega]; rfl
      rw [h1, tri_neg (show lo + n ≤ 0 by omega), tri_neg (show lo + (n + 1 : ℕ) ≤ 0 by push_cast; omega)]
      simp

theorem mem_loopKeys (lo hi : ℤ) (k : Key) : k ∈ loopKeys lo hi ↔ lo ≤ k.1 ∧ k.1 ≤ hi ∧ 0 ≤ k.2 ∧ k.2 ≤ k.1 := by
  rw [loopKeys, List.mem_flatMap]
  constructor
  · rintro ⟨l, hl, hk⟩
    obtain ⟨m, hm, rfl⟩ := List.mem_map.1 hk
    rw [mem_pyRange] at hl hm
    simp only
    omega
  · rintro ⟨h1, h2, h3, h4⟩
    exact ⟨k.1, mem_pyRange.2 (by omega), List.mem_map.2 ⟨k.2, mem_pyRange.2 (by omega), rfl⟩⟩

/-- The loops as appends. -/
theorem fold_eq (draw : ℕ → ℝ × ℝ) (beta : ℝ) (p : Key → ℕ) (c : Key → ℂ) (ks : List Key) (s : Coefs ℂ) (n : ℕ)
    (hp : ks.map p = List.range' n ks.length) (hc : ∀ k ∈ ks, coefOf k.1 beta (draw (p k)) = .ok (c k)) :
    ks.foldlM (step draw beta) (s, n) = (appendAll s (ks.map fun k => intRow k [c k])).map fun s => (s, n + ks.length) := by
  induction ks generalizing s n with
  | nil => rfl
  | cons k ks ih =>
    rw [List.map_cons, List.length_cons, List.range'_succ, List.cons.injEq] at hp
    rw [List.foldlM_cons, List.map_cons, intRow, appendAll, step]
    have h0 := hc k List.mem_cons_self
    rw [hp.1] at h0
    rw [h0]
    simp only [bind, Except.bind]
    rcases Coefs.append (.int k.1) (.int k.2) [c k] s with ⟨⟨⟩, s1⟩ | ⟨e, s1⟩
    · have := ih s1 (n + 1) hp.2 fun k' h => hc k' (List.mem_cons_of_mem _ h)
      simp only [this, List.length_cons]
      rw [show n + 1 + ks.length = n + (ks.length + 1) by omega]
    · rfl

/-- The coefficient of the pair `l, m`. -/
noncomputable def val (draw : ℕ → ℝ × ℝ) (lo : ℤ) (beta : ℝ) (k : Key) : ℂ :=
  ((draw (pos lo k)).1 + Complex.I * (draw (pos lo k)).2) / (2 * k.1 + 1) / (((k.1 : ℝ) ^ beta : ℝ) : ℂ)

theorem keys_pos' (lo hi : ℤ) : (loopKeys lo hi).map (pos lo) = List.range (loopKeys lo hi).length ∧
    (loopKeys lo hi).length = tri (hi + 1) - tri lo := by
  by_cases h : lo ≤ hi + 1
  · have := keys_pos lo (hi + 1 - lo).toNat
    rw [show lo + ((hi + 1 - lo).toNat : ℤ) = hi + 1 by omega, show hi + 1 - 1 = hi by ring] at this
    rw [this.1, this.2]
    exact ⟨rfl, rfl⟩
  · have e : loopKeys lo hi = [] := by
      rw [List.eq_nil_iff_forall_not_mem]
      intro k hk
      rw [mem_loopKeys] at hk
      omega
    have := tri_mono (show hi + 1 ≤ lo by omega)
    rw [e]
    exact ⟨rfl, by simp only [List.length_nil]; omega⟩

theorem keys_nodup (lo hi : ℤ) : (loopKeys lo hi).Nodup := by
  have h := (keys_pos' lo hi).1
  exact List.Nodup.of_map (pos lo) (by rw [h]; exact List.nodup_range)

theorem noise_ok (draw : ℕ → ℝ × ℝ) (lo hi : ℤ) (beta : ℝ) (h : beta = 0 ∨ 1 ≤ lo ∨ hi < 0) :
    ∃ s, noise draw lo hi beta = .ok s ∧ s.WF ∧ s.keys = loopKeys lo hi ∧ s.dflt = [0] ∧ s.dtype = .cplx ∧
      ∀ k ∈ loopKeys lo hi, s.getI k = [val draw lo beta k] := by
  obtain ⟨s, e1, e2, e3, e4, e5, e6⟩ := build_ok (α := ℂ) [0] .cplx (by simp [ElemRing.cast_zero]) (loopKeys lo hi)
    (fun k => [val draw lo beta k]) (keys_nodup lo hi) (by
      intro k hk
      rw [mem_loopKeys] at hk
      rw [abs_of_nonneg hk.2.2.1]
      exact hk.2.2.2) (by simp)
  refine ⟨s, ?_, e2, e3, e4, e5, fun k hk => ?_⟩
  · rw [noise, fold_eq draw beta (pos lo) (val draw lo beta) _ _ 0 (by rw [(keys_pos' lo hi).1, List.range_eq_range']), e1]
    · rfl
    · intro k hk
      rw [mem_loopKeys] at hk
      rw [coefOf, if_neg]
      · rfl
      · rintro ⟨h1, h2⟩
        rcases h with h | h | h
        · exact h2 h
        · omega
        · omega
  · rw [e6, if_pos hk]; rfl

end Noise

/-- **C84.** The set has the pairs of degrees `degree_min` to `degree_max` and orders from 0; the coefficient of degree `l` is
a draw divided by `2 l + 1` and by `l ** beta`. Every pair has its own draw, in order of degree, then order. -/
theorem C84_values (draw : ℕ → ℝ × ℝ) (lo hi : ℤ) (beta : ℝ) (h : beta = 0 ∨ 1 ≤ lo ∨ hi < 0) :
    ∃ s, noise draw lo hi beta = .ok s ∧ WellFormed s ∧ s.dflt = [0] ∧
      (∀ l m : ℤ, stores s l m ↔ lo ≤ l ∧ l ≤ hi ∧ 0 ≤ m ∧ m ≤ l) ∧
      ∀ l m : ℤ, stores s l m → ∃ i : ℕ, 2 * (i : ℤ) = l * (l + 1) - max lo 0 * (max lo 0 + 1) + 2 * m ∧
        valueAt s l m = [((draw i).1 + Complex.I * (draw i).2) / (2 * l + 1) / (((l : ℝ) ^ beta : ℝ) : ℂ)] := by
  obtain ⟨s, e1, e2, e3, e4, e5, e6⟩ := noise_ok draw lo hi beta h
  have hs : ∀ l m : ℤ, stores s l m ↔ lo ≤ l ∧ l ≤ hi ∧ 0 ≤ m ∧ m ≤ l := by
    intro l m
    rw [stores, has_int, e3, mem_loopKeys]
  refine ⟨s, e1, wellFormed_of_WF e2, e4, hs, fun l m hl => ⟨pos lo (l, m), ?_, ?_⟩⟩
  · have hb := (hs l m).1 hl
    have h1 : tri lo ≤ tri l := tri_mono hb.1
    have h2 : tri lo = tri (max lo 0) := by
      rcases le_total 0 lo with h0 | h0
      · rw [max_eq_left h0]
      · rw [max_eq_right h0, tri_neg h0, tri_neg (le_refl 0)]
    have h3 := tri_two l (by omega)
    have h4 := tri_two (max lo 0) (le_max_right _ _)
    rw [pos, ← h3, ← h4, ← h2]
    simp only
    push_cast [Nat.cast_sub h1]
    rw [Int.toNat_of_nonneg hb.2.2.1]
    ring
  · have hk : (l, m) ∈ loopKeys lo hi := by rw [mem_loopKeys]; exact (hs l m).1 hl
    show s.getI (l, m) = _
    rw [e6 _ hk, val]

/-- **C84.** If there is a degree the set can be used as a potential field. -/
theorem C84_radial (draw : ℕ → ℝ × ℝ) (lo hi : ℤ) (beta : ℝ) (h : beta = 0 ∨ 1 ≤ lo) (h1 : lo ≤ hi) (h2 : 0 ≤ hi) :
    ∃ s, noise draw lo hi beta = .ok s ∧ RadialSet s := by
  obtain ⟨s, e1, e2, e3, e4, -⟩ := C84_values draw lo hi beta (h.imp id Or.inl)
  refine ⟨s, e1, e2, by rw [e3]; rfl, ⟨hi, 0, ?_⟩, fun l m hm => ?_⟩
  · rw [e4]; omega
  · rw [e4] at hm; exact hm.2.2.1

/-- **C84.** From the same draws `beta` divides the coefficients by `l ** beta`. -/
theorem C84_beta (draw : ℕ → ℝ × ℝ) (lo hi : ℤ) (beta : ℝ) (h : 1 ≤ lo) :
    ∃ s t, noise draw lo hi beta = .ok s ∧ noise draw lo hi 0 = .ok t ∧
      ∀ l m : ℤ, (stores s l m ↔ stores t l m) ∧ coef s l m * (((l : ℝ) ^ beta : ℝ) : ℂ) = coef t l m := by
  obtain ⟨s, e1, -, ed, e2, e3⟩ := C84_values draw lo hi beta (Or.inr (Or.inl h))
  obtain ⟨t, f1, -, fd, f2, f3⟩ := C84_values draw lo hi 0 (Or.inl rfl)
  refine ⟨s, t, e1, f1, fun l m => ⟨by rw [e2, f2], ?_⟩⟩
  by_cases hl : stores s l m
  · obtain ⟨i, hi1, hi2⟩ := e3 l m hl
    obtain ⟨j, hj1, hj2⟩ := f3 l m (by rw [f2, ← e2]; exact hl)
    have : i = j := by omega
    subst this
    have h1 : 1 ≤ l := h.trans ((e2 l m).1 hl).1
    have h2 : (((l : ℝ) ^ beta : ℝ) : ℂ) ≠ 0 := by
      have : (0 : ℝ) < (l : ℝ) ^ beta := Real.rpow_pos_of_pos (by exact_mod_cast h1) _
      exact_mod_cast this.ne'
    rw [Spec.coef, Spec.coef, hi2, hj2]
    simp only [List.headD_cons, Real.rpow_zero, Complex.ofReal_one, div_one]
    field_simp
  · have hl' : ¬stores t l m := by rw [f2, ← e2]; exact hl
    rw [stores, has_int] at hl hl'
    have hs : valueAt s l m = [0] := (getI_of_not_mem s (l, m) hl).trans ed
    have ht : valueAt t l m = [0] := (getI_of_not_mem t (l, m) hl').trans fd
    rw [Spec.coef, Spec.coef, hs, ht]
    simp

/-- **C84.** From the same draws a higher `degree_max` only adds degrees. -/
theorem C84_extend (draw : ℕ → ℝ × ℝ) (lo hi hi' : ℤ) (beta : ℝ) (h : beta = 0 ∨ 1 ≤ lo) (hh : hi ≤ hi') :
    ∃ s t, noise draw lo hi beta = .ok s ∧ noise draw lo hi' beta = .ok t ∧
      ∀ l m : ℤ, stores s l m → stores t l m ∧ valueAt t l m = valueAt s l m := by
  obtain ⟨s, e1, -, ed, e2, e3⟩ := C84_values draw lo hi beta (h.imp id Or.inl)
  obtain ⟨t, f1, -, fd, f2, f3⟩ := C84_values draw lo hi' beta (h.imp id Or.inl)
  refine ⟨s, t, e1, f1, fun l m hl => ?_⟩
  have hb := (e2 l m).1 hl
  have ht : stores t l m := (f2 l m).2 ⟨hb.1, hb.2.1.trans hh, hb.2.2⟩
  obtain ⟨i, hi1, hi2⟩ := e3 l m hl
  obtain ⟨j, hj1, hj2⟩ := f3 l m ht
  have : i = j := by omega
  subst this
  exact ⟨ht, by rw [hi2, hj2]⟩

/-- **C84 (violated).** With degree 0 and `beta` other than 0 there is no set. -/
theorem C84_monopole (draw : ℕ → ℝ × ℝ) (lo hi : ℤ) (beta : ℝ) (hb : beta ≠ 0) (h1 : lo ≤ 0) (h2 : 0 ≤ hi) :
    noise draw lo hi beta = .error .zeroDiv := by
  have e : loopKeys lo hi = (0, 0) :: loopKeys 1 hi := by
    have e0 : loopKeys lo hi = loopKeys lo (-1) ++ loopKeys 0 hi := by
      rw [loopKeys, loopKeys, loopKeys, ← List.flatMap_append]
      congr 1
      rw [pyRange, pyRange, pyRange, show (hi + 1 - lo).toNat = (-1 + 1 - lo).toNat + (hi + 1 - 0).toNat by omega, List.range_add,
        List.map_append, List.map_map]
      congr 1
      apply List.map_congr_left
      intro i _
      simp only [Function.comp]
      push_cast
      omega
    have e1 : loopKeys lo (-1) = [] := by
      rw [List.eq_nil_iff_forall_not_mem]
      intro k hk
      rw [mem_loopKeys] at hk
      omega
    rw [e0, e1, List.nil_append, loopKeys, loopKeys]
    have e2 : pyRange 0 (hi + 1) = 0 :: pyRange 1 (hi + 1) := by
      rw [pyRange, pyRange, show (hi + 1 - 0).toNat = (hi + 1 - 1).toNat + 1 by omega, List.range_succ_eq_map, List.map_cons,
        List.map_map]
      congr 1
      apply List.map_congr_left
      intro i _
      simp only [Function.comp]
      push_cast
      omega
    rw [e2, List.flatMap_cons]
    rfl
  rw [noise, e, List.foldlM_cons, Noise.step.eq_def, coefOf, if_pos ⟨rfl, hb⟩]
  rfl

/-- The default arguments, with the draws 1, 2, 3, ... : the coefficient of degree 2 and order 1 is the fourth draw over 5. -/
example : ∃ s, noise (fun i => ((i : ℝ) + 1, 0)) = .ok s ∧ RadialSet s ∧ valueAt s 2 1 = [4 / 5] := by
  obtain ⟨s, e1, -, -, e2, e3⟩ := C84_values (fun i => ((i : ℝ) + 1, 0)) 1 15 0 (Or.inl rfl)
  obtain ⟨s', f1, f2⟩ := C84_radial (fun i => ((i : ℝ) + 1, 0)) 1 15 0 (Or.inl rfl) (by norm_num) (by norm_num)
  rw [e1] at f1
  cases f1
  refine ⟨s, e1, f2, ?_⟩
  obtain ⟨i, h1, h2⟩ := e3 2 1 (by rw [e2]; norm_num)
  have : i = 3 := by norm_num at h1; omega
  subst this
  rw [h2]
  norm_num

end Verif
