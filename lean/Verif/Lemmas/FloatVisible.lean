import Verif.Model.FloatVisible
import Verif.Props.FloatSphere

/-!
# Lemmas for the longitudinal field in double precision
-/

set_option exponentiation.threshold 4000

namespace Verif
namespace FloatVisible
open Spec PyFloat FloatRange FloatSets FloatCoords FloatError FloatRound FloatEnergy FloatDescribe

/-! ### Sums of terms of any sign -/

/-- The sum of the magnitudes. -/
noncomputable def size (xs : List PyFloat) : ℝ := (xs.map fun x => |(x.num : ℝ)|).sum

theorem size_nonneg (xs : List PyFloat) : 0 ≤ size xs := by
  apply List.sum_nonneg
  intro q hq
  obtain ⟨x, -, rfl⟩ := List.mem_map.1 hq
  exact abs_nonneg _

theorem total_le_size (xs : List PyFloat) : |(FloatEnergy.total xs : ℝ)| ≤ size xs := by
  induction xs with
  | nil => simp [FloatEnergy.total, size]
  | cons x xs ih =>
    have e1 : FloatEnergy.total (x :: xs) = x.num + FloatEnergy.total xs := by simp [FloatEnergy.total]
    have e2 : size (x :: xs) = |(x.num : ℝ)| + size xs := by simp [size]
    rw [e1, e2]
    push_cast
    exact (abs_add_le _ _).trans (by linarith)

theorem pow_w_two {n : ℕ} (h : n ≤ 2 ^ 24) : 1 ≤ w ^ n ∧ w ^ n ≤ 2 := by
  have h1 := pow_w_small h
  refine ⟨one_le_pow₀ (by unfold w; norm_num), ?_⟩
  norm_num at h1 ⊢
  linarith

theorem tree_signed (t : SumTree) (h : ∀ x ∈ t.terms, Fd x) (hn : count t.terms ≤ 2 ^ 24) (ht : size t.terms ≤ 2 ^ 900) :
    Fd (t.sum id) ∧ (count t.terms = 0 → (t.sum id).num = 0) ∧
      |((t.sum id).num : ℝ) - FloatEnergy.total t.terms| ≤ (w ^ count t.terms - 1) * size t.terms := by
  induction t with
  | leaf x =>
    have hx := h x (by simp [SumTree.terms])
    refine ⟨hx, ?_, ?_⟩
    · intro h0
      have := count_zero h0
      simpa [SumTree.terms, SumTree.sum, FloatEnergy.total] using this
    · have e : FloatEnergy.total (SumTree.leaf x).terms = x.num := by simp [SumTree.terms, FloatEnergy.total]
      rw [e, show (SumTree.leaf x).sum id = x from rfl, sub_self, abs_zero]
      exact mul_nonneg (by have := (pow_w_two hn).1; linarith) (size_nonneg _)
  | node a b iha ihb =>
    have ec : count (SumTree.node a b).terms = count a.terms + count b.terms := by
      simp [count, SumTree.terms, List.filter_append]
    have et : FloatEnergy.total (SumTree.node a b).terms = FloatEnergy.total a.terms + FloatEnergy.total b.terms := by
      simp [FloatEnergy.total, SumTree.terms]
    have es : size (SumTree.node a b).terms = size a.terms + size b.terms := by
      simp [size, SumTree.terms]
    rw [ec] at hn
    rw [es] at ht
    have pa := size_nonneg a.terms
    have pb := size_nonneg b.terms
    obtain ⟨fa, za, ra⟩ := iha (fun x hx => h x (by simp [SumTree.terms, hx])) (by omega) (by linarith)
    obtain ⟨fb, zb, rb⟩ := ihb (fun x hx => h x (by simp [SumTree.terms, hx])) (by omega) (by linarith)
    have ta := total_le_size a.terms
    have tb := total_le_size b.terms
    obtain ⟨wa1, wa2⟩ := pow_w_two (n := count a.terms) (by omega)
    obtain ⟨wb1, wb2⟩ := pow_w_two (n := count b.terms) (by omega)
    have ka : |((a.sum id).num : ℝ)| ≤ 2 * size a.terms := by
      have : (w ^ count a.terms - 1) * size a.terms ≤ 1 * size a.terms := by gcongr; linarith
      rw [abs_le] at *
      constructor <;> linarith
    have kb : |((b.sum id).num : ℝ)| ≤ 2 * size b.terms := by
      have : (w ^ count b.terms - 1) * size b.terms ≤ 1 * size b.terms := by gcongr; linarith
      rw [abs_le] at *
      constructor <;> linarith
    have hmax : |(a.sum id).num + (b.sum id).num| ≤ maxDouble := by
      refine le_max_of_real (k := 901) ?_ (by norm_num)
      push_cast
      refine (abs_add_le _ _).trans ?_
      rw [pow_succ]
      linarith
    have hs := add_num fa fb hmax
    have hs2 : (SumTree.node a b).sum id = PyFloat.add (a.sum id) (b.sum id) := rfl
    rw [hs2, ec, et, es]
    refine ⟨hs.1, ?_, ?_⟩
    · intro h0
      rw [hs.2, za (by omega), zb (by omega), zero_add, rnd_zero]
    · rw [hs.2]
      by_cases ca : count a.terms = 0
      · have e1 : size a.terms = 0 := by
          unfold count at ca
          rw [List.length_eq_zero_iff, List.filter_eq_nil_iff] at ca
          apply List.sum_eq_zero
          intro q hq
          obtain ⟨x, hx, rfl⟩ := List.mem_map.1 hq
          have := ca x hx
          have e : x.num = 0 := by simpa using this
          simp [e]
        rw [count_zero ca, za ca, ca, e1, zero_add, zero_add, zero_add, zero_add, num_double fb]
        exact rb
      · by_cases cb : count b.terms = 0
        · have e1 : size b.terms = 0 := by
            unfold count at cb
            rw [List.length_eq_zero_iff, List.filter_eq_nil_iff] at cb
            apply List.sum_eq_zero
            intro q hq
            obtain ⟨x, hx, rfl⟩ := List.mem_map.1 hq
            have := cb x hx
            have e : x.num = 0 := by simpa using this
            simp [e]
          rw [count_zero cb, zb cb, cb, e1, add_zero, add_zero, add_zero, add_zero, num_double fa]
          exact ra
        · have hr := (Rat.cast_le (K := ℝ)).2 (rnd_add_rel fa fb)
          push_cast at hr ⊢
          have hw0 : (1 : ℝ) ≤ w := by unfold w; norm_num
          have m1 : w ^ count a.terms * w ≤ w ^ (count a.terms + count b.terms) := by
            rw [← pow_succ]; exact pow_le_pow_right₀ hw0 (by omega)
          have m2 : w ^ count b.terms * w ≤ w ^ (count a.terms + count b.terms) := by
            rw [← pow_succ]; exact pow_le_pow_right₀ hw0 (by omega)
          generalize w ^ (count a.terms + count b.terms) = Q at *
          generalize w ^ count a.terms = x at *
          generalize w ^ count b.terms = y at *
          generalize ((rnd ((a.sum id).num + (b.sum id).num) : ℚ) : ℝ) = r at *
          generalize ((a.sum id).num : ℝ) = A at *
          generalize ((b.sum id).num : ℝ) = B at *
          generalize size a.terms = sa at *
          generalize size b.terms = sb at *
          generalize (FloatEnergy.total a.terms : ℝ) = τa at *
          generalize (FloatEnergy.total b.terms : ℝ) = τb at *
          have hA : |A| ≤ x * sa := by
            rw [abs_le] at *
            constructor <;> linarith
          have hB : |B| ≤ y * sb := by
            rw [abs_le] at *
            constructor <;> linarith
          have hu : |A + B| / 2 ^ 53 ≤ (w - 1) * (x * sa + y * sb) := by
            have e : w - 1 = 1 / 2 ^ 52 := by unfold w; ring
            rw [e]
            have := abs_add_le A B
            have := abs_nonneg A
            have := abs_nonneg B
            norm_num
            linarith
          have hp : x * w * sa + y * w * sb ≤ Q * (sa + sb) := by
            have := mul_le_mul_of_nonneg_right m1 pa
            have := mul_le_mul_of_nonneg_right m2 pb
            linarith
          have : |r - (τa + τb)| ≤ (w - 1) * (x * sa + y * sb) + ((x - 1) * sa + (y - 1) * sb) := by
            have h1 := hr.trans hu
            rw [abs_le] at h1 ra rb ⊢
            constructor <;> linarith
          refine this.trans ?_
          linarith

/-- `np.sum` of doubles of any sign. -/
theorem npSum_signed {xs : List PyFloat} {v : PyFloat} (h : IsNpSum xs v) (hx : ∀ x ∈ xs, Fd x) (hn : xs.length ≤ 2 ^ 24)
    (ht : size xs ≤ 2 ^ 900) :
    Fd v ∧ |(v.num : ℝ) - FloatEnergy.total xs| ≤ (w ^ xs.length - 1) * size xs ∧ ((∀ x ∈ xs, x.num = 0) → v.num = 0) := by
  rcases h with ⟨rfl, rfl⟩ | ⟨hne, t, ss, hp, rfl⟩
  · refine ⟨zero_fd, ?_, fun _ => rfl⟩
    simp [FloatEnergy.total, size, PyFloat.num]
  · have hf : ∀ x ∈ t.terms, Fd x := by
      intro x hx'
      rcases List.mem_append.1 (hp.mem_iff.1 hx') with hm | hm
      · exact hx x hm
      · obtain ⟨s, -, rfl⟩ := List.mem_map.1 hm
        exact ⟨s, 0, rfl, isDouble_zero⟩
    have e1 : FloatEnergy.total t.terms = FloatEnergy.total xs := by rw [perm_total hp, total_zeros]
    have e2 : count t.terms ≤ xs.length := by
      have : count t.terms = count (xs ++ ss.map fun s => fin s 0) := (hp.filter _).length_eq
      rw [this]; exact count_zeros xs ss
    have e3 : size t.terms = size xs := by
      have h1 : size t.terms = size (xs ++ ss.map fun s => fin s 0) := (hp.map _).sum_eq
      rw [h1]
      have h2 : ((ss.map fun s => fin s 0).map fun x => |(x.num : ℝ)|).sum = 0 := by
        apply List.sum_eq_zero
        intro q hq
        simp only [List.map_map, List.mem_map, Function.comp] at hq
        obtain ⟨s, -, rfl⟩ := hq
        rw [num_zero]; simp
      unfold size
      rw [List.map_append, List.sum_append, h2, add_zero]
    obtain ⟨g1, g2, g3⟩ := tree_signed t hf (by omega) (by rw [e3]; exact ht)
    refine ⟨g1, ?_, ?_⟩
    · rw [← e1]
      refine g3.trans ?_
      rw [e3]
      have := size_nonneg xs
      have : w ^ count t.terms ≤ w ^ xs.length := pow_le_pow_right₀ (by unfold w; norm_num) e2
      gcongr
    · intro h0
      refine g2 ?_
      unfold count
      rw [List.length_eq_zero_iff, List.filter_eq_nil_iff]
      intro x hx'
      rcases List.mem_append.1 (hp.mem_iff.1 hx') with hm | hm
      · simp [h0 x hm]
      · obtain ⟨s, -, rfl⟩ := List.mem_map.1 hm
        simp [num_zero]

end FloatVisible
end Verif
