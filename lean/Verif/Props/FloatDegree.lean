import Verif.Model.FloatDegree
import Verif.Props.FloatReport
import Verif.Props.FloatVisible

/-!
# C134: the energies by degree in double precision
-/

set_option exponentiation.threshold 4000

namespace Verif
open PyFloat

/-! ### Specification -/

/-- The sum of one row of a matrix of floats with `2 L + 1` columns. -/
noncomputable def Spec.rowOf (L : ℕ) (a : ℕ → ℕ → PyFloat) (i : ℕ) : ℝ := ∑ j ∈ Finset.range (2 * L + 1), ((a i j).num : ℝ)

/-- The sum of all entries of a matrix of floats of shape `(L + 1, 2 L + 1)`. -/
noncomputable def Spec.sumOf (L : ℕ) (a : ℕ → ℕ → PyFloat) : ℝ := ∑ i ∈ Finset.range (L + 1), Spec.rowOf L a i

/-- A curve and its cumulative curve for the degrees 1 to `L` show the shares `f` to `ε`. -/
def Spec.ShowsShares (ε : ℝ) (L : ℕ) (c : List PyFloat × List PyFloat) (f : ℕ → ℝ) : Prop :=
  c.1.length = L ∧ c.2.length = L ∧ ∀ l < L,
    (∃ y, c.1[l]? = some y ∧ isFin y = true ∧ |(y.num : ℝ) - f (l + 1)| ≤ ε) ∧
    ∃ y, c.2[l]? = some y ∧ isFin y = true ∧ |(y.num : ℝ) - ∑ i ∈ Finset.range (l + 2), f i| ≤ ε

open Spec

namespace FloatDegree
open FloatEnergy FloatError FloatRound FloatRange FloatMatrix

/-- A double that is not negative. -/
def NN (x : PyFloat) : Prop := ∃ q, x = fin false q ∧ IsDouble q

theorem NN.fd {x : PyFloat} (h : NN x) : Fd x := by obtain ⟨q, rfl, hd⟩ := h; exact ⟨_, _, rfl, hd⟩
theorem NN.pos {x : PyFloat} (h : NN x) : (0 : ℝ) ≤ x.num := by
  obtain ⟨q, rfl, hd⟩ := h
  exact_mod_cast hd.nonneg
theorem NN.fin {x : PyFloat} (h : NN x) : isFin x = true := by obtain ⟨q, rfl, hd⟩ := h; rfl

theorem tiny : (1 : ℝ) / 2 ^ 1000 ≤ 1 / 10 ^ 30 := by
  apply one_div_le_one_div_of_le (by positivity)
  calc (10 : ℝ) ^ 30 ≤ 2 ^ 100 := by norm_num
    _ ≤ 2 ^ 1000 := pow_le_pow_right₀ (by norm_num) (by norm_num)

theorem nn_div {x t : PyFloat} (hx : NN x) (ht : NN t) (h0 : (0 : ℝ) < t.num) (h : (x.num : ℝ) ≤ 2 * t.num) :
    NN (div x t) ∧ |((div x t).num : ℝ) - x.num / t.num| ≤ x.num / t.num / 10 ^ 15 + 1 / 10 ^ 30 := by
  have p0 : (0 : ℝ) ≤ x.num / t.num := div_nonneg hx.pos h0.le
  have h2 : (x.num : ℝ) / t.num ≤ 2 := by rw [div_le_iff₀ h0]; exact h
  obtain ⟨h3, h4⟩ := FloatVisible.div_real hx.fd ht.fd h0.ne' (k := 1) (by rw [abs_of_nonneg p0]; linarith) (by norm_num)
  refine ⟨?_, ?_⟩
  · obtain ⟨s, a, e, hd⟩ := h3
    obtain ⟨p, rfl, dp⟩ := hx
    obtain ⟨q, rfl, dq⟩ := ht
    have : div (fin false p) (fin false q) = fin false a := by
      rw [e]
      have hq : q ≠ 0 := by rintro rfl; simp [PyFloat.num] at h0
      simp only [div, if_neg hq, bne_self_eq_false] at e
      unfold ofMag at e
      split_ifs at e <;> simp at e
      · rw [← e.1]
    exact ⟨a, this, hd⟩
  · rw [abs_of_nonneg p0] at h4
    have := tiny
    have : (x.num : ℝ) / t.num / 2 ^ 53 ≤ x.num / t.num / 10 ^ 15 := div_le_div_of_nonneg_left p0 (by norm_num) (by norm_num)
    linarith

theorem nn_add {x y : PyFloat} (hx : NN x) (hy : NN y) (h : (x.num : ℝ) + y.num ≤ 2 ^ 1000) :
    NN (add x y) ∧ |((add x y).num : ℝ) - (x.num + y.num)| ≤ (x.num + y.num) / 10 ^ 15 + 1 / 10 ^ 30 := by
  have p0 : (0 : ℝ) ≤ x.num + y.num := add_nonneg hx.pos hy.pos
  obtain ⟨h3, h4⟩ := FloatDescribe.add_real hx.fd hy.fd (k := 1000) (by rw [abs_of_nonneg p0]; exact h) (by norm_num)
  refine ⟨?_, ?_⟩
  · have rx : RelF 0 x (x.num : ℝ) := by
      obtain ⟨p, rfl, dp⟩ := hx; exact ⟨p, rfl, dp, Rel.refl (by exact_mod_cast dp.nonneg)⟩
    have ry : RelF 0 y (y.num : ℝ) := by
      obtain ⟨p, rfl, dp⟩ := hy; exact ⟨p, rfl, dp, Rel.refl (by exact_mod_cast dp.nonneg)⟩
    obtain ⟨q, e, hd, -⟩ := rx.add ry (by norm_num) (h.trans (by
      rw [← zpow_natCast]; exact zpow_le_zpow_right₀ (by norm_num) (by norm_num)))
    exact ⟨q, e, hd⟩
  · rw [abs_of_nonneg p0] at h4
    have := tiny
    have : ((x.num : ℝ) + y.num) / 2 ^ 53 ≤ (x.num + y.num) / 10 ^ 15 := div_le_div_of_nonneg_left p0 (by norm_num) (by norm_num)
    linarith

/-! ### Sums over lists of index pairs -/

variable {ι : Type}

/-- The exact sum of floats. -/
noncomputable def val (J : List ι) (G : ι → PyFloat) : ℝ := (J.map fun i => ((G i).num : ℝ)).sum

theorem total_val (J : List ι) (G : ι → PyFloat) : ((FloatEnergy.total (J.map G) : ℚ) : ℝ) = val J G := by
  unfold FloatEnergy.total val
  induction J with
  | nil => simp
  | cons i J ih => simp only [List.map_cons, List.sum_cons, Rat.cast_add, ih]

theorem sum_close {J : List ι} {g h : ι → ℝ} {c d : ℝ} (H : ∀ i ∈ J, |g i - h i| ≤ c * h i + d) :
    |(J.map g).sum - (J.map h).sum| ≤ c * (J.map h).sum + J.length * d := by
  induction J with
  | nil => simp
  | cons i J ih =>
    have h1 := ih fun i hi => H i (List.mem_cons_of_mem _ hi)
    have h2 := H i List.mem_cons_self
    simp only [List.map_cons, List.sum_cons, List.length_cons]
    push_cast
    rw [abs_le] at *
    constructor <;> nlinarith [h1.1, h1.2, h2.1, h2.2]

theorem np_close {S : List PyFloat → PyFloat} (hS : ∀ xs, IsNpSum xs (S xs)) {J : List ι} {G : ι → PyFloat}
    (h : ∀ i ∈ J, NN (G i)) (hn : J.length ≤ 10 ^ 6) (ht : val J G ≤ 2 ^ 1000) :
    NN (S (J.map G)) ∧ RelF (10 ^ 6) (S (J.map G)) (val J G) ∧ |((S (J.map G)).num : ℝ) - val J G| ≤ 1e-9 * val J G := by
  have ht' : FloatEnergy.total (J.map G) ≤ 2 ^ (1000 : ℤ) := by
    have : ((FloatEnergy.total (J.map G) : ℚ) : ℝ) ≤ ((2 ^ (1000 : ℤ) : ℚ) : ℝ) := by
      rw [total_val, Rat.cast_zpow, Rat.cast_ofNat]
      exact ht.trans (by rw [← zpow_natCast]; rfl)
    exact_mod_cast this
  have r := npSum (hS (J.map G)) (fun x hx => by
    obtain ⟨i, hi, rfl⟩ := List.mem_map.1 hx; exact h i hi) (by rw [List.length_map]; exact hn.trans (by norm_num)) ht'
  rw [List.length_map, total_val] at r
  have r := r.mono hn
  obtain ⟨q, e, hd, hq⟩ := r.summed (by norm_num)
  refine ⟨⟨q, e, hd⟩, r, ?_⟩
  rw [e]
  exact hq

theorem scaled_sum {S : List PyFloat → PyFloat} (hS : ∀ xs, IsNpSum xs (S xs)) {t E : ℝ} (hE : 0 < E) (ht : |t - E| ≤ 1e-9 * E)
    {J : List ι} {G : ι → PyFloat} {g : ι → ℝ} (h : ∀ i ∈ J, NN (G i)) (hg : ∀ i ∈ J, 0 ≤ g i)
    (H : ∀ i ∈ J, |((G i).num : ℝ) - g i / t| ≤ 1 / 10 ^ 14 * (g i / t) + 1 / 10 ^ 29) (hn : J.length ≤ 10 ^ 6)
    (hs : (J.map g).sum ≤ 2 * E) :
    NN (S (J.map G)) ∧ |((S (J.map G)).num : ℝ) - (J.map g).sum / E| ≤ 3e-9 * ((J.map g).sum / E) + 1e-20 := by
  have b := abs_le.1 ht
  have t0 : 0 < t := by linarith [b.1]
  have hn' : (J.length : ℝ) ≤ 10 ^ 6 := by exact_mod_cast hn
  have s0 : 0 ≤ (J.map g).sum := List.sum_nonneg (by simpa using hg)
  have hu := sum_close H
  have hdiv : (J.map fun i => g i / t).sum = (J.map g).sum / t := by
    clear * -
    induction J with
    | nil => simp
    | cons i J ih => simp only [List.map_cons, List.sum_cons, ih, add_div]
  rw [hdiv] at hu
  have hv : (J.map fun i => ((G i).num : ℝ)).sum = val J G := rfl
  rw [hv] at hu
  have hρ : (J.map g).sum / t = (J.map g).sum / E * (E / t) := by field_simp
  have ρ1 : E / t ≤ 1 + 11e-10 := by
    rw [div_le_iff₀ t0]; nlinarith [b.1]
  have ρ2 : 1 - 11e-10 ≤ E / t := by
    rw [le_div_iff₀ t0]; nlinarith [b.2]
  have q0 : 0 ≤ (J.map g).sum / E := div_nonneg s0 hE.le
  have q2 : (J.map g).sum / E ≤ 2 := by rw [div_le_iff₀ hE]; exact hs
  generalize (J.map g).sum / E = s at *
  have u1 : (J.map g).sum / t ≤ s * (1 + 11e-10) := by rw [hρ]; exact mul_le_mul_of_nonneg_left ρ1 q0
  have u2 : s * (1 - 11e-10) ≤ (J.map g).sum / t := by rw [hρ]; exact mul_le_mul_of_nonneg_left ρ2 q0
  generalize (J.map g).sum / t = u at *
  have hl : (J.length : ℝ) * (1 / 10 ^ 29) ≤ 1e-23 := by
    calc (J.length : ℝ) * (1 / 10 ^ 29) ≤ 10 ^ 6 * (1 / 10 ^ 29) := mul_le_mul_of_nonneg_right hn' (by norm_num)
      _ = _ := by norm_num
  have hu := abs_le.1 hu
  have v0 : val J G ≤ 4 := by norm_num at *; linarith
  obtain ⟨n1, -, n2⟩ := np_close hS h hn (v0.trans (by
    calc (4 : ℝ) = 2 ^ 2 := by norm_num
      _ ≤ 2 ^ 1000 := pow_le_pow_right₀ (by norm_num) (by norm_num)))
  refine ⟨n1, ?_⟩
  have n2 := abs_le.1 n2
  rw [abs_le]
  norm_num at *
  constructor <;> linarith

/-! ### The matrices -/

theorem fold_cases (z : List ERow) (L : ℕ) (p : ℕ × ℕ) (v : (ERow → PyFloat) → PyFloat) :
    (∀ f, (z.map fun r => (at_ L r, f r)).foldl (fun v e => if e.1 = p then e.2 else v) (v f) = v f) ∨
    ∃ r ∈ z, ∀ f, (z.map fun r => (at_ L r, f r)).foldl (fun v e => if e.1 = p then e.2 else v) (v f) = f r := by
  induction z generalizing v with
  | nil => exact Or.inl fun _ => rfl
  | cons s z ih =>
    by_cases h : at_ L s = p
    · rcases ih (fun f => f s) with h' | ⟨r, hr, h'⟩
      · refine Or.inr ⟨s, List.mem_cons_self, fun f => ?_⟩
        rw [List.map_cons, List.foldl_cons, if_pos h]; exact h' f
      · refine Or.inr ⟨r, List.mem_cons_of_mem _ hr, fun f => ?_⟩
        rw [List.map_cons, List.foldl_cons, if_pos h]; exact h' f
    · rcases ih v with h' | ⟨r, hr, h'⟩
      · refine Or.inl fun f => ?_
        rw [List.map_cons, List.foldl_cons, if_neg h]; exact h' f
      · refine Or.inr ⟨r, List.mem_cons_of_mem _ hr, fun f => ?_⟩
        rw [List.map_cons, List.foldl_cons, if_neg h]; exact h' f

theorem nn_zero : NN (fin false 0) := ⟨0, rfl, isDouble_zero⟩

theorem En_nn {r : ERow} (h : RowIn 479 r) (k : Zdi.Comp) : NN (En k r) ∧ ((En k r).num : ℝ) ≤ 2 ^ 960 := by
  obtain ⟨q, e, hd⟩ := En_nonneg (RowIn.mono (by norm_num) h) k
  refine ⟨⟨q, e, hd⟩, (En_size (by norm_num) h k).2.trans (le_of_eq ?_)⟩
  rw [← zpow_natCast]; norm_num

theorem sum_size {a b : ℝ} (ha : a ≤ 2 ^ 960) (hb : b ≤ 2 ^ 960) : a + b ≤ 2 ^ 961 := by
  rw [show (961 : ℕ) = 960 + 1 from rfl, pow_succ]; linarith

/-- Every entry: the radial and the rest, their sum, and the toroidal energy. -/
theorem entry_nn {z : List ERow} (hz : ∀ r ∈ z, RowIn 479 r) (L i j : ℕ) :
    ∃ a b g, NN a ∧ NN b ∧ NN g ∧ (a.num : ℝ) ≤ 2 ^ 960 ∧ (b.num : ℝ) ≤ 2 ^ 960 ∧ (g.num : ℝ) ≤ 2 ^ 960 ∧
      roll L (assign (z.map fun r => (at_ L r, En .alpha r))) i j = a ∧ roll L (assign (z.map fun r => (at_ L r, Pol r))) i j = add a b ∧
      roll L (assign (z.map fun r => (at_ L r, En .gamma r))) i j = g := by
  have z0 : ((fin false 0).num : ℝ) ≤ 2 ^ 960 := by
    rw [show (fin false 0).num = 0 from rfl, Rat.cast_zero]; positivity
  rcases fold_cases z L (i, (j + (L + 1)) % (2 * L + 1)) (fun _ => fin false 0) with h | ⟨r, hr, h⟩
  · refine ⟨fin false 0, fin false 0, fin false 0, nn_zero, nn_zero, nn_zero, z0, z0, z0, h _, ?_, h _⟩
    exact (h _).trans (by decide +kernel)
  · have r := hz r hr
    exact ⟨_, _, _, (En_nn r .alpha).1, (En_nn r .beta).1, (En_nn r .gamma).1, (En_nn r .alpha).2, (En_nn r .beta).2,
      (En_nn r .gamma).2, h _, h _, h _⟩

/-! ### Index pairs -/

/-- All index pairs. -/
def idx (L : ℕ) : List (ℕ × ℕ) := (List.range (L + 1)).flatMap fun i => (List.range (2 * L + 1)).map fun j => (i, j)

/-- The index pairs of a row. -/
def idxRow (L i : ℕ) : List (ℕ × ℕ) := (List.range (2 * L + 1)).map fun j => (i, j)

theorem flat_eq (L : ℕ) (a : ℕ → ℕ → PyFloat) : flat L a = (idx L).map fun p => a p.1 p.2 := by
  unfold flat idx
  rw [List.map_flatMap]
  congr 1
  funext i
  rw [List.map_map]; rfl

theorem row_eq (L i : ℕ) (a : ℕ → ℕ → PyFloat) : row L a i = (idxRow L i).map fun p => a p.1 p.2 := by
  unfold row idxRow
  rw [List.map_map]; rfl

theorem idx_len (L : ℕ) : (idx L).length = (L + 1) * (2 * L + 1) := by
  simp [idx, List.length_flatMap]

theorem range_sum (n : ℕ) (f : ℕ → ℝ) : ((List.range n).map f).sum = ∑ i ∈ Finset.range n, f i := by
  induction n with
  | zero => simp
  | succ n ih => rw [List.range_succ, Finset.sum_range_succ]; simp [ih]

theorem sum_row (L i : ℕ) (g : ℕ → ℕ → ℝ) : ((idxRow L i).map fun p => g p.1 p.2).sum = ∑ j ∈ Finset.range (2 * L + 1), g i j := by
  unfold idxRow
  rw [List.map_map]
  exact range_sum _ _

theorem sum_flat (L : ℕ) (g : ℕ → ℕ → ℝ) : ((idx L).map fun p => g p.1 p.2).sum =
    ∑ i ∈ Finset.range (L + 1), ∑ j ∈ Finset.range (2 * L + 1), g i j := by
  unfold idx
  rw [← range_sum]
  induction List.range (L + 1) with
  | nil => simp
  | cons i I ih =>
    rw [List.flatMap_cons, List.map_append, List.sum_append, ih, List.map_cons, List.sum_cons]
    congr 1
    exact sum_row L i g

/-! ### Cumulative sums -/

theorem cumFrom_len (x : PyFloat) (ys : List PyFloat) : (cumFrom x ys).length = ys.length := by
  induction ys generalizing x with
  | nil => rfl
  | cons y ys ih => simp [cumFrom, ih]

theorem cumFrom_close {ys : List PyFloat} {f : ℕ → ℝ} {x : PyFloat} {X e : ℝ} (hx : NN x) (hX : |(x.num : ℝ) - X| ≤ e)
    (hf : ∀ l < ys.length, ∃ y, ys[l]? = some y ∧ NN y ∧ |(y.num : ℝ) - f l| ≤ 3e-9 * f l + 1e-20) (hf0 : ∀ l, 0 ≤ f l)
    (hs : ∀ l ≤ ys.length, X + ∑ i ∈ Finset.range l, f i ≤ 1) (he : e + ys.length * 1e-14 + 3e-9 ≤ 1e-8 + 3e-9 * X) (hX0 : 0 ≤ X) :
    ∀ l < ys.length, ∃ y, (cumFrom x ys)[l]? = some y ∧ NN y ∧ |(y.num : ℝ) - (X + ∑ i ∈ Finset.range (l + 1), f i)| ≤ 1e-8 := by
  induction ys generalizing x X e f with
  | nil => intro l hl; simp at hl
  | cons y ys ih =>
    obtain ⟨y', e0, ny, hy⟩ := hf 0 (by simp)
    simp only [List.getElem?_cons_zero, Option.some.injEq] at e0
    subst e0
    have s1 := hs 1 (by simp)
    simp only [Finset.range_one, Finset.sum_singleton] at s1
    have f0 := hf0 0
    rw [List.length_cons] at he
    push_cast at he
    have l0 : (0 : ℝ) ≤ ys.length := by positivity
    have x1 := abs_le.1 hX
    have y1 := abs_le.1 hy
    have hle : (x.num : ℝ) + y.num ≤ 2 := by norm_num at *; linarith
    obtain ⟨na, ha⟩ := nn_add hx ny (hle.trans (by
      calc (2 : ℝ) = 2 ^ 1 := by norm_num
        _ ≤ 2 ^ 1000 := pow_le_pow_right₀ (by norm_num) (by norm_num)))
    have ha := abs_le.1 ha
    have hnew : |((add x y).num : ℝ) - (X + f 0)| ≤ e + 3e-9 * f 0 + 1e-14 := by
      rw [abs_le]; norm_num at *; constructor <;> linarith
    have step := ih (x := add x y) (X := X + f 0) (e := e + 3e-9 * f 0 + 1e-14) (f := fun l => f (l + 1)) na hnew
      (fun l hl => by
        obtain ⟨w, h1, h2⟩ := hf (l + 1) (by simpa using hl)
        exact ⟨w, by simpa using h1, h2⟩) (fun l => hf0 _)
      (fun l hl => by
        have := hs (l + 1) (by simpa using hl)
        rw [Finset.sum_range_succ'] at this
        linarith) (by norm_num at *; linarith) (by linarith)
    intro l hl
    cases l with
    | zero =>
      refine ⟨add x y, rfl, na, ?_⟩
      rw [zero_add, Finset.sum_range_one]
      refine hnew.trans ?_
      norm_num at *
      linarith
    | succ l =>
      obtain ⟨w, h1, h2, h3⟩ := step l (by simpa using hl)
      refine ⟨w, by simpa [cumFrom] using h1, h2, ?_⟩
      rw [Finset.sum_range_succ']
      rw [show X + (∑ k ∈ Finset.range (l + 1), f (k + 1) + f 0) = X + f 0 + ∑ k ∈ Finset.range (l + 1), f (k + 1) by ring]
      exact h3

theorem curve_shows {S : List PyFloat → PyFloat} {L : ℕ} (hL : L ≤ 700) {a : ℕ → ℕ → PyFloat} {f : ℕ → ℝ} (hf0 : ∀ l, 0 ≤ f l)
    (hf : ∀ i ≤ L, NN (S (row L a i)) ∧ |((S (row L a i)).num : ℝ) - f i| ≤ 3e-9 * f i + 1e-20)
    (hs : ∀ l ≤ L + 1, ∑ i ∈ Finset.range l, f i ≤ 1) : ShowsShares 1e-8 L (curve S L a) f := by
  have hL' : (L : ℝ) ≤ 700 := by exact_mod_cast hL
  have hy : (List.range (L + 1)).map (fun i => S (row L a i)) = S (row L a 0) :: (List.range L).map fun i => S (row L a (i + 1)) := by
    rw [List.range_succ_eq_map, List.map_cons, List.map_map]; rfl
  unfold curve
  rw [hy]
  have f1 : ∀ i ≤ L, f i ≤ 1 := fun i hi => by
    have := hs (i + 1) (by omega)
    rw [Finset.sum_range_succ] at this
    have := Finset.sum_nonneg (s := Finset.range i) fun k _ => hf0 k
    linarith
  have h0 := hf 0 (by omega)
  have g0 := f1 0 (by omega)
  have p0 := hf0 0
  refine ⟨by simp, by simp [cumsum, cumFrom_len], fun l hl => ⟨?_, ?_⟩⟩
  · obtain ⟨n, h⟩ := hf (l + 1) (by omega)
    refine ⟨_, by simp [hl], n.fin, h.trans ?_⟩
    have := f1 (l + 1) (by omega)
    norm_num at *
    linarith
  · have key := cumFrom_close (ys := (List.range L).map fun i => S (row L a (i + 1))) (f := fun i => f (i + 1)) (X := f 0) h0.1 h0.2
      (fun l hl => ⟨S (row L a (l + 1)), by simp at hl; simp [hl], hf (l + 1) (by simp at hl; omega)⟩) (fun l => hf0 _)
      (fun l hl => by
        have := hs (l + 1) (by simp at hl; omega)
        rw [Finset.sum_range_succ'] at this
        linarith)
      (by rw [List.length_map, List.length_range]; norm_num; linarith) p0 l (by simpa using hl)
    obtain ⟨y, h1, h2, h3⟩ := key
    refine ⟨y, by simpa [cumsum] using h1, h2.fin, ?_⟩
    rw [Finset.sum_range_succ', add_comm]
    exact h3

theorem zero_sum {S : List PyFloat → PyFloat} (hS : ∀ xs, IsNpSum xs (S xs)) {J : List ι} {G : ι → PyFloat} (h : ∀ i ∈ J, NN (G i))
    (hn : J.length ≤ 10 ^ 6) (hz : val J G = 0) : S (J.map G) = fin false 0 := by
  obtain ⟨⟨q, e, hd⟩, -, h2⟩ := np_close hS h hn (by rw [hz]; positivity)
  rw [hz, mul_zero, sub_zero, e] at h2
  have : (q : ℝ) = 0 := abs_eq_zero.1 (le_antisymm h2 (abs_nonneg _))
  rw [e, Rat.cast_eq_zero.1 this]

theorem val_nonneg {J : List ι} {G : ι → PyFloat} (h : ∀ i ∈ J, NN (G i)) : 0 ≤ val J G :=
  List.sum_nonneg (by
    intro x hx
    obtain ⟨i, hi, rfl⟩ := List.mem_map.1 hx
    exact (h i hi).pos)

theorem val_le {J : List ι} {G : ι → PyFloat} {i : ι} (h : ∀ i ∈ J, NN (G i)) (hi : i ∈ J) : ((G i).num : ℝ) ≤ val J G :=
  List.single_le_sum (by
    intro x hx
    obtain ⟨i, hi, rfl⟩ := List.mem_map.1 hx
    exact (h i hi).pos) _ (List.mem_map.2 ⟨i, hi, rfl⟩)

theorem val_size {J : List ι} {G : ι → PyFloat} (hn : J.length ≤ 10 ^ 6) (h : ∀ i ∈ J, ((G i).num : ℝ) ≤ 2 ^ 962) : val J G ≤ 2 ^ 990 := by
  have h1 : val J G ≤ J.length * 2 ^ 962 := by
    unfold val
    clear hn
    induction J with
    | nil => simp
    | cons i J ih =>
      have := ih fun i hi => h i (List.mem_cons_of_mem _ hi)
      have := h i List.mem_cons_self
      rw [List.map_cons, List.sum_cons, List.length_cons, Nat.cast_add, Nat.cast_one, add_mul, one_mul]
      linarith
  have h2 : (J.length : ℝ) ≤ 2 ^ 28 := by
    have : (J.length : ℝ) ≤ 10 ^ 6 := by exact_mod_cast hn
    linarith [show (10 : ℝ) ^ 6 ≤ 2 ^ 28 by norm_num]
  refine h1.trans ?_
  rw [show (990 : ℕ) = 28 + 962 from rfl, pow_add]
  exact mul_le_mul_of_nonneg_right h2 (by positivity)

theorem close_one {x : PyFloat} (hx : NN x) (h : |(x.num : ℝ) - 1| ≤ 1e-8) : isClose x (fin false 1) = true := by
  obtain ⟨q, rfl, -⟩ := hx
  simp only [isClose, decide_eq_true_eq]
  have e : (fin false q).num = q := rfl
  have e1 : (fin false 1).num = 1 := rfl
  rw [e, e1]
  rw [e] at h
  have : |q - 1| ≤ 1e-8 := by
    have : ((|q - 1| : ℚ) : ℝ) ≤ ((1e-8 : ℚ) : ℝ) := by push_cast; exact h
    exact_mod_cast this
  norm_num at *
  linarith

theorem close_near {x y : PyFloat} (hx : Fd x) (hy : Fd y) (h : |(x.num : ℝ) - y.num| ≤ 1e-8) : isClose x y = true := by
  obtain ⟨s, p, rfl, -⟩ := hx
  obtain ⟨s', q, rfl, -⟩ := hy
  simp only [isClose, decide_eq_true_eq]
  have : |(fin s p).num - (fin s' q).num| ≤ 1e-8 := by
    have : ((|(fin s p).num - (fin s' q).num| : ℚ) : ℝ) ≤ ((1e-8 : ℚ) : ℝ) := by push_cast; exact h
    exact_mod_cast this
  refine this.trans ?_
  have := abs_nonneg (fin s' q).num
  linarith

/-- The second assertion for one entry. -/
theorem rest_close {a b t : PyFloat} (ha : NN a) (hb : NN b) (ht : NN t) (t0 : (0 : ℝ) < t.num)
    (hs : (a.num : ℝ) + b.num ≤ 2 ^ 961) (h : ((add a b).num : ℝ) ≤ 3 / 2 * t.num) :
    isClose (add (div a t) (div (sub (add a b) a) t)) (div (add a b) t) = true := by
  obtain ⟨np, hp⟩ := nn_add ha hb (hs.trans (pow_le_pow_right₀ (by norm_num) (by norm_num)))
  have a0 := ha.pos
  have b0 := hb.pos
  have hap : (a.num : ℝ) ≤ (add a b).num := by
    obtain ⟨p, rfl, dp⟩ := ha
    obtain ⟨q, rfl, dq⟩ := hb
    rcases eq_or_lt_of_le (show (0 : ℚ) ≤ p + q from add_nonneg dp.nonneg dq.nonneg) with e | e
    · have : p = 0 := le_antisymm (by have := dq.nonneg; linarith) dp.nonneg
      rw [show ((fin false p).num : ℝ) = 0 by rw [show (fin false p).num = p from rfl, this, Rat.cast_zero]]; exact np.pos
    · have hb : p + q ≤ maxDouble := by
        have h1 : ((p + q : ℚ) : ℝ) ≤ (maxDouble : ℚ) := by
          push_cast
          refine (show (p : ℝ) + q ≤ 2 ^ 961 from hs).trans (le_trans ?_ max_real)
          rw [← zpow_natCast]; exact zpow_le_zpow_right₀ (by norm_num) (by norm_num)
        exact_mod_cast h1
      rw [FloatCoords.add_fin dp.nonneg dq.nonneg hb]
      have := FloatCoords.le_fl0 dp e (le_add_of_nonneg_right dq.nonneg)
      exact_mod_cast this
  set p := add a b
  have p0 := np.pos
  have ple : (p.num : ℝ) ≤ 2 ^ 1000 := by
    have q1 := (abs_le.1 hp).2
    have : (2 : ℝ) ^ 961 * 2 ≤ 2 ^ 1000 := by
      rw [← pow_succ]; exact pow_le_pow_right₀ (by norm_num) (by norm_num)
    have : (1 : ℝ) ≤ 2 ^ 961 := one_le_pow₀ (by norm_num)
    generalize (2 : ℝ) ^ 961 = M at *
    generalize (2 : ℝ) ^ 1000 = N at *
    norm_num at *
    linarith
  have hm : |(p.num : ℝ) - a.num| ≤ 2 ^ 1000 := by rw [abs_of_nonneg (by linarith)]; linarith
  obtain ⟨hr, he⟩ := sub_num np.fd ha.fd (FloatDescribe.le_max_of_real (k := 1000) (by push_cast; exact hm) (by norm_num))
  have hre : |((sub p a).num : ℝ) - (p.num - a.num)| ≤ (p.num - a.num) / 2 ^ 53 := by
    have e := rnd_add_rel np.fd (neg_num ha.fd).1
    rw [(neg_num ha.fd).2, ← sub_eq_add_neg, ← he] at e
    have e2 := (Rat.cast_le (K := ℝ)).2 e
    push_cast at e2
    rwa [abs_of_nonneg (show (0 : ℝ) ≤ p.num - a.num by linarith)] at e2
  clear hm he hp
  set r := sub p a
  have hA : (a.num : ℝ) / t.num ≤ 3 / 2 := by rw [div_le_iff₀ t0]; linarith
  have hP : (p.num : ℝ) / t.num ≤ 3 / 2 := by rw [div_le_iff₀ t0]; linarith
  have hAP : (a.num : ℝ) / t.num ≤ p.num / t.num := div_le_div_of_nonneg_right hap t0.le
  have A0 : (0 : ℝ) ≤ a.num / t.num := div_nonneg a0 t0.le
  have hR : |(r.num : ℝ) / t.num - (p.num / t.num - a.num / t.num)| ≤ (p.num / t.num - a.num / t.num) / 2 ^ 53 := by
    rw [← sub_div, ← sub_div, abs_div, abs_of_pos t0, div_right_comm]
    exact div_le_div_of_nonneg_right hre t0.le
  obtain ⟨n1, d1⟩ := nn_div ha ht t0 (by linarith)
  obtain ⟨n2, d2⟩ := nn_div np ht t0 (by linarith)
  have b := abs_le.1 hR
  have hr2 : |(r.num : ℝ) / t.num| ≤ 2 := by rw [abs_le]; norm_num at *; constructor <;> linarith
  obtain ⟨n3, d3⟩ := FloatVisible.div_real hr ht.fd t0.ne' (k := 1) (by rw [pow_one]; exact hr2) (by norm_num)
  have u := tiny
  have d3 : |((div r t).num : ℝ) - r.num / t.num| ≤ 1e-14 := by
    refine d3.trans ?_
    generalize (1 : ℝ) / 2 ^ 1000 = v at *
    norm_num at *
    linarith
  have b1 := abs_le.1 d1
  have b2 := abs_le.1 d2
  have b3 := abs_le.1 d3
  clear d1 d2 d3 hre hR
  have hsum : |((div a t).num : ℝ) + (div r t).num| ≤ 2 := by rw [abs_le]; norm_num at *; constructor <;> linarith
  obtain ⟨n4, d4⟩ := FloatDescribe.add_real n1.fd n3 (k := 1) (by rw [pow_one]; exact hsum) (by norm_num)
  have d4 : |((add (div a t) (div r t)).num : ℝ) - ((div a t).num + (div r t).num)| ≤ 1e-14 := by
    refine d4.trans ?_
    generalize (1 : ℝ) / 2 ^ 1000 = v at *
    norm_num at *
    linarith
  have b4 := abs_le.1 d4
  clear d4
  refine close_near n4 n2.fd ?_
  rw [abs_le]
  norm_num at *
  constructor <;> linarith

theorem mem_idx {L i j : ℕ} : (i, j) ∈ idx L ↔ i ≤ L ∧ j ≤ 2 * L := by
  simp [idx, Nat.lt_succ_iff]

/-- The matrices the scaled figure starts from: energies in range, the poloidal ones the radial ones and something more. -/
structure Good (er ep et : ℕ → ℕ → PyFloat) : Prop where
  rad : ∀ i j, NN (er i j)
  pol : ∀ i j, ∃ b, NN b ∧ ep i j = add (er i j) b ∧ ((er i j).num : ℝ) + b.num ≤ 2 ^ 961
  tor : ∀ i j, NN (et i j) ∧ ((et i j).num : ℝ) ≤ 2 ^ 962

theorem Good.nn {er ep et : ℕ → ℕ → PyFloat} (h : Good er ep et) (i j : ℕ) : NN (ep i j) ∧ ((ep i j).num : ℝ) ≤ 2 ^ 962 := by
  obtain ⟨b, nb, e, hs⟩ := h.pol i j
  rw [e]
  obtain ⟨n, hp⟩ := nn_add (h.rad i j) nb (hs.trans (pow_le_pow_right₀ (by norm_num) (by norm_num)))
  refine ⟨n, ?_⟩
  have q1 := (abs_le.1 hp).2
  have : (2 : ℝ) ^ 961 * 2 = 2 ^ 962 := by rw [← pow_succ]
  have : (1 : ℝ) ≤ 2 ^ 961 := one_le_pow₀ (by norm_num)
  generalize (2 : ℝ) ^ 961 = M at *
  generalize (2 : ℝ) ^ 962 = N at *
  norm_num at *
  linarith

theorem scaled_core {S : List PyFloat → PyFloat} (hS : ∀ xs, IsNpSum xs (S xs)) {L : ℕ} (hL : L ≤ 700) {er ep et : ℕ → ℕ → PyFloat}
    (h : Good er ep et) {T : PyFloat} (hT : add (S (flat L ep)) (S (flat L et)) = T) :
    (sumOf L ep + sumOf L et = 0 ∧ isClose (S (flat L fun i j => add (div (ep i j) T) (div (et i j) T))) (fin false 1) = false) ∨
    (0 < sumOf L ep + sumOf L et ∧ isClose (S (flat L fun i j => add (div (ep i j) T) (div (et i j) T))) (fin false 1) = true ∧
      (∀ i ≤ L, ∀ j ≤ 2 * L, isClose (add (div (er i j) T) (div (sub (ep i j) (er i j)) T)) (div (ep i j) T) = true) ∧
      ShowsShares 1e-8 L (curve S L fun i j => add (div (ep i j) T) (div (et i j) T))
        (fun i => (rowOf L ep i + rowOf L et i) / (sumOf L ep + sumOf L et)) ∧
      ShowsShares 1e-8 L (curve S L fun i j => div (ep i j) T) (fun i => rowOf L ep i / (sumOf L ep + sumOf L et)) ∧
      ShowsShares 1e-8 L (curve S L fun i j => div (et i j) T) (fun i => rowOf L et i / (sumOf L ep + sumOf L et))) := by
  have hlen : (idx L).length ≤ 10 ^ 6 := by
    rw [idx_len]
    calc (L + 1) * (2 * L + 1) ≤ 701 * 1401 := Nat.mul_le_mul (by omega) (by omega)
      _ ≤ _ := by norm_num
  have vp : val (idx L) (fun p => ep p.1 p.2) = sumOf L ep := sum_flat L fun i j => ((ep i j).num : ℝ)
  have vt : val (idx L) (fun p => et p.1 p.2) = sumOf L et := sum_flat L fun i j => ((et i j).num : ℝ)
  have sp := val_size (G := fun p : ℕ × ℕ => ep p.1 p.2) hlen fun p _ => (h.nn p.1 p.2).2
  have st := val_size (G := fun p : ℕ × ℕ => et p.1 p.2) hlen fun p _ => (h.tor p.1 p.2).2
  have p9 : (2 : ℝ) ^ 990 ≤ 2 ^ 1000 := pow_le_pow_right₀ (by norm_num) (by norm_num)
  have np := np_close hS (G := fun p : ℕ × ℕ => ep p.1 p.2) (fun p _ => (h.nn p.1 p.2).1) hlen (sp.trans p9)
  have nt := np_close hS (G := fun p : ℕ × ℕ => et p.1 p.2) (fun p _ => (h.tor p.1 p.2).1) hlen (st.trans p9)
  have ap := val_nonneg (J := idx L) (G := fun p : ℕ × ℕ => ep p.1 p.2) fun p _ => (h.nn p.1 p.2).1
  have at' := val_nonneg (J := idx L) (G := fun p : ℕ × ℕ => et p.1 p.2) fun p _ => (h.tor p.1 p.2).1
  have lp : ∀ i ≤ L, ∀ j ≤ 2 * L, ((ep i j).num : ℝ) ≤ sumOf L ep := fun i hi j hj => by
    rw [← vp]; exact val_le (G := fun p : ℕ × ℕ => ep p.1 p.2) (fun p _ => (h.nn p.1 p.2).1) (mem_idx.2 ⟨hi, hj⟩)
  have lt : ∀ i ≤ L, ∀ j ≤ 2 * L, ((et i j).num : ℝ) ≤ sumOf L et := fun i hi j hj => by
    rw [← vt]; exact val_le (G := fun p : ℕ × ℕ => et p.1 p.2) (fun p _ => (h.tor p.1 p.2).1) (mem_idx.2 ⟨hi, hj⟩)
  rw [← flat_eq, vp] at np
  rw [← flat_eq, vt] at nt
  rw [vp] at sp ap
  rw [vt] at st at'
  obtain ⟨q, eT, hd, hq⟩ := (RelF.add np.2.1 nt.2.1 (by norm_num) (by
    have e : (2 : ℝ) ^ 990 + 2 ^ 990 = 2 ^ 991 := by rw [← two_mul, ← pow_succ']
    have e2 : (2 : ℝ) ^ 991 ≤ 2 ^ (1001 : ℤ) := by rw [← zpow_natCast]; exact zpow_le_zpow_right₀ (by norm_num) (by norm_num)
    exact (add_le_add sp st).trans (e.le.trans e2))).summed (by norm_num)
  rw [hT] at eT
  clear np nt sp st p9 vp vt hT
  rcases eq_or_lt_of_le (add_nonneg ap at') with e0 | e0
  · refine Or.inl ⟨e0.symm, ?_⟩
    rw [← e0, mul_zero, sub_zero] at hq
    have q0 : q = 0 := Rat.cast_eq_zero.1 (abs_eq_zero.1 (le_antisymm hq (abs_nonneg _)))
    have z : ep 0 0 = fin false 0 := by
      have h1 := lp 0 (by omega) 0 (by omega)
      obtain ⟨p, e, hp⟩ := (h.nn 0 0).1
      rw [e] at h1 ⊢
      have : (p : ℝ) ≤ 0 := by linarith [show ((fin false p).num : ℝ) = p from rfl]
      have : p ≤ 0 := by exact_mod_cast this
      rw [le_antisymm this hp.nonneg]
    rw [FloatReport.npSum_nan (hS _) (by
      rw [flat_eq]
      refine List.mem_map.2 ⟨(0, 0), mem_idx.2 ⟨by omega, by omega⟩, ?_⟩
      show add (div (ep 0 0) T) _ = nan
      rw [z, eT, q0]
      rfl)]
    rfl
  · refine Or.inr ⟨e0, ?_⟩
    set E := sumOf L ep + sumOf L et with hE
    have nT : NN T := ⟨q, eT, hd⟩
    have hq : |(T.num : ℝ) - E| ≤ 1e-9 * E := by rw [eT]; exact hq
    have bq := abs_le.1 hq
    have t0 : (0 : ℝ) < T.num := by norm_num at bq; linarith [bq.1]
    have dp : ∀ i ≤ L, ∀ j ≤ 2 * L, NN (div (ep i j) T) ∧
        |((div (ep i j) T).num : ℝ) - (ep i j).num / T.num| ≤ (ep i j).num / T.num / 10 ^ 15 + 1 / 10 ^ 30 := fun i hi j hj =>
      nn_div (h.nn i j).1 nT t0 (by have := lp i hi j hj; norm_num at bq; linarith [bq.1])
    have dt : ∀ i ≤ L, ∀ j ≤ 2 * L, NN (div (et i j) T) ∧
        |((div (et i j) T).num : ℝ) - (et i j).num / T.num| ≤ (et i j).num / T.num / 10 ^ 15 + 1 / 10 ^ 30 := fun i hi j hj =>
      nn_div (h.tor i j).1 nT t0 (by have := lt i hi j hj; norm_num at bq; linarith [bq.1])
    have da : ∀ i ≤ L, ∀ j ≤ 2 * L, NN (add (div (ep i j) T) (div (et i j) T)) ∧
        |((add (div (ep i j) T) (div (et i j) T)).num : ℝ) - ((ep i j).num + (et i j).num) / T.num| ≤
          1 / 10 ^ 14 * (((ep i j).num + (et i j).num) / T.num) + 1 / 10 ^ 29 := fun i hi j hj => by
      obtain ⟨n1, h1⟩ := dp i hi j hj
      obtain ⟨n2, h2⟩ := dt i hi j hj
      have f1 : ((ep i j).num : ℝ) / T.num ≤ 2 := by
        rw [div_le_iff₀ t0]; have := lp i hi j hj; norm_num at bq; linarith [bq.1]
      have f2 : ((et i j).num : ℝ) / T.num ≤ 2 := by
        rw [div_le_iff₀ t0]; have := lt i hi j hj; norm_num at bq; linarith [bq.1]
      have g1 : (0 : ℝ) ≤ (ep i j).num / T.num := div_nonneg (h.nn i j).1.pos t0.le
      have g2 : (0 : ℝ) ≤ (et i j).num / T.num := div_nonneg (h.tor i j).1.pos t0.le
      have b1 := abs_le.1 h1
      have b2 := abs_le.1 h2
      obtain ⟨n3, h3⟩ := nn_add n1 n2 (by
        have : (8 : ℝ) ≤ 2 ^ 1000 := by
          calc (8 : ℝ) = 2 ^ 3 := by norm_num
            _ ≤ _ := pow_le_pow_right₀ (by norm_num) (by norm_num)
        refine le_trans ?_ this
        norm_num at b1 b2
        linarith [b1.2, b2.2])
      refine ⟨n3, ?_⟩
      have b3 := abs_le.1 h3
      rw [add_div]
      clear h1 h2 h3 bq hq hd eT hE
      generalize ((ep i j).num : ℝ) / T.num = x at *
      generalize ((et i j).num : ℝ) / T.num = y at *
      rw [abs_le]
      norm_num at b1 b2 b3 ⊢
      constructor <;> linarith [b1.1, b1.2, b2.1, b2.2, b3.1, b3.2]
    have weak : ∀ {x g : ℝ}, 0 ≤ g → |x - g| ≤ g / 10 ^ 15 + 1 / 10 ^ 30 → |x - g| ≤ 1 / 10 ^ 14 * g + 1 / 10 ^ 29 := fun h0 h => by
      refine h.trans ?_
      norm_num
      linarith
    have r0p : ∀ i, 0 ≤ rowOf L ep i := fun i => Finset.sum_nonneg fun j _ => (h.nn i j).1.pos
    have r0t : ∀ i, 0 ≤ rowOf L et i := fun i => Finset.sum_nonneg fun j _ => (h.tor i j).1.pos
    have part : ∀ {f : ℕ → ℝ} {l : ℕ}, (∀ i, 0 ≤ f i) → l ≤ L + 1 → ∑ i ∈ Finset.range l, f i ≤ ∑ i ∈ Finset.range (L + 1), f i := fun h0 hl =>
      Finset.sum_le_sum_of_subset_of_nonneg (by simpa using hl) fun i _ _ => h0 i
    have one : ∀ {f : ℕ → ℝ} {i : ℕ}, (∀ i, 0 ≤ f i) → i ≤ L → f i ≤ ∑ i ∈ Finset.range (L + 1), f i := fun h0 hi =>
      Finset.single_le_sum (fun i _ => h0 i) (by simp; omega)
    have mrow : ∀ {p : ℕ × ℕ} {i}, p ∈ idxRow L i → p.1 = i ∧ p.2 ≤ 2 * L := fun hp => by
      unfold idxRow at hp
      obtain ⟨j, hj, rfl⟩ := List.mem_map.1 hp
      exact ⟨rfl, by simp at hj; omega⟩
    have lrow : ∀ i, (idxRow L i).length ≤ 10 ^ 6 := fun i => by simp [idxRow]; omega
    -- a curve from entrywise errors
    have curveOf : ∀ (G : ℕ → ℕ → PyFloat) (g : ℕ → ℕ → ℝ), (∀ i j, 0 ≤ g i j) → (∀ i ≤ L, ∀ j ≤ 2 * L, NN (G i j) ∧
        |((G i j).num : ℝ) - g i j / T.num| ≤ 1 / 10 ^ 14 * (g i j / T.num) + 1 / 10 ^ 29) →
        (∑ i ∈ Finset.range (L + 1), ∑ j ∈ Finset.range (2 * L + 1), g i j ≤ E) →
        ShowsShares 1e-8 L (curve S L G) (fun i => (∑ j ∈ Finset.range (2 * L + 1), g i j) / E) := by
      intro G g g0 hG hs
      have R0 : ∀ i, 0 ≤ ∑ j ∈ Finset.range (2 * L + 1), g i j := fun i => Finset.sum_nonneg fun j _ => g0 i j
      refine curve_shows hL (fun l => div_nonneg (R0 l) e0.le) (fun i hi => ?_) (fun l hl => ?_)
      · have := scaled_sum hS e0 hq (J := idxRow L i) (G := fun p => G p.1 p.2) (g := fun p => g p.1 p.2)
          (fun p hp => by obtain ⟨rfl, h2⟩ := mrow hp; exact (hG _ hi _ h2).1) (fun p _ => g0 _ _)
          (fun p hp => by obtain ⟨rfl, h2⟩ := mrow hp; exact (hG _ hi _ h2).2) (lrow i)
          (by rw [sum_row]; have := one R0 hi; linarith)
        rw [← row_eq, sum_row] at this
        exact this
      · rw [← Finset.sum_div, div_le_one e0]
        exact (part R0 hl).trans hs
    refine ⟨?_, fun i hi j hj => ?_, ?_, ?_, ?_⟩
    · have := scaled_sum hS e0 hq (J := idx L) (G := fun p => add (div (ep p.1 p.2) T) (div (et p.1 p.2) T))
        (g := fun p => ((ep p.1 p.2).num : ℝ) + (et p.1 p.2).num)
        (fun p hp => by obtain ⟨h1, h2⟩ := mem_idx.1 (show (p.1, p.2) ∈ idx L from hp); exact (da _ h1 _ h2).1)
        (fun p _ => add_nonneg (h.nn _ _).1.pos (h.tor _ _).1.pos)
        (fun p hp => by obtain ⟨h1, h2⟩ := mem_idx.1 (show (p.1, p.2) ∈ idx L from hp); exact (da _ h1 _ h2).2) hlen
        (by
          rw [sum_flat L fun i j => ((ep i j).num : ℝ) + (et i j).num]
          simp only [Finset.sum_add_distrib]
          show sumOf L ep + sumOf L et ≤ _
          linarith)
      rw [sum_flat L fun i j => ((ep i j).num : ℝ) + (et i j).num] at this
      simp only [Finset.sum_add_distrib] at this
      rw [show ∑ i ∈ Finset.range (L + 1), ∑ j ∈ Finset.range (2 * L + 1), ((ep i j).num : ℝ) +
        ∑ i ∈ Finset.range (L + 1), ∑ j ∈ Finset.range (2 * L + 1), ((et i j).num : ℝ) = E from rfl, div_self e0.ne'] at this
      rw [flat_eq]
      exact close_one this.1 (this.2.trans (by norm_num))
    · obtain ⟨b, nb, e, hs⟩ := h.pol i j
      have hle := lp i hi j hj
      rw [e] at hle ⊢
      exact rest_close (h.rad i j) nb nT t0 hs (by norm_num at bq; linarith [bq.1])
    · have := curveOf (fun i j => add (div (ep i j) T) (div (et i j) T)) (fun i j => ((ep i j).num : ℝ) + (et i j).num)
        (fun i j => add_nonneg (h.nn _ _).1.pos (h.tor _ _).1.pos) da (by simp only [Finset.sum_add_distrib]; exact le_refl E)
      simp only [Finset.sum_add_distrib] at this
      exact this
    · exact curveOf (fun i j => div (ep i j) T) (fun i j => ((ep i j).num : ℝ)) (fun i j => (h.nn _ _).1.pos)
        (fun i hi j hj => ⟨(dp i hi j hj).1, weak (div_nonneg (h.nn i j).1.pos t0.le) (dp i hi j hj).2⟩)
        (show sumOf L ep ≤ E by linarith)
    · exact curveOf (fun i j => div (et i j) T) (fun i j => ((et i j).num : ℝ)) (fun i j => (h.tor _ _).1.pos)
        (fun i hi j hj => ⟨(dt i hi j hj).1, weak (div_nonneg (h.tor i j).1.pos t0.le) (dt i hi j hj).2⟩)
        (show sumOf L et ≤ E by linarith)

theorem tree_nonfin (t : SumTree) {x : PyFloat} (h : x ∈ t.terms) (hx : isFin x = false) : isFin (t.sum id) = false := by
  induction t with
  | leaf y =>
    obtain rfl : x = y := by simpa [SumTree.terms] using h
    exact hx
  | node a b iha ihb =>
    rcases List.mem_append.1 (show x ∈ a.terms ++ b.terms from h) with h | h
    · exact nonfin_add (Or.inl (iha h))
    · exact nonfin_add (Or.inr (ihb h))

theorem npSum_nonfin {xs : List PyFloat} {v x : PyFloat} (h : IsNpSum xs v) (hx : x ∈ xs) (hf : isFin x = false) : isFin v = false := by
  rcases h with ⟨rfl, -⟩ | ⟨-, t, ss, hp, rfl⟩
  · simp at hx
  · exact tree_nonfin t (hp.mem_iff.2 (by simp [hx])) hf

theorem div_nonfin {x y : PyFloat} (hx : isFin x = false) (hy : isFin y = false) : div x y = nan := by
  cases x <;> cases y <;> simp_all [isFin, div]

theorem good {z : List ERow} (hz : ∀ r ∈ z, RowIn 479 r) (L : ℕ) :
    Good (roll L (assign (z.map fun r => (at_ L r, En .alpha r)))) (roll L (assign (z.map fun r => (at_ L r, Pol r))))
      (roll L (assign (z.map fun r => (at_ L r, En .gamma r)))) := by
  have p : (2 : ℝ) ^ 960 ≤ 2 ^ 962 := pow_le_pow_right₀ (by norm_num) (by norm_num)
  have p2 : (2 : ℝ) ^ 960 + 2 ^ 960 = 2 ^ 961 := by rw [← two_mul, ← pow_succ']
  refine ⟨fun i j => ?_, fun i j => ?_, fun i j => ?_⟩ <;> obtain ⟨a, b, g, na, nb, ng, ha, hb, hg, e1, e2, e3⟩ := entry_nn hz L i j
  · rw [e1]; exact na
  · refine ⟨b, nb, by rw [e2, e1], ?_⟩
    rw [e1, ← p2]
    exact add_le_add ha hb
  · rw [e3]; exact ⟨ng, hg.trans p⟩

/-! ### Shares of the exact energies -/

theorem entry_val {z : List ERow} {L : ℕ} (h : ∀ s ∈ z, |s.m| ≤ s.l ∧ s.l ≤ L) (hn : (z.map fun r => (r.l, r.m)).Nodup)
    (f : ERow → PyFloat) {i j : ℕ} (hj : j ≤ 2 * L) : ((roll L (assign (z.map fun r => (at_ L r, f r))) i j).num : ℝ) =
      (z.map fun r : ERow => if r.l = (i : ℤ) ∧ r.m + (L : ℤ) = (j : ℤ) then ((f r).num : ℝ) else 0).sum := by
  by_cases hx : ∃ r ∈ z, r.l = i ∧ r.m + L = j
  · obtain ⟨r, hr, h1, h2⟩ := hx
    obtain ⟨u, v, rfl⟩ := List.append_of_mem hr
    rw [List.map_append, List.map_cons, List.nodup_append] at hn
    obtain ⟨-, n2, n3⟩ := hn
    rw [List.nodup_cons] at n2
    have hv : ∀ s ∈ v, ¬ (s.l = r.l ∧ s.m = r.m) := fun s hs e =>
      n2.1 (List.mem_map.2 ⟨s, hs, by rw [e.1, e.2]⟩)
    have hu : ∀ s ∈ u, ¬ (s.l = r.l ∧ s.m = r.m) := fun s hs e =>
      n3 _ (List.mem_map.2 ⟨s, hs, rfl⟩) _ List.mem_cons_self (by rw [e.1, e.2])
    rw [entry_last L u v r f h hv h1.symm h2.symm, List.map_append, List.sum_append, List.map_cons, List.sum_cons, if_pos ⟨h1, h2⟩]
    have z0 : ∀ w : List ERow, (∀ s ∈ w, ¬ (s.l = r.l ∧ s.m = r.m)) →
        (w.map fun r : ERow => if r.l = (i : ℤ) ∧ r.m + (L : ℤ) = (j : ℤ) then ((f r).num : ℝ) else 0).sum = 0 := fun w hw =>
      List.sum_eq_zero fun x hx => by
        obtain ⟨s, hs, rfl⟩ := List.mem_map.1 hx
        exact if_neg fun e => hw s hs ⟨by omega, by omega⟩
    rw [z0 u hu, z0 v hv]
    ring
  · rw [entry_zero L z f h hj (fun s hs e => hx ⟨s, hs, e⟩), List.sum_eq_zero fun x hx' => ?_]
    · simp [PyFloat.num]
    · obtain ⟨s, hs, rfl⟩ := List.mem_map.1 hx'
      exact if_neg fun e => hx ⟨s, hs, e⟩

theorem swap_sum {α : Type} (J : Finset ℕ) (z : List α) (g : ℕ → α → ℝ) :
    ∑ j ∈ J, (z.map (g j)).sum = (z.map fun r => ∑ j ∈ J, g j r).sum := by
  induction z with
  | nil => simp
  | cons r z ih => simp only [List.map_cons, List.sum_cons, Finset.sum_add_distrib, ih]

/-- The sum of `e` over the rows of the degrees selected. -/
noncomputable def over (z : List ERow) (p : ℤ → Bool) (e : ERow → ℝ) : ℝ := (z.map fun r => if p r.l then e r else 0).sum

theorem row_val {z : List ERow} {L : ℕ} (h : ∀ s ∈ z, |s.m| ≤ s.l ∧ s.l ≤ L) (hn : (z.map fun r => (r.l, r.m)).Nodup)
    (f : ERow → PyFloat) (i : ℕ) : rowOf L (roll L (assign (z.map fun r => (at_ L r, f r)))) i =
      over z (fun l => l = i) fun r => ((f r).num : ℝ) := by
  unfold rowOf over
  rw [Finset.sum_congr rfl fun j hj => entry_val h hn f (by simp at hj; omega), swap_sum]
  congr 1
  refine List.map_congr_left fun r hr => ?_
  obtain ⟨h1, h2⟩ := h r hr
  obtain ⟨h3, h4⟩ := abs_le.1 h1
  rw [Finset.sum_eq_single (r.m + L).toNat]
  · rw [Int.toNat_of_nonneg (by omega)]
    simp
  · intro j _ hne
    exact if_neg fun e => hne (by omega)
  · intro hni
    exact absurd (Finset.mem_range.2 (by omega)) hni

/-- The sum over the first degrees. -/
theorem rows_val {z : List ERow} (h : ∀ s ∈ z, 0 ≤ s.l) (e : ERow → ℝ) (n : ℕ) :
    ∑ i ∈ Finset.range n, over z (fun l => l = i) e = over z (fun l => l < n) e := by
  unfold over
  rw [swap_sum]
  congr 1
  refine List.map_congr_left fun r hr => ?_
  have h0 := h r hr
  by_cases hl : r.l < n
  · rw [Finset.sum_eq_single r.l.toNat]
    · rw [Int.toNat_of_nonneg h0]; simp [hl]
    · intro j _ hne
      exact if_neg (by simp; omega)
    · intro hni
      exact absurd (Finset.mem_range.2 (by omega)) hni
  · rw [Finset.sum_eq_zero fun j hj => if_neg (by simp at hj ⊢; omega)]
    simp [hl]

theorem over_rel {z : List ERow} {x y : ERow → ℝ} {δ : ℝ} (h : ∀ r ∈ z, |x r - y r| ≤ δ * y r) (p : ℤ → Bool) :
    |over z p x - over z p y| ≤ δ * over z p y := by
  unfold over
  induction z with
  | nil => simp
  | cons r z ih =>
    have i1 := ih fun r hr => h r (List.mem_cons_of_mem _ hr)
    have i2 := h r List.mem_cons_self
    simp only [List.map_cons, List.sum_cons]
    have i3 : |(if p r.l then x r else 0) - (if p r.l then y r else 0)| ≤ δ * (if p r.l then y r else 0) := by
      split_ifs
      · exact i2
      · simp
    rw [abs_le] at *
    constructor <;> linarith [i1.1, i1.2, i3.1, i3.2]

theorem over_nonneg {z : List ERow} {y : ERow → ℝ} (h : ∀ r ∈ z, 0 ≤ y r) (p : ℤ → Bool) : 0 ≤ over z p y := by
  refine List.sum_nonneg fun x hx => ?_
  obtain ⟨r, hr, rfl⟩ := List.mem_map.1 hx
  split_ifs
  · exact h r hr
  · exact le_rfl

theorem over_le {z : List ERow} {y y' : ERow → ℝ} (h : ∀ r ∈ z, 0 ≤ y r ∧ y r ≤ y' r) (p : ℤ → Bool) :
    over z p y ≤ over z (fun _ => true) y' := by
  refine List.sum_le_sum fun r hr => ?_
  have := h r hr
  simp only [if_true]
  split_ifs
  · exact this.2
  · exact this.1.trans this.2

theorem over_add (z : List ERow) (x y : ERow → ℝ) (p : ℤ → Bool) : over z p (fun r => x r + y r) = over z p x + over z p y := by
  unfold over
  rw [← List.sum_map_add]
  congr 1
  refine List.map_congr_left fun r _ => ?_
  split_ifs <;> simp

theorem over_energy (z : List ERow) (p : ℤ → Bool) (ks : List Zdi.Comp) :
    energyIn (z.map exactCoef) (fun l _ => p l) ks = over z p fun r => (ks.map fun k => specEnergy k (exactCoef r)).sum := by
  unfold energyIn over
  induction z with
  | nil => simp
  | cons r z ih =>
    rw [List.map_cons, List.filter_cons, List.map_cons, List.sum_cons, ← ih]
    have : (exactCoef r).l = r.l := rfl
    rw [this]
    split_ifs <;> simp

theorem share_close {R E R' E' : ℝ} (h0 : 0 < E') (hE : |E - E'| ≤ 1 / 2 ^ 48 * E') (hR : |R - R'| ≤ 1 / 2 ^ 48 * R') (r0 : 0 ≤ R')
    (r1 : R' ≤ E') : |R / E - R' / E'| ≤ 1e-8 := by
  have b := abs_le.1 hE
  have e0 : E' / 2 ≤ E := by norm_num at b; linarith [b.1]
  have ep : 0 < E := by linarith
  rw [div_sub_div _ _ ep.ne' h0.ne', abs_div, abs_of_pos (mul_pos ep h0), div_le_iff₀ (mul_pos ep h0)]
  have e : R * E' - E * R' = (R - R') * E' - (E - E') * R' := by ring
  rw [e]
  refine (abs_sub _ _).trans ?_
  rw [abs_mul, abs_mul, abs_of_pos h0, abs_of_nonneg r0]
  have m1 := mul_le_mul_of_nonneg_right hR h0.le
  have m2 := mul_le_mul_of_nonneg_right hE r0
  have m3 := mul_le_mul_of_nonneg_right r1 h0.le
  have m4 := mul_le_mul_of_nonneg_right e0 h0.le
  norm_num at m1 m2 ⊢
  nlinarith

theorem shows_mono {L : ℕ} {c : List PyFloat × List PyFloat} {f g : ℕ → ℝ} (h : ShowsShares 1e-8 L c f) (h1 : ∀ i, |f i - g i| ≤ 1e-8)
    (h2 : ∀ l, |∑ i ∈ Finset.range l, f i - ∑ i ∈ Finset.range l, g i| ≤ 1e-8) : ShowsShares 2e-8 L c g := by
  refine ⟨h.1, h.2.1, fun l hl => ?_⟩
  obtain ⟨⟨y, e, n, hy⟩, w, e', n', hw⟩ := h.2.2 l hl
  refine ⟨⟨y, e, n, ?_⟩, w, e', n', ?_⟩
  · have := (abs_sub_le (y.num : ℝ) (f (l + 1)) (g (l + 1))).trans (add_le_add hy (h1 _))
    norm_num at this ⊢; exact this
  · have := (abs_sub_le (w.num : ℝ) _ _).trans (add_le_add hw (h2 (l + 2)))
    norm_num at this ⊢; exact this

theorem shows_exact {z : List ERow} {L : ℕ} (hz : ∀ s ∈ z, 0 ≤ s.l) {c : List PyFloat × List PyFloat} {x y : ERow → ℝ} {E : ℝ} {y' : ERow → ℝ}
    (h : ShowsShares 1e-8 L c fun i => over z (fun l => l = i) x / E) (hxy : ∀ r ∈ z, |x r - y r| ≤ 1 / 2 ^ 48 * y r)
    (hy : ∀ r ∈ z, 0 ≤ y r ∧ y r ≤ y' r) (h0 : 0 < over z (fun _ => true) y')
    (hE : |E - over z (fun _ => true) y'| ≤ 1 / 2 ^ 48 * over z (fun _ => true) y') :
    ShowsShares 2e-8 L c fun i => over z (fun l => l = i) y / over z (fun _ => true) y' := by
  refine shows_mono h (fun i => ?_) fun n => ?_
  · exact share_close h0 hE (over_rel hxy _) (over_nonneg (fun r hr => (hy r hr).1) _) (over_le hy _)
  · rw [← Finset.sum_div, ← Finset.sum_div, rows_val hz, rows_val hz]
    exact share_close h0 hE (over_rel hxy _) (over_nonneg (fun r hr => (hy r hr).1) _) (over_le hy _)

end FloatDegree

open FloatDegree FloatMatrix FloatEnergy

/-- **C134.** `plot_energy_by_degree` with `scaled=True`, in double precision, for all sets of coefficients with `|m| ≤ l ≤ 700` whose
parts are zero or neither tiny nor huge, and for every order of summation: if the energy is not zero, both assertions hold and the six
curves show each degree's share of the energy of the matrix, and the share of all degrees up to it, to `1e-8`; if all energies are zero,
it raises `AssertionError`. -/
theorem C134_scaled (S : List PyFloat → PyFloat) (hS : ∀ xs, IsNpSum xs (S xs)) (z : List ERow) (hne : z ≠ [])
    (h : ∀ r ∈ z, |r.m| ≤ r.l ∧ r.l ≤ 700) (hz : ∀ r ∈ z, RowIn 479 r) :
    ∃ (L : ℕ) (er ep et : ℕ → ℕ → PyFloat), energyMatrix z = .ok (L, er, ep, et) ∧
      ((sumOf L ep + sumOf L et = 0 ∧ energyByDegree S z true = .error .assertion) ∨
      (0 < sumOf L ep + sumOf L et ∧ ∃ total pol tor, energyByDegree S z true = .ok (total, pol, tor) ∧
        ShowsShares 1e-8 L total (fun i => (rowOf L ep i + rowOf L et i) / (sumOf L ep + sumOf L et)) ∧
        ShowsShares 1e-8 L pol (fun i => rowOf L ep i / (sumOf L ep + sumOf L et)) ∧
        ShowsShares 1e-8 L tor (fun i => rowOf L et i / (sumOf L ep + sumOf L et)))) := by
  obtain ⟨L, ⟨r, hr, hl⟩, h2, h3⟩ := matrix_eq z hne fun r hr => (h r hr).1
  have hL : L ≤ 700 := by have := (h r hr).2; omega
  refine ⟨L, _, _, _, h3, ?_⟩
  rcases scaled_core hS hL (good hz L) rfl with ⟨h0, h1⟩ | ⟨h0, h1, h2, h4⟩
  · refine Or.inl ⟨h0, ?_⟩
    rw [energyByDegree, h3]
    simp only [bind, Except.bind, if_true, resAssert, h1]
    rfl
  · refine Or.inr ⟨h0, _, _, _, ?_, h4⟩
    rw [energyByDegree, h3]
    have : ((List.range (L + 1)).all fun i => (List.range (2 * L + 1)).all fun j =>
        isClose (add (div (roll L (assign (z.map fun r => (at_ L r, En .alpha r))) i j) (add (S (flat L (roll L (assign (z.map fun r => (at_ L r, Pol r)))))) (S (flat L (roll L (assign (z.map fun r => (at_ L r, En .gamma r))))))))
          (div (sub (roll L (assign (z.map fun r => (at_ L r, Pol r))) i j) (roll L (assign (z.map fun r => (at_ L r, En .alpha r))) i j)) (add (S (flat L (roll L (assign (z.map fun r => (at_ L r, Pol r)))))) (S (flat L (roll L (assign (z.map fun r => (at_ L r, En .gamma r)))))))))
          (div (roll L (assign (z.map fun r => (at_ L r, Pol r))) i j) (add (S (flat L (roll L (assign (z.map fun r => (at_ L r, Pol r)))))) (S (flat L (roll L (assign (z.map fun r => (at_ L r, En .gamma r))))))))) = true := by
      simp only [List.all_eq_true, List.mem_range]
      exact fun i hi j hj => h2 i (by omega) j (by omega)
    simp only [bind, Except.bind, if_true, resAssert, h1, this, pure, Except.pure]

/-- **C134.** The shares shown are those of the exact energies of the coefficients, to `2e-8`: no pair twice, and the axisymmetric
coefficients real. -/
theorem C134_field (S : List PyFloat → PyFloat) (hS : ∀ xs, IsNpSum xs (S xs)) (z : List ERow)
    (h : ∀ r ∈ z, |r.m| ≤ r.l ∧ r.l ≤ 700) (hn : (z.map fun r => (r.l, r.m)).Nodup) (hz : ∀ r ∈ z, RowIn 479 r ∧ AxialReal r)
    (hE : 0 < energyIn (z.map exactCoef) (fun _ _ => true) [.alpha, .beta, .gamma]) :
    ∃ (L : ℕ) (total pol tor : List PyFloat × List PyFloat), ((∃ r ∈ z, r.l = L) ∧ ∀ r ∈ z, r.l ≤ L) ∧
      energyByDegree S z true = .ok (total, pol, tor) ∧
      ShowsShares 2e-8 L total (fun i => energyIn (z.map exactCoef) (fun l _ => l = i) [.alpha, .beta, .gamma] /
        energyIn (z.map exactCoef) (fun _ _ => true) [.alpha, .beta, .gamma]) ∧
      ShowsShares 2e-8 L pol (fun i => energyIn (z.map exactCoef) (fun l _ => l = i) [.alpha, .beta] /
        energyIn (z.map exactCoef) (fun _ _ => true) [.alpha, .beta, .gamma]) ∧
      ShowsShares 2e-8 L tor (fun i => energyIn (z.map exactCoef) (fun l _ => l = i) [.gamma] /
        energyIn (z.map exactCoef) (fun _ _ => true) [.alpha, .beta, .gamma]) := by
  have hne : z ≠ [] := by rintro rfl; simp [energyIn] at hE
  obtain ⟨L', er, ep, et, em, hc⟩ := C134_scaled S hS z hne h fun r hr => (hz r hr).1
  obtain ⟨L, h1, h2, h3⟩ := matrix_eq z hne fun r hr => (h r hr).1
  rw [h3] at em
  simp only [Except.ok.injEq, Prod.mk.injEq] at em
  obtain ⟨rfl, -, rfl, rfl⟩ := em
  have hb : ∀ s ∈ z, |s.m| ≤ s.l ∧ s.l ≤ L := fun s hs => ⟨(h s hs).1, h2 s hs⟩
  have hl0 : ∀ s ∈ z, 0 ≤ s.l := fun s hs => (abs_nonneg _).trans (h s hs).1
  have tot : ∀ f : ERow → PyFloat, sumOf L (roll L (assign (z.map fun r => (at_ L r, f r)))) = over z (fun _ => true) fun r => ((f r).num : ℝ) := by
    intro f
    unfold sumOf
    rw [Finset.sum_congr rfl fun i _ => row_val hb hn f i, rows_val hl0]
    unfold over
    congr 1
    refine List.map_congr_left fun r hr => ?_
    have := h2 r hr
    simp; omega
  have rP : ∀ r ∈ z, |((Pol r).num : ℝ) - (specEnergy .alpha (exactCoef r) + specEnergy .beta (exactCoef r))| ≤
      1 / 2 ^ 48 * (specEnergy .alpha (exactCoef r) + specEnergy .beta (exactCoef r)) := fun r hr => by
    obtain ⟨q, e, -, hq⟩ := RelF.sum (Pol_rel (FloatEnergy.RowIn.mono (by norm_num) (hz r hr).1) (hz r hr).2) (by norm_num)
    rw [e]; exact hq
  have rT : ∀ r ∈ z, |((En .gamma r).num : ℝ) - specEnergy .gamma (exactCoef r)| ≤ 1 / 2 ^ 48 * specEnergy .gamma (exactCoef r) := fun r hr => by
    obtain ⟨q, e, -, hq⟩ := RelF.sum (En_rel (FloatEnergy.RowIn.mono (by norm_num) (hz r hr).1) (hz r hr).2 .gamma) (by norm_num)
    rw [e]; exact hq
  have s0 : ∀ r ∈ z, ∀ k, 0 ≤ specEnergy k (exactCoef r) := fun r hr k =>
    (En_rel (FloatEnergy.RowIn.mono (by norm_num) (hz r hr).1) (hz r hr).2 k).nonneg
  have rA : ∀ r ∈ z, |(((Pol r).num : ℝ) + (En .gamma r).num) -
      (specEnergy .alpha (exactCoef r) + specEnergy .beta (exactCoef r) + specEnergy .gamma (exactCoef r))| ≤
      1 / 2 ^ 48 * (specEnergy .alpha (exactCoef r) + specEnergy .beta (exactCoef r) + specEnergy .gamma (exactCoef r)) := fun r hr => by
    have a := abs_le.1 (rP r hr)
    have b := abs_le.1 (rT r hr)
    rw [abs_le]
    constructor <;> linarith [a.1, a.2, b.1, b.2]
  have eA : ∀ p, energyIn (z.map exactCoef) (fun l _ => p l) [.alpha, .beta, .gamma] =
      over z p fun r => specEnergy .alpha (exactCoef r) + specEnergy .beta (exactCoef r) + specEnergy .gamma (exactCoef r) := fun p => by
    rw [over_energy]; congr 1; funext r; simp [add_assoc]
  have eP : ∀ p, energyIn (z.map exactCoef) (fun l _ => p l) [.alpha, .beta] =
      over z p fun r => specEnergy .alpha (exactCoef r) + specEnergy .beta (exactCoef r) := fun p => by
    rw [over_energy]; congr 1; funext r; simp
  have eT : ∀ p, energyIn (z.map exactCoef) (fun l _ => p l) [.gamma] = over z p fun r => specEnergy .gamma (exactCoef r) := fun p => by
    rw [over_energy]; congr 1; funext r; simp
  rw [tot, tot, ← over_add] at hc
  simp only [row_val hb hn, ← over_add] at hc
  simp only [eA (fun _ => true)] at hE ⊢
  have hR := over_rel rA fun _ => true
  rcases hc with ⟨c0, -⟩ | ⟨-, total, pol, tor, e, t1, t2, t3⟩
  · rw [c0] at hR
    have := (abs_le.1 hR).1
    norm_num at this
    linarith
  · refine ⟨L, total, pol, tor, ⟨h1, h2⟩, e, ?_, ?_, ?_⟩
    · simp only [eA fun l => decide (l = _)]
      exact shows_exact hl0 t1 rA (fun r hr => ⟨by have := s0 r hr; linarith [this .alpha, this .beta, this .gamma], le_rfl⟩) hE hR
    · simp only [eP fun l => decide (l = _)]
      exact shows_exact hl0 t2 rP (fun r hr => by have := s0 r hr; constructor <;> linarith [this .alpha, this .beta, this .gamma]) hE hR
    · simp only [eT fun l => decide (l = _)]
      exact shows_exact hl0 t3 rT (fun r hr => by have := s0 r hr; constructor <;> linarith [this .alpha, this .beta, this .gamma]) hE hR

/-- **C134.** Without scaling there is nothing to assert: with `|m| ≤ l` the figure is drawn whatever the numbers are. -/
theorem C134_raw (S : List PyFloat → PyFloat) (z : List ERow) (hne : z ≠ []) (h : ∀ r ∈ z, |r.m| ≤ r.l) :
    ∃ (L : ℕ) (er ep et : ℕ → ℕ → PyFloat), energyMatrix z = .ok (L, er, ep, et) ∧
      energyByDegree S z false = .ok (curve S L (fun i j => add (ep i j) (et i j)), curve S L ep, curve S L et) := by
  obtain ⟨L, -, -, h3⟩ := matrix_eq z hne h
  refine ⟨L, _, _, _, h3, ?_⟩
  rw [energyByDegree, h3]
  rfl

/-- **C134.** If the last row of a pair has a part that is infinite, not a number or at least `2 ^ 512`, the scaled figure ends in
`AssertionError`, whatever the other coefficients are and in whatever order numpy adds. -/
theorem C134_overflow (S : List PyFloat → PyFloat) (hS : ∀ xs, IsNpSum xs (S xs)) (u v : List ERow) (r : ERow)
    (h : ∀ s ∈ u ++ r :: v, |s.m| ≤ s.l) (hv : ∀ s ∈ v, ¬ (s.l = r.l ∧ s.m = r.m))
    (ht : TooLarge r.a ∨ TooLarge r.b ∨ TooLarge r.g) : energyByDegree S (u ++ r :: v) true = .error .assertion := by
  obtain ⟨L, er, ep, et, e, -, hl, he, -⟩ := C132_matrix (u ++ r :: v) (by simp) h
  have hr := h r (by simp)
  have hL := hl r (by simp)
  obtain ⟨h3, h4⟩ := abs_le.1 hr
  have hi : ((r.l.toNat : ℕ) : ℤ) = r.l := Int.toNat_of_nonneg (by omega)
  have hj : (((r.m + L).toNat : ℕ) : ℤ) = r.m + L := Int.toNat_of_nonneg (by omega)
  obtain ⟨-, ha, hb, hg⟩ := he u r v rfl hv _ _ hi hj
  have hm : (r.l.toNat, (r.m + L).toNat) ∈ idx L := mem_idx.2 ⟨by omega, by omega⟩
  generalize r.l.toNat = i at *
  generalize (r.m + L).toNat = j at *
  have mem : ∀ a : ℕ → ℕ → PyFloat, a i j ∈ flat L a := fun a => by
    rw [flat_eq]; exact List.mem_map.2 ⟨(i, j), hm, rfl⟩
  have key : add (div (ep i j) (add (S (flat L ep)) (S (flat L et)))) (div (et i j) (add (S (flat L ep)) (S (flat L et)))) = nan := by
    rcases (show isFin (ep i j) = false ∨ isFin (et i j) = false from
      ht.elim (fun t => Or.inl (ha t).2) fun t => t.elim (fun t => Or.inl (hb t)) fun t => Or.inr (hg t)) with n | n
    · rw [div_nonfin n (nonfin_add (Or.inl (npSum_nonfin (hS _) (mem ep) n))), FloatReport.nan_add]
    · rw [div_nonfin n (nonfin_add (Or.inr (npSum_nonfin (hS _) (mem et) n))), FloatEnergy.add_nan]
  have hn : S (flat L fun i j => add (div (ep i j) (add (S (flat L ep)) (S (flat L et)))) (div (et i j) (add (S (flat L ep)) (S (flat L et))))) = nan :=
    FloatReport.npSum_nan (hS _) (by
      rw [← key]
      exact mem fun i j => add (div (ep i j) (add (S (flat L ep)) (S (flat L et)))) (div (et i j) (add (S (flat L ep)) (S (flat L et)))))
  rw [energyByDegree, e]
  simp only [bind, Except.bind, if_true, resAssert, hn]
  rfl

/-! ### Examples -/

/-- Non-vacuity of C134. -/
example := C134_scaled exSum exSum_ok exQuad (by simp [exQuad]) (by simp [exQuad]) fun r hr => RowIn.mono (by norm_num) (exQuad_ok r hr).1
example := C134_field exSum exSum_ok exQuad (by simp [exQuad]) (by decide)
  (fun r hr => ⟨RowIn.mono (by norm_num) (exQuad_ok r hr).1, (exQuad_ok r hr).2⟩) (by
    simp [exQuad, energyIn, exactCoef, specEnergy, exInt, num, Zdi.Comp.of]
    norm_num)
example := C134_raw exSum exQuad (by simp [exQuad]) (by simp [exQuad])
example := C134_overflow exSum exSum_ok [⟨1, 1, (fin false (2 ^ 512), fin false 0), exInt 0, exInt 0⟩] []
  ⟨1, 1, (fin false 0, inf true), exInt 0, exInt 0⟩ (by simp) (by simp) (Or.inl ⟨_, Or.inr rfl, Or.inl rfl⟩)

/-- The case of energy: all energy of this field is in the degree 2. -/
example : (energyByDegree exSum exQuad true).toOption.map (fun c => c.1.2) = some [fin false 0, fin false 1] := by
  decide +kernel

/-- The case without energy. -/
example : energyByDegree exSum [⟨1, 0, exInt 0, exInt 0, exInt 0⟩] true = .error .assertion := by
  decide +kernel

end Verif
