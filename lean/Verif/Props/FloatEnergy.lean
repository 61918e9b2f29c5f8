import Verif.Lemmas.FloatEnergy
import Verif.Props.EnergyText

/-!
# C117: the energies in double precision
-/

set_option exponentiation.threshold 4000

namespace Verif
open PyFloat

/-! ### Specification -/

/-- A double that is zero or has a magnitude from `2 ^ -k` to `2 ^ k`. -/
def Spec.PartIn (k : ℤ) (x : PyFloat) : Prop :=
  ∃ s q, x = fin s q ∧ IsDouble q ∧ (q = 0 ∨ (2 : ℚ) ^ (-k) ≤ q) ∧ q ≤ 2 ^ k

/-- A coefficient whose parts have such magnitudes; the degree is not negative (and is a double). -/
structure Spec.RowIn (k : ℤ) (r : FloatEnergy.ERow) : Prop where
  degree : 0 ≤ r.l ∧ r.l < 2 ^ 53
  a : PartIn k r.a.1 ∧ PartIn k r.a.2
  b : PartIn k r.b.1 ∧ PartIn k r.b.2
  g : PartIn k r.g.1 ∧ PartIn k r.g.2

/-- The coefficients of order 0 are real. -/
def Spec.AxialReal (r : FloatEnergy.ERow) : Prop := r.m = 0 → r.a.2.num = 0 ∧ r.b.2.num = 0 ∧ r.g.2.num = 0

/-- The coefficient as complex numbers. -/
noncomputable def Spec.exactCoef (r : FloatEnergy.ERow) : ZRow :=
  ⟨r.l, r.m, ⟨(r.a.1.num : ℝ), (r.a.2.num : ℝ)⟩, ⟨(r.b.1.num : ℝ), (r.b.2.num : ℝ)⟩, ⟨(r.g.1.num : ℝ), (r.g.2.num : ℝ)⟩⟩

/-- `v` is the sum of the floats `xs` in some order, starting with a zero or not; nothing sums to 0. -/
def Spec.IsNpSum (xs : List PyFloat) (v : PyFloat) : Prop :=
  (xs = [] ∧ v = fin false 0) ∨
    (xs ≠ [] ∧ ∃ (t : FloatRange.SumTree) (ss : List Bool), t.terms.Perm (xs ++ ss.map fun s => fin s 0) ∧ v = t.sum id)

open Spec

namespace FloatEnergy
open FloatRange FloatSets FloatCoords FloatError FloatRound

/-! ### One coefficient -/

theorem PartIn.fd {k : ℤ} {x : PyFloat} (h : PartIn k x) : Fd x := by
  obtain ⟨s, q, rfl, hd, -⟩ := h; exact ⟨s, q, rfl, hd⟩

theorem PartIn.bounds {k : ℤ} {x : PyFloat} (h : PartIn k x) : (x.num = 0 ∨ (2 : ℚ) ^ (-k) ≤ |x.num|) ∧ |x.num| ≤ 2 ^ k := by
  obtain ⟨s, q, rfl, hd, h1, h2⟩ := h
  rw [num_abs s hd.nonneg]
  refine ⟨h1.imp (fun e => by rw [e, num_zero]) id, h2⟩

theorem PartIn.sized {k : ℤ} (hk : k ≤ 500) {x : PyFloat} (h : PartIn k x) : Sized x.num :=
  ⟨abs_num (PartIn.fd h), (PartIn.bounds h).1.imp id fun e => (two_zpow_le (by omega)).trans e,
    (PartIn.bounds h).2.trans (two_zpow_le hk)⟩

/-- The coefficient of a kind. -/
def coefOf : Zdi.Comp → ERow → PyFloat × PyFloat
  | .alpha, r => r.a
  | .beta, r => r.b
  | .gamma, r => r.g

/-- The computed energy. -/
def En (k : Zdi.Comp) (r : ERow) : PyFloat := (energyC r.l r.m (coefOf k r) (decide (k ≠ .alpha))).1

theorem RowIn.coef {e : ℤ} {r : ERow} (h : RowIn e r) (k : Zdi.Comp) : PartIn e (coefOf k r).1 ∧ PartIn e (coefOf k r).2 := by
  cases k
  · exact h.a
  · exact h.b
  · exact h.g

theorem exactF_eq (k : Zdi.Comp) (r : ERow) :
    exactF r.l r.m (decide (k ≠ .alpha)) (coefOf k r).1.num (coefOf k r).2.num = specEnergy k (exactCoef r) := by
  unfold exactF specEnergy
  congr 1
  · cases k <;> rfl
  · cases k
    · rw [if_neg (by decide), if_pos rfl]
    · rw [if_pos (by decide), if_neg (by decide)]; rfl
    · rw [if_pos (by decide), if_neg (by decide)]; rfl

/-- A float that is not negative, near a number. -/
def RelF (n : ℕ) (x : PyFloat) (v : ℝ) : Prop := ∃ q, x = fin false q ∧ IsDouble q ∧ Rel n (q : ℝ) v

theorem En_rel {r : ERow} (h : RowIn 500 r) (ha : AxialReal r) (k : Zdi.Comp) : RelF 4 (En k r) (specEnergy k (exactCoef r)) := by
  have c := RowIn.coef h k
  have f := energy_fin (PartIn.fd c.1) (PartIn.fd c.2) (PartIn.sized le_rfl c.1) (PartIn.sized le_rfl c.2) h.degree.1 h.degree.2 r.m
    (decide (k ≠ .alpha))
  refine ⟨_, f.1, f.2, ?_⟩
  rw [← exactF_eq]
  refine valueF_rel (PartIn.sized le_rfl c.1) (PartIn.sized le_rfl c.2) h.degree.1 ?_ _
  by_cases hm : r.m = 0
  · right
    obtain ⟨h1, h2, h3⟩ := ha hm
    cases k
    · exact h1
    · exact h2
    · exact h3
  · exact Or.inl hm

theorem En_nonneg {r : ERow} (h : RowIn 500 r) (k : Zdi.Comp) : ∃ q, En k r = fin false q ∧ IsDouble q := by
  have c := RowIn.coef h k
  exact ⟨_, energy_fin (PartIn.fd c.1) (PartIn.fd c.2) (PartIn.sized le_rfl c.1) (PartIn.sized le_rfl c.2) h.degree.1 h.degree.2 r.m
    (decide (k ≠ .alpha))⟩

theorem sq_size {e : ℤ} {x : PyFloat} (h : PartIn e x) : (x.num : ℝ) ^ 2 ≤ 2 ^ (2 * e) := by
  have := (Rat.cast_le (K := ℝ)).2 (PartIn.bounds h).2
  rw [Rat.cast_abs, Rat.cast_zpow, Rat.cast_ofNat] at this
  rw [← sq_abs, two_mul, zpow_add₀ (by norm_num), ← pow_two]
  gcongr

theorem spec_size {e : ℤ} {r : ERow} (h : RowIn e r) (k : Zdi.Comp) :
    0 ≤ specEnergy k (exactCoef r) ∧ specEnergy k (exactCoef r) ≤ 2 ^ (2 * e) := by
  have c := RowIn.coef h k
  rw [← exactF_eq]
  have h1 := sq_size c.1
  have h2 := sq_size c.2
  have hl : (0 : ℝ) ≤ r.l := by exact_mod_cast h.degree.1
  have p1 := sq_nonneg ((coefOf k r).1.num : ℝ)
  have p2 := sq_nonneg ((coefOf k r).2.num : ℝ)
  have f0 : 0 ≤ (if decide (k ≠ .alpha) = true then (r.l : ℝ) / (r.l + 1) else 1) := by split_ifs <;> positivity
  have f1 : (if decide (k ≠ .alpha) = true then (r.l : ℝ) / (r.l + 1) else 1) ≤ 1 := by
    split_ifs
    · rw [div_le_one (by positivity)]; linarith
    · exact le_rfl
  have g0 : 0 ≤ (if r.m = 0 then ((coefOf k r).1.num : ℝ) ^ 2
      else (((coefOf k r).1.num : ℝ) ^ 2 + ((coefOf k r).2.num : ℝ) ^ 2) / 2) := by split_ifs <;> positivity
  have g1 : (if r.m = 0 then ((coefOf k r).1.num : ℝ) ^ 2
      else (((coefOf k r).1.num : ℝ) ^ 2 + ((coefOf k r).2.num : ℝ) ^ 2) / 2) ≤ 2 ^ (2 * e) := by
    split_ifs
    · exact h1
    · linarith
  unfold exactF
  exact ⟨mul_nonneg g0 f0, (mul_le_of_le_one_right g0 f1).trans g1⟩

theorem small_of {x : PyFloat} (hx : Fd x) (h : |x.num| ≤ 2 ^ (-510 : ℤ)) : small x = true := by
  obtain ⟨s, a, rfl, hd⟩ := hx
  rw [num_abs s hd.nonneg] at h
  simp only [small, decide_eq_true_eq]
  refine lt_of_le_of_lt h (lt_of_le_of_lt (two_zpow_le (j := -52) (by norm_num)) ?_)
  norm_num

theorem energy_imag {c : PyFloat × PyFloat} {l m : ℤ} (h0 : 0 ≤ l) (hl : l < 2 ^ 53) (f1 : Fd c.1) (f2 : Fd c.2)
    (h1 : |c.1.num| ≤ 2 ^ (510 : ℤ)) (h2 : |c.2.num| ≤ 2 ^ (510 : ℤ)) (lt : Bool) : small (energyC l m c lt).2 = true := by
  have v1 : Vl c.1 c.1.num 510 := ⟨f1, rfl, h1⟩
  have v2 : Vl c.2 c.2.num 510 := ⟨f2, rfl, h2⟩
  have hr := rest_small (abs_num f1) (abs_num f2) h1 h2
  cases lt
  · have e := (energy_vl v1 v2 l m).2
    exact small_of e.fd (by rw [e.num]; exact hr.trans (two_zpow_le (by norm_num)))
  · have e := (energy_vl_factor v1 v2 h0 hl m).2
    refine small_of e.fd ?_
    rw [e.num]
    refine rnd_size ?_ (by norm_num) (by norm_num)
    have hf := (factor_vl h0 hl).size
    rw [abs_mul]
    rw [zpow_zero] at hf
    calc _ ≤ |rest c.1.num c.2.num| * 1 := mul_le_mul_of_nonneg_left hf (abs_nonneg _)
      _ ≤ _ := by rw [mul_one]; exact hr.trans (two_zpow_le (by norm_num))

theorem helper_real {z : List ERow} {k : ERow → PyFloat × PyFloat}
    (h : ∀ r ∈ z, (0 ≤ r.l ∧ r.l < 2 ^ 53) ∧ (Fd (k r).1 ∧ |(k r).1.num| ≤ 2 ^ (510 : ℤ)) ∧ (Fd (k r).2 ∧ |(k r).2.num| ≤ 2 ^ (510 : ℤ)))
    (lt : Bool) : helper z k lt = some (z.map fun r => (energyC r.l r.m (k r) lt).1) := by
  unfold helper realIfClose
  rw [if_pos, List.map_map]
  · rfl
  · rw [List.all_eq_true]
    intro e he
    obtain ⟨r, hr, rfl⟩ := List.mem_map.1 he
    obtain ⟨hl, h1, h2⟩ := h r hr
    exact energy_imag hl.1 hl.2 h1.1 h2.1 h1.2 h2.2 lt

theorem arrays_eq {z : List ERow} (h : ∀ r ∈ z, RowIn 500 r) :
    arrays z = some (z.map (En .alpha), z.map (En .beta), z.map (En .gamma)) := by
  have key : ∀ k : Zdi.Comp, ∀ r ∈ z, (0 ≤ r.l ∧ r.l < 2 ^ 53) ∧ (Fd (coefOf k r).1 ∧ |(coefOf k r).1.num| ≤ 2 ^ (510 : ℤ)) ∧
      (Fd (coefOf k r).2 ∧ |(coefOf k r).2.num| ≤ 2 ^ (510 : ℤ)) := by
    intro k r hr
    have c := RowIn.coef (h r hr) k
    exact ⟨(h r hr).degree, ⟨PartIn.fd c.1, (PartIn.bounds c.1).2.trans (two_zpow_le (by norm_num))⟩, PartIn.fd c.2,
      (PartIn.bounds c.2).2.trans (two_zpow_le (by norm_num))⟩
  have ha := helper_real (key .alpha) false
  have hb := helper_real (key .beta) true
  have hg := helper_real (key .gamma) true
  unfold arrays
  rw [show helper z ERow.a false = _ from ha, show helper z ERow.b true = _ from hb, show helper z ERow.g true = _ from hg]
  rfl

/-! ### Sums -/

theorem pow_w_err (n : ℕ) (h : n ≤ 2 ^ 50) : w ^ n ≤ 1 + n / 2 ^ 51 := by
  induction n with
  | zero => simp
  | succ n ih =>
    have ih := ih (by omega)
    have hn : (n : ℝ) ≤ 2 ^ 50 := by exact_mod_cast (show n ≤ 2 ^ 50 by omega)
    rw [pow_succ]
    calc w ^ n * w ≤ (1 + n / 2 ^ 51) * w := mul_le_mul_of_nonneg_right ih w_pos.le
      _ ≤ _ := by unfold w; push_cast; nlinarith

theorem RelF.summed {n : ℕ} {x : PyFloat} {v : ℝ} (h : RelF n x v) (hn : n ≤ 2 * 10 ^ 6) : Summed 1e-9 x v := by
  obtain ⟨q, e, hd, hr⟩ := h
  refine ⟨q, e, hd, hr.err.trans (mul_le_mul_of_nonneg_right ?_ hr.pos)⟩
  have := pow_w_err n (hn.trans (by norm_num))
  have hn' : (n : ℝ) ≤ 2 * 10 ^ 6 := by exact_mod_cast hn
  norm_num at this ⊢
  linarith

theorem RelF.mono {n k : ℕ} {x : PyFloat} {v : ℝ} (h : RelF n x v) (hn : n ≤ k) : RelF k x v := by
  obtain ⟨q, e, hd, hr⟩ := h
  exact ⟨q, e, hd, hr.mono hn⟩

theorem RelF.nonneg {n : ℕ} {x : PyFloat} {v : ℝ} (h : RelF n x v) : 0 ≤ v := by
  obtain ⟨q, e, hd, hr⟩ := h
  exact hr.pos

theorem max_real : (2 : ℝ) ^ (1023 : ℤ) ≤ (maxDouble : ℚ) := by
  have := (Rat.cast_le (K := ℝ)).2 (two_zpow_max (i := 1023) le_rfl)
  rwa [Rat.cast_zpow, Rat.cast_ofNat] at this

theorem RelF.add {n : ℕ} {x y : PyFloat} {v u : ℝ} (h : RelF n x v) (h' : RelF n y u) (hn : n ≤ 2 ^ 50)
    (hs : v + u ≤ 2 ^ (1001 : ℤ)) : RelF (n + 1) (PyFloat.add x y) (v + u) := by
  obtain ⟨p, rfl, dp, hp⟩ := h
  obtain ⟨q, rfl, dq, hq⟩ := h'
  have fp : Fd (fin false p) := ⟨_, _, rfl, dp⟩
  have fq : Fd (fin false q) := ⟨_, _, rfl, dq⟩
  have hpq := hp.add hq
  have h0 : 0 ≤ p + q := add_nonneg dp.nonneg dq.nonneg
  have hb : p + q ≤ maxDouble := by
    have h1 : ((p + q : ℚ) : ℝ) ≤ (maxDouble : ℚ) := by
      push_cast
      calc (p : ℝ) + q ≤ (v + u) * w ^ n := hpq.upper
        _ ≤ 2 ^ (1001 : ℤ) * 2 := mul_le_mul hs (pow_w_le n hn) (by have := w_pos; positivity) (by positivity)
        _ = 2 ^ (1002 : ℤ) := by rw [show (1002 : ℤ) = 1001 + 1 by norm_num, zpow_add₀ (by norm_num), zpow_one]
        _ ≤ 2 ^ (1023 : ℤ) := zpow_le_zpow_right₀ (by norm_num) (by norm_num)
        _ ≤ _ := max_real
    exact_mod_cast h1
  have np : (fin false p).num = p := rfl
  have nq : (fin false q).num = q := rfl
  have hs := add_num fp fq (by rw [np, nq, abs_of_nonneg h0]; exact hb)
  have e := add_fin dp.nonneg dq.nonneg hb
  rw [e]
  refine ⟨_, rfl, fl0_dbl h0 hb, ?_⟩
  have hr := rel_rnd_add fp fq (by rw [np, nq]; exact h0)
  rw [np, nq, rnd_nonneg_eq h0] at hr
  exact hpq.trans hr

theorem relF_sums {Z : List ERow} {f : ERow → PyFloat} {e : ERow → ℝ} {k : ℕ} (h : ∀ r ∈ Z, RelF k (f r) (e r)) :
    (∀ x ∈ Z.map f, ∃ q, x = fin false q ∧ IsDouble q) ∧ Rel k ((total (Z.map f) : ℚ) : ℝ) (Z.map e).sum := by
  induction Z with
  | nil => exact ⟨by simp, by simpa [total] using Rel.refl le_rfl⟩
  | cons r Z ih =>
    obtain ⟨i1, i2⟩ := ih fun r hr => h r (List.mem_cons_of_mem _ hr)
    obtain ⟨q, e1, hd, hr⟩ := h r List.mem_cons_self
    refine ⟨?_, ?_⟩
    · intro x hx
      rcases List.mem_cons.1 hx with rfl | hx
      · exact ⟨q, e1, hd⟩
      · exact i1 x hx
    · have : total ((r :: Z).map f) = q + total (Z.map f) := by
        simp [total, e1, num]
      rw [this, List.map_cons, List.sum_cons]
      push_cast
      exact hr.add i2

theorem perm_total {xs ys : List PyFloat} (h : xs.Perm ys) : total xs = total ys := (h.map num).sum_eq

theorem total_zeros (xs : List PyFloat) (ss : List Bool) : total (xs ++ ss.map fun s => fin s 0) = total xs := by
  have : ((ss.map fun s => fin s 0).map num).sum = 0 := by
    apply List.sum_eq_zero
    intro q hq
    simp only [List.map_map, List.mem_map, Function.comp] at hq
    obtain ⟨s, -, rfl⟩ := hq
    exact num_zero s
  unfold total
  rw [List.map_append, List.sum_append, this, add_zero]

theorem count_zeros (xs : List PyFloat) (ss : List Bool) : count (xs ++ ss.map fun s => fin s 0) ≤ xs.length := by
  have : (ss.map fun s => fin s 0).filter (fun x => decide (x.num ≠ 0)) = [] := by
    rw [List.filter_eq_nil_iff]
    intro x hx
    obtain ⟨s, -, rfl⟩ := List.mem_map.1 hx
    simp [num_zero]
  unfold count
  rw [List.filter_append, this, List.append_nil]
  exact List.length_filter_le _ _

/-- `np.sum` of floats that are not negative. -/
theorem npSum {xs : List PyFloat} {v : PyFloat} (h : IsNpSum xs v) (hx : ∀ x ∈ xs, ∃ q, x = fin false q ∧ IsDouble q)
    (hn : xs.length ≤ 2 ^ 40) (ht : total xs ≤ 2 ^ (1000 : ℤ)) : RelF xs.length v (total xs : ℚ) := by
  rcases h with ⟨rfl, rfl⟩ | ⟨hne, t, ss, hp, rfl⟩
  · exact ⟨0, rfl, isDouble_zero, by simpa [total] using Rel.refl le_rfl⟩
  · have hnn : ∀ x ∈ t.terms, NonNeg x := by
      intro x hx'
      rcases List.mem_append.1 (hp.mem_iff.1 hx') with hm | hm
      · obtain ⟨q, rfl, hd⟩ := hx x hm
        exact ⟨false, q, rfl, hd, by simp⟩
      · obtain ⟨s, -, rfl⟩ := List.mem_map.1 hm
        exact ⟨s, 0, rfl, isDouble_zero, fun _ => rfl⟩
    have e1 : total t.terms = total xs := by rw [perm_total hp, total_zeros]
    have e2 : count t.terms ≤ xs.length := by
      have : count t.terms = count (xs ++ ss.map fun s => fin s 0) := (hp.filter _).length_eq
      rw [this]; exact count_zeros xs ss
    obtain ⟨⟨s, q, hq, hd, hs, -⟩, hr⟩ := tree_sum t hnn (e2.trans hn) (by rw [e1]; exact ht)
    have hsf : s = false := by
      cases s
      · rfl
      · obtain ⟨x, hx'⟩ := List.exists_mem_of_ne_nil _ hne
        obtain ⟨a, ha⟩ := hs rfl x (hp.mem_iff.2 (List.mem_append_left _ hx'))
        obtain ⟨q, hq, -⟩ := hx x hx'
        rw [ha] at hq; cases hq
    subst hsf
    refine ⟨q, hq, hd, ?_⟩
    rw [hq, e1] at hr
    exact hr.mono e2

theorem sum_le {Z : List ERow} {e : ERow → ℝ} {t : ℝ} (h : ∀ r ∈ Z, e r ≤ t) : (Z.map e).sum ≤ Z.length * t := by
  induction Z with
  | nil => simp
  | cons r Z ih =>
    have := ih fun r hr => h r (List.mem_cons_of_mem _ hr)
    have := h r List.mem_cons_self
    rw [List.map_cons, List.sum_cons, List.length_cons]
    push_cast
    linarith

/-- `np.sum` of energies of rows. -/
theorem npSum_rows {S : List PyFloat → PyFloat} (hS : ∀ xs, IsNpSum xs (S xs)) {Z : List ERow} {f : ERow → PyFloat} {e : ERow → ℝ}
    {k : ℕ} (hk : k ≤ 2 ^ 50) (h : ∀ r ∈ Z, RelF k (f r) (e r)) (hs : ∀ r ∈ Z, e r ≤ 2 ^ (961 : ℤ)) (hn : Z.length ≤ 10 ^ 6) :
    RelF (Z.length + k) (S (Z.map f)) (Z.map e).sum ∧ (Z.map e).sum ≤ 2 ^ (981 : ℤ) := by
  obtain ⟨h1, h2⟩ := relF_sums h
  have hle : (Z.map e).sum ≤ 2 ^ (981 : ℤ) := by
    refine (sum_le hs).trans ?_
    have : (Z.length : ℝ) ≤ 2 ^ (20 : ℤ) := by
      have : (Z.length : ℝ) ≤ 10 ^ 6 := by exact_mod_cast hn
      exact this.trans (by norm_num)
    calc (Z.length : ℝ) * 2 ^ (961 : ℤ) ≤ 2 ^ (20 : ℤ) * 2 ^ (961 : ℤ) := mul_le_mul_of_nonneg_right this (by positivity)
      _ = _ := by rw [← zpow_add₀ (by norm_num)]; norm_num
  have ht : total (Z.map f) ≤ 2 ^ (1000 : ℤ) := by
    have : ((total (Z.map f) : ℚ) : ℝ) ≤ ((2 ^ (1000 : ℤ) : ℚ) : ℝ) := by
      rw [Rat.cast_zpow, Rat.cast_ofNat]
      calc _ ≤ (Z.map e).sum * w ^ k := h2.upper
        _ ≤ 2 ^ (981 : ℤ) * 2 := mul_le_mul hle (pow_w_le k hk) (by have := w_pos; positivity) (by positivity)
        _ = 2 ^ (982 : ℤ) := by rw [show (982 : ℤ) = 981 + 1 by norm_num, zpow_add₀ (by norm_num), zpow_one]
        _ ≤ _ := zpow_le_zpow_right₀ (by norm_num) (by norm_num)
    exact_mod_cast this
  have r := npSum (hS (Z.map f)) h1 (by rw [List.length_map]; exact hn.trans (by norm_num)) ht
  rw [List.length_map] at r
  obtain ⟨q, e1, hd, hr⟩ := r
  refine ⟨⟨q, e1, hd, ?_⟩, hle⟩
  rw [add_comm]
  exact h2.trans hr

theorem pick_map (p : ERow → Bool) (z : List ERow) (f : ERow → PyFloat) : pick p z (z.map f) = (z.filter p).map f := by
  unfold pick
  induction z with
  | nil => rfl
  | cons r z ih =>
    simp only [List.map_cons, List.zip_cons_cons, List.filter_cons]
    cases p r <;> simp [ih]

theorem both_map (z : List ERow) (f g : ERow → PyFloat) : both (z.map f) (z.map g) = z.map fun r => PyFloat.add (f r) (g r) := by
  unfold both
  rw [List.zipWith_map, List.zipWith_self]

theorem rows_map (z : List ERow) (f g h : ERow → PyFloat) :
    List.zipWith (fun r e => ((r.l, r.m, e) : ℤ × ℤ × PyFloat × PyFloat × PyFloat)) z
      (List.zip (z.map f) (List.zip (z.map g) (z.map h))) = z.map fun r => (r.l, r.m, f r, g r, h r) := by
  induction z with
  | nil => rfl
  | cons r z ih => simp [ih]

/-- The computed poloidal energy. -/
def Pol (r : ERow) : PyFloat := PyFloat.add (En .alpha r) (En .beta r)

/-- The poloidal energy. -/
noncomputable def polE (r : ERow) : ℝ := specEnergy .alpha (exactCoef r) + specEnergy .beta (exactCoef r)

theorem energyIn_map (z : List ERow) (p : ℤ → ℤ → Bool) (ks : List Zdi.Comp) : energyIn (z.map exactCoef) p ks =
    ((z.filter fun r => p r.l r.m).map fun r => (ks.map fun k => specEnergy k (exactCoef r)).sum).sum := by
  unfold energyIn
  rw [List.filter_map, List.map_map]
  rfl

theorem energyIn_one (z : List ERow) (p : ℤ → ℤ → Bool) (k : Zdi.Comp) : energyIn (z.map exactCoef) p [k] =
    ((z.filter fun r => p r.l r.m).map fun r => specEnergy k (exactCoef r)).sum := by
  rw [energyIn_map]; simp

theorem energyIn_pol (z : List ERow) (p : ℤ → ℤ → Bool) : energyIn (z.map exactCoef) p [.alpha, .beta] =
    ((z.filter fun r => p r.l r.m).map polE).sum := by
  rw [energyIn_map]
  congr 1
  apply List.map_congr_left
  intro r _
  simp [polE]

section
variable {S : List PyFloat → PyFloat} {z : List ERow} (hS : ∀ xs, IsNpSum xs (S xs)) (hz : ∀ r ∈ z, RowIn 480 r ∧ AxialReal r)
  (hn : z.length ≤ 10 ^ 6)

theorem RowIn.mono {i j : ℤ} (hij : i ≤ j) {r : ERow} (h : RowIn i r) : RowIn j r := by
  have key : ∀ {x}, PartIn i x → PartIn j x := by
    rintro x ⟨s, q, e, hd, h1, h2⟩
    exact ⟨s, q, e, hd, h1.imp id fun e => (two_zpow_le (by omega)).trans e, h2.trans (two_zpow_le hij)⟩
  exact ⟨h.degree, ⟨key h.a.1, key h.a.2⟩, ⟨key h.b.1, key h.b.2⟩, ⟨key h.g.1, key h.g.2⟩⟩

include hz in
theorem En_row (k : Zdi.Comp) : ∀ r ∈ z, RelF 4 (En k r) (specEnergy k (exactCoef r)) ∧ specEnergy k (exactCoef r) ≤ 2 ^ (960 : ℤ) :=
  fun r hr => ⟨En_rel (RowIn.mono (by norm_num) (hz r hr).1) (hz r hr).2 k, (spec_size (hz r hr).1 k).2⟩

include hz in
theorem Pol_row : ∀ r ∈ z, RelF 5 (Pol r) (polE r) ∧ polE r ≤ 2 ^ (961 : ℤ) := by
  intro r hr
  obtain ⟨a1, a2⟩ := En_row hz .alpha r hr
  obtain ⟨b1, b2⟩ := En_row hz .beta r hr
  have hle : polE r ≤ 2 ^ (961 : ℤ) := by
    rw [show (961 : ℤ) = 1 + 960 by norm_num, zpow_add₀ (by norm_num), zpow_one, two_mul]
    exact add_le_add a2 b2
  exact ⟨a1.add b1 (by norm_num) (hle.trans (zpow_le_zpow_right₀ (by norm_num) (by norm_num))), hle⟩

include hS hz hn

theorem sum_one (p : ERow → Bool) (k : Zdi.Comp) :
    RelF (10 ^ 6 + 4) (S ((z.filter p).map (En k))) ((z.filter p).map fun r => specEnergy k (exactCoef r)).sum ∧
      ((z.filter p).map fun r => specEnergy k (exactCoef r)).sum ≤ 2 ^ (981 : ℤ) := by
  have hl : (z.filter p).length ≤ 10 ^ 6 := (List.length_filter_le _ _).trans hn
  have := npSum_rows hS (Z := z.filter p) (f := En k) (e := fun r => specEnergy k (exactCoef r)) (k := 4) (by norm_num)
    (fun r hr => (En_row hz k r (List.mem_of_mem_filter hr)).1)
    (fun r hr => (En_row hz k r (List.mem_of_mem_filter hr)).2.trans (zpow_le_zpow_right₀ (by norm_num) (by norm_num))) hl
  exact ⟨this.1.mono (by omega), this.2⟩

theorem sum_pol (p : ERow → Bool) :
    RelF (10 ^ 6 + 5) (S ((z.filter p).map Pol)) ((z.filter p).map polE).sum ∧ ((z.filter p).map polE).sum ≤ 2 ^ (981 : ℤ) := by
  have hl : (z.filter p).length ≤ 10 ^ 6 := (List.length_filter_le _ _).trans hn
  have := npSum_rows hS (Z := z.filter p) (f := Pol) (e := polE) (k := 5) (by norm_num)
    (fun r hr => (Pol_row hz r (List.mem_of_mem_filter hr)).1) (fun r hr => (Pol_row hz r (List.mem_of_mem_filter hr)).2) hl
  exact ⟨this.1.mono (by omega), this.2⟩

theorem all_one (k : Zdi.Comp) : RelF (10 ^ 6 + 4) (S (z.map (En k))) (energyIn (z.map exactCoef) (fun _ _ => true) [k]) ∧
    energyIn (z.map exactCoef) (fun _ _ => true) [k] ≤ 2 ^ (981 : ℤ) := by
  have := sum_one hS hz hn (fun _ => true) k
  rw [energyIn_one]
  simpa using this

theorem part_one (p : ℤ → ℤ → Bool) (k : Zdi.Comp) :
    RelF (10 ^ 6 + 4) (S ((z.filter fun r => p r.l r.m).map (En k))) (energyIn (z.map exactCoef) p [k]) := by
  rw [energyIn_one]; exact (sum_one hS hz hn _ k).1

theorem part_pol (p : ℤ → ℤ → Bool) :
    RelF (10 ^ 6 + 5) (S ((z.filter fun r => p r.l r.m).map Pol)) (energyIn (z.map exactCoef) p [.alpha, .beta]) := by
  rw [energyIn_pol]; exact (sum_pol hS hz hn _).1

theorem sumsOf : SumsOf (z.map exactCoef) (sums S z (z.map (En .alpha)) (z.map (En .beta)) (z.map (En .gamma))) := by
  have hb : both (z.map (En .alpha)) (z.map (En .beta)) = z.map Pol := both_map _ _ _
  have big : (10 ^ 6 + 5 : ℕ) ≤ 2 * 10 ^ 6 := by norm_num
  have big' : (10 ^ 6 + 4 : ℕ) ≤ 2 * 10 ^ 6 := by norm_num
  constructor
  all_goals simp only [sums, hb, pick_map]
  · exact (all_one hS hz hn .alpha).1.summed big'
  · exact (all_one hS hz hn .beta).1.summed big'
  · exact (all_one hS hz hn .gamma).1.summed big'
  · exact (part_pol hS hz hn fun l _ => decide (l = 1)).summed big
  · exact (part_pol hS hz hn fun l _ => decide (l = 2)).summed big
  · exact (part_pol hS hz hn fun l _ => decide (l = 3)).summed big
  · exact (part_one hS hz hn (fun l _ => decide (l = 1)) .gamma).summed big'
  · exact (part_one hS hz hn (fun l _ => decide (l = 2)) .gamma).summed big'
  · exact (part_one hS hz hn (fun l _ => decide (l = 3)) .gamma).summed big'
  · exact (part_pol hS hz hn fun _ m => decide (m = 0)).summed big
  · exact (part_one hS hz hn (fun _ m => decide (m = 0)) .gamma).summed big'
  · rw [List.filter_map, List.forall₂_map_left_iff, List.forall₂_map_right_iff]
    have : (z.filter fun r => decide (r.l = 1) && decide (r.m = 0)) =
        z.filter ((fun r => decide (r.l = 1 ∧ r.m = 0)) ∘ exactCoef) := by
      apply List.filter_congr; intro r _; simp [exactCoef]; rfl
    rw [this, List.forall₂_same]
    intro r hr
    exact ((Pol_row hz r (List.mem_of_mem_filter hr)).1).summed (by norm_num)
  · rw [rows_map, List.forall₂_map_left_iff, List.forall₂_map_right_iff, List.forall₂_same]
    intro r hr
    exact ⟨rfl, rfl, (En_row hz .alpha r hr).1.summed (by norm_num), (En_row hz .beta r hr).1.summed (by norm_num),
      (En_row hz .gamma r hr).1.summed (by norm_num)⟩

end

/-! ### Shares -/

/-- A computed energy that is zero or not small, and not large. -/
structure Good (n : ℕ) (c : ℤ) (x : PyFloat) (A : ℝ) : Prop where
  rel : RelF n x A
  low : A = 0 ∨ (2 : ℝ) ^ (-402 : ℤ) ≤ A
  size : A ≤ 2 ^ c

theorem Good.add {n : ℕ} {c : ℤ} {x y : PyFloat} {A B : ℝ} (h : Good n c x A) (h' : Good n c y B) (hn : n ≤ 2 ^ 50) (hc : c ≤ 1000) :
    Good (n + 1) (c + 1) (PyFloat.add x y) (A + B) := by
  have hs : A + B ≤ 2 ^ (c + 1) := by
    rw [zpow_add₀ (by norm_num), zpow_one, mul_two]; exact add_le_add h.size h'.size
  refine ⟨h.rel.add h'.rel hn (hs.trans (zpow_le_zpow_right₀ (by norm_num) (by omega))), ?_, hs⟩
  have hA := h.rel.nonneg
  have hB := h'.rel.nonneg
  rcases h.low with e | e
  · rw [e, zero_add]; exact h'.low
  · exact Or.inr (by linarith)

theorem Good.mono {n n' : ℕ} {c c' : ℤ} {x : PyFloat} {A : ℝ} (h : Good n c x A) (hn : n ≤ n') (hc : c ≤ c') : Good n' c' x A :=
  ⟨h.rel.mono hn, h.low, h.size.trans (zpow_le_zpow_right₀ (by norm_num) hc)⟩

end FloatEnergy

/-- A float near a number that is not negative, or nan for no number. -/
def Spec.ShowsReal (x : PyFloat) : Option ℝ → Prop
  | none => x = nan
  | some v => ∃ q, x = fin false q ∧ IsDouble q ∧ |(q : ℝ) - v| ≤ 1e-9 * v

/-- The same key, and a float near the number. -/
def Spec.ShowsEntry (x : String × PyFloat) (y : String × Option ℝ) : Prop := x.1 = y.1 ∧ ShowsReal x.2 y.2

namespace FloatEnergy
open FloatRange FloatSets FloatCoords FloatError FloatRound

theorem showsReal_of {n : ℕ} {x : PyFloat} {v : ℝ} (h : RelF n x v) (hn : n ≤ 22 * 10 ^ 5) : ShowsReal x (some v) := by
  obtain ⟨q, e, hd, hr⟩ := h
  refine ⟨q, e, hd, hr.err.trans (mul_le_mul_of_nonneg_right ?_ hr.pos)⟩
  have := pow_w_err n (hn.trans (by norm_num))
  have hn' : (n : ℝ) ≤ 22 * 10 ^ 5 := by exact_mod_cast hn
  norm_num at this ⊢
  linarith

theorem Good.frac {n k : ℕ} {x y : PyFloat} {A B : ℝ} (h : Good n 430 x A) (h' : Good k 430 y B) (hn : n ≤ 11 * 10 ^ 5 - 1)
    (hk : k ≤ 11 * 10 ^ 5) (hAB : A ≤ B) : ShowsReal (PyFloat.div x y) (Zdi.npDiv A B) := by
  obtain ⟨p, rfl, dp, hp⟩ := h.rel
  obtain ⟨q, rfl, dq, hq⟩ := h'.rel
  have hA := hp.pos
  unfold Zdi.npDiv
  by_cases hB : B = 0
  · rw [if_pos hB]
    have hA0 : A = 0 := le_antisymm (hAB.trans hB.le) hA
    rw [hB] at hq
    rw [hA0] at hp
    have e1 : p = 0 := by exact_mod_cast hp.eq_zero
    have e2 : q = 0 := by exact_mod_cast hq.eq_zero
    rw [e1, e2]
    simp [ShowsReal, PyFloat.div]
  · rw [if_neg hB]
    have hB0 : 0 < B := lt_of_le_of_ne (hA.trans hAB) (Ne.symm hB)
    have wn := pow_w_le n (by omega)
    have wk := pow_w_le k (by omega)
    have hq0 : (0 : ℝ) < q := by
      have h1 := hq.lower
      have : 0 < (q : ℝ) * w ^ k := lt_of_lt_of_le hB0 h1
      exact (pos_iff_pos_of_mul_pos this).2 (pow_pos w_pos k)
    have hq0' : 0 < q := by exact_mod_cast hq0
    have hr := hp.div hq
    have hpq0 : 0 ≤ p / q := div_nonneg dp.nonneg hq0'.le
    have w4 := pow_w_le (n + k) (by omega)
    have hle : p / q ≤ 2 := by
      have h1 : ((p / q : ℚ) : ℝ) ≤ 2 := by
        push_cast
        calc (p : ℝ) / q ≤ A / B * w ^ (n + k) := hr.upper
          _ ≤ 1 * 2 := mul_le_mul ((div_le_one hB0).2 hAB) w4 (pow_nonneg w_pos.le _) (by norm_num)
          _ = 2 := by norm_num
      exact_mod_cast h1
    have e1 : PyFloat.div (fin false p) (fin false q) = fin false (fl0 (p / q)) := by
      simp only [PyFloat.div, if_neg hq0'.ne', bne_self_eq_false]
      exact ofMag_of_le hpq0 (hle.trans (by
        have := two_zpow_max (i := 1) (by norm_num)
        rwa [zpow_one] at this))
    have hlow : (2 : ℚ) ^ (-1022 : ℤ) ≤ p / q ∨ p / q = 0 := by
      rcases h.low with e | e
      · rw [e] at hp
        have e1 : p = 0 := by exact_mod_cast hp.eq_zero
        rw [e1, zero_div]; exact Or.inr rfl
      · left
        have h1 : ((2 ^ (-1022 : ℤ) : ℚ) : ℝ) ≤ ((p / q : ℚ) : ℝ) := by
          rw [Rat.cast_zpow, Rat.cast_ofNat]
          push_cast
          have h2 : (2 : ℝ) ^ (-832 : ℤ) ≤ A / B := by
            rw [le_div_iff₀ hB0]
            calc (2 : ℝ) ^ (-832 : ℤ) * B ≤ 2 ^ (-832 : ℤ) * 2 ^ (430 : ℤ) := mul_le_mul_of_nonneg_left h'.size (by positivity)
              _ = 2 ^ (-402 : ℤ) := by rw [← zpow_add₀ (by norm_num)]; norm_num
              _ ≤ A := e
          have h3 := hr.lower
          have h4 : (p : ℝ) / q * w ^ (n + k) ≤ (p : ℝ) / q * 2 := mul_le_mul_of_nonneg_left w4 hr.x_nonneg
          have h5 : (2 : ℝ) ^ (-1022 : ℤ) * 2 ≤ 2 ^ (-832 : ℤ) := by
            rw [← zpow_add_one₀ (by norm_num)]
            exact zpow_le_zpow_right₀ (by norm_num) (by norm_num)
          linarith
        exact_mod_cast h1
    have hf := rel_rnd hpq0 hlow
    rw [rnd_nonneg_eq hpq0] at hf
    push_cast at hf
    rw [e1]
    exact showsReal_of (n := n + k + 1) ⟨_, rfl, fl0_dbl hpq0 (hle.trans (by
      have := two_zpow_max (i := 1) (by norm_num)
      rwa [zpow_one] at this)), hr.trans hf⟩ (by omega)

theorem sq_low {x : PyFloat} (h : PartIn 200 x) : (x.num : ℝ) ^ 2 = 0 ∨ (2 : ℝ) ^ (-400 : ℤ) ≤ (x.num : ℝ) ^ 2 := by
  rcases (PartIn.bounds h).1 with e | e
  · left; rw [e]; simp
  · right
    have := (Rat.cast_le (K := ℝ)).2 e
    rw [Rat.cast_abs, Rat.cast_zpow, Rat.cast_ofNat] at this
    rw [← sq_abs, show (-400 : ℤ) = -200 + -200 by norm_num, zpow_add₀ (by norm_num), ← pow_two]
    gcongr

theorem spec_low {r : ERow} (h : RowIn 200 r) (k : Zdi.Comp) :
    specEnergy k (exactCoef r) = 0 ∨ (2 : ℝ) ^ (-402 : ℤ) ≤ specEnergy k (exactCoef r) := by
  have c := RowIn.coef h k
  rw [← exactF_eq]
  have h1 := sq_low c.1
  have h2 := sq_low c.2
  have p1 := sq_nonneg ((coefOf k r).1.num : ℝ)
  have p2 := sq_nonneg ((coefOf k r).2.num : ℝ)
  have e4 : (2 : ℝ) ^ (-400 : ℤ) = 4 * 2 ^ (-402 : ℤ) := by
    rw [show (-400 : ℤ) = 2 + -402 by norm_num, zpow_add₀ (by norm_num)]; norm_num
  have e0 : (0 : ℝ) < 2 ^ (-402 : ℤ) := by positivity
  rw [e4] at h1 h2
  generalize (2 : ℝ) ^ (-402 : ℤ) = t at *
  have f : (if decide (k ≠ .alpha) = true then (r.l : ℝ) / (r.l + 1) else 1) = 0 ∨
      (1 / 2 : ℝ) ≤ (if decide (k ≠ .alpha) = true then (r.l : ℝ) / (r.l + 1) else 1) := by
    split_ifs
    · rcases h.degree.1.lt_or_eq with hl | hl
      · right
        have : (1 : ℝ) ≤ r.l := by exact_mod_cast hl
        rw [div_le_div_iff₀ (by norm_num) (by positivity)]
        linarith
      · left; rw [← hl]; simp
    · right; norm_num
  unfold exactF
  rcases f with f | f
  · left; rw [f, mul_zero]
  · have g : (if r.m = 0 then ((coefOf k r).1.num : ℝ) ^ 2 else (((coefOf k r).1.num : ℝ) ^ 2 + ((coefOf k r).2.num : ℝ) ^ 2) / 2) = 0 ∨
        2 * t ≤ (if r.m = 0 then ((coefOf k r).1.num : ℝ) ^ 2
          else (((coefOf k r).1.num : ℝ) ^ 2 + ((coefOf k r).2.num : ℝ) ^ 2) / 2) := by
      split_ifs
      · exact h1.imp id fun h => by linarith
      · rcases h1 with h1 | h1
        · rcases h2 with h2 | h2
          · left; rw [h1, h2]; norm_num
          · right; linarith
        · right; linarith
    rcases g with g | g
    · left; rw [g, zero_mul]
    · right
      calc t = 2 * t * (1 / 2) := by ring
        _ ≤ _ := mul_le_mul g f (by norm_num) (by linarith)

theorem low_add {A B t : ℝ} (ha : 0 ≤ A) (hb : 0 ≤ B) (h : A = 0 ∨ t ≤ A) (h' : B = 0 ∨ t ≤ B) : A + B = 0 ∨ t ≤ A + B := by
  rcases h with e | e
  · rw [e, zero_add]; exact h'
  · exact Or.inr (by linarith)

theorem sum_low {Z : List ERow} {e : ERow → ℝ} {t : ℝ} (h0 : ∀ r ∈ Z, 0 ≤ e r) (h : ∀ r ∈ Z, e r = 0 ∨ t ≤ e r) :
    (Z.map e).sum = 0 ∨ t ≤ (Z.map e).sum := by
  induction Z with
  | nil => left; simp
  | cons r Z ih =>
    rw [List.map_cons, List.sum_cons]
    exact low_add (h0 r List.mem_cons_self) (List.sum_nonneg (by
      intro x hx
      obtain ⟨r', hr', rfl⟩ := List.mem_map.1 hx
      exact h0 r' (List.mem_cons_of_mem _ hr'))) (h r List.mem_cons_self)
      (ih (fun r hr => h0 r (List.mem_cons_of_mem _ hr)) fun r hr => h r (List.mem_cons_of_mem _ hr))

section
variable {S : List PyFloat → PyFloat} {z : List ERow} (hS : ∀ xs, IsNpSum xs (S xs)) (hz : ∀ r ∈ z, RowIn 200 r ∧ AxialReal r)
  (hn : z.length ≤ 10 ^ 6)
include hS hz hn

theorem good_rows {Z : List ERow} {f : ERow → PyFloat} {e : ERow → ℝ} {k : ℕ} {c : ℤ} (hk : k ≤ 2 ^ 50) (hc : c ≤ 800)
    (h : ∀ r ∈ Z, Good k c (f r) (e r)) (hl : Z.length ≤ 10 ^ 6) : Good (10 ^ 6 + k) (c + 20) (S (Z.map f)) (Z.map e).sum := by
  have a := npSum_rows hS hk (fun r hr => (h r hr).rel)
    (fun r hr => (h r hr).size.trans (zpow_le_zpow_right₀ (by norm_num) (by omega))) hl
  refine ⟨a.1.mono (by omega), sum_low (fun r hr => (h r hr).rel.nonneg) fun r hr => (h r hr).low, ?_⟩
  refine (sum_le fun r hr => (h r hr).size).trans ?_
  have : (Z.length : ℝ) ≤ 2 ^ (20 : ℤ) := by
    have : (Z.length : ℝ) ≤ 10 ^ 6 := by exact_mod_cast hl
    exact this.trans (by norm_num)
  rw [add_comm, zpow_add₀ (by norm_num)]
  exact mul_le_mul_of_nonneg_right this (by positivity)

theorem good_En (k : Zdi.Comp) {r : ERow} (hr : r ∈ z) : Good 4 400 (En k r) (Zdi.energyOf k (exactCoef r)) := by
  rw [C41_value]
  exact ⟨En_rel (RowIn.mono (by norm_num) (hz r hr).1) (hz r hr).2 k, spec_low (hz r hr).1 k, (spec_size (hz r hr).1 k).2⟩

theorem good_Pol {r : ERow} (hr : r ∈ z) : Good 5 401 (Pol r) (Zdi.energyPol (exactCoef r)) :=
  (good_En hS hz hn .alpha hr).add (good_En hS hz hn .beta hr) (by norm_num) (by norm_num)

theorem good_one (p : ZRow → Bool) (k : Zdi.Comp) : Good (10 ^ 6 + 4) 420 (S ((z.filter fun r => p (exactCoef r)).map (En k)))
    (Zdi.sumWhere p (Zdi.energyOf k) (z.map exactCoef)) := by
  have e : Zdi.sumWhere p (Zdi.energyOf k) (z.map exactCoef) =
      ((z.filter fun r => p (exactCoef r)).map fun r => Zdi.energyOf k (exactCoef r)).sum := by
    unfold Zdi.sumWhere; rw [List.filter_map, List.map_map]; rfl
  rw [e]
  exact good_rows hS hz hn (by norm_num) (by norm_num) (fun r hr => good_En hS hz hn k (List.mem_of_mem_filter hr))
    ((List.length_filter_le _ _).trans hn)

theorem good_pol (p : ZRow → Bool) : Good (10 ^ 6 + 5) 421 (S ((z.filter fun r => p (exactCoef r)).map Pol))
    (Zdi.sumWhere p Zdi.energyPol (z.map exactCoef)) := by
  have e : Zdi.sumWhere p Zdi.energyPol (z.map exactCoef) =
      ((z.filter fun r => p (exactCoef r)).map fun r => Zdi.energyPol (exactCoef r)).sum := by
    unfold Zdi.sumWhere; rw [List.filter_map, List.map_map]; rfl
  rw [e]
  exact good_rows hS hz hn (by norm_num) (by norm_num) (fun r hr => good_Pol hS hz hn (List.mem_of_mem_filter hr))
    ((List.length_filter_le _ _).trans hn)

omit hS hn in
theorem exact_degree : ∀ r ∈ z.map exactCoef, 0 ≤ r.l := by
  intro r hr
  obtain ⟨r', hr', rfl⟩ := List.mem_map.1 hr
  exact (hz r' hr').1.degree.1

omit hS hn in
theorem sumWhere_le (p : ZRow → Bool) (k : Zdi.Comp) : Zdi.sumWhere p (Zdi.energyOf k) (z.map exactCoef) ≤
    Zdi.sumWhere (fun _ => true) (Zdi.energyOf k) (z.map exactCoef) := by
  unfold Zdi.sumWhere
  refine List.Sublist.sum_le_sum ?_ ?_
  · rw [List.filter_true]; exact List.filter_sublist.map _
  · intro x hx
    obtain ⟨r, hr, rfl⟩ := List.mem_map.1 hx
    exact C41_nonneg k r (exact_degree hz r (List.mem_of_mem_filter hr))

omit hS hz hn in
theorem sumWhere_pol (p : ZRow → Bool) (Z : Zdi) : Zdi.sumWhere p Zdi.energyPol Z =
    Zdi.sumWhere p (Zdi.energyOf .alpha) Z + Zdi.sumWhere p (Zdi.energyOf .beta) Z := by
  unfold Zdi.sumWhere Zdi.energyPol
  exact List.sum_map_add

omit hS hn in
theorem sumWhere_nonneg (p : ZRow → Bool) (k : Zdi.Comp) : 0 ≤ Zdi.sumWhere p (Zdi.energyOf k) (z.map exactCoef) := by
  unfold Zdi.sumWhere
  apply List.sum_nonneg
  intro x hx
  obtain ⟨r, hr, rfl⟩ := List.mem_map.1 hx
  exact C41_nonneg k r (exact_degree hz r (List.mem_of_mem_filter hr))

omit hS hz hn in
theorem sums_eq : sums S z (z.map (En .alpha)) (z.map (En .beta)) (z.map (En .gamma)) =
    { alpha := S (z.map (En .alpha)), beta := S (z.map (En .beta)), gamma := S (z.map (En .gamma)),
      pol1 := S ((z.filter fun r => decide (r.l = 1)).map Pol), pol2 := S ((z.filter fun r => decide (r.l = 2)).map Pol),
      pol3 := S ((z.filter fun r => decide (r.l = 3)).map Pol), tor1 := S ((z.filter fun r => decide (r.l = 1)).map (En .gamma)),
      tor2 := S ((z.filter fun r => decide (r.l = 2)).map (En .gamma)),
      tor3 := S ((z.filter fun r => decide (r.l = 3)).map (En .gamma)), polAxi := S ((z.filter fun r => decide (r.m = 0)).map Pol),
      torAxi := S ((z.filter fun r => decide (r.m = 0)).map (En .gamma)),
      axial := (z.filter fun r => decide (r.l = 1) && decide (r.m = 0)).map Pol,
      rows := z.map fun r => (r.l, r.m, En .alpha r, En .beta r, En .gamma r) } := by
  have hb : both (z.map (En .alpha)) (z.map (En .beta)) = z.map Pol := both_map _ _ _
  simp only [sums, hb, pick_map, rows_map]

theorem good_all (k : Zdi.Comp) : Good (10 ^ 6 + 4) 420 (S (z.map (En k)))
    (Zdi.sumWhere (fun _ => true) (Zdi.energyOf k) (z.map exactCoef)) := by
  have := good_one hS hz hn (fun _ => true) k
  rwa [List.filter_true] at this

theorem good_polAll : Good (10 ^ 6 + 5) 421 (PyFloat.add (S (z.map (En .alpha))) (S (z.map (En .beta))))
    (Zdi.sumWhere (fun _ => true) (Zdi.energyOf .alpha) (z.map exactCoef) +
      Zdi.sumWhere (fun _ => true) (Zdi.energyOf .beta) (z.map exactCoef)) :=
  (good_all hS hz hn .alpha).add (good_all hS hz hn .beta) (by norm_num) (by norm_num)

theorem good_total : Good (10 ^ 6 + 6) 422
    (PyFloat.add (PyFloat.add (S (z.map (En .alpha))) (S (z.map (En .beta)))) (S (z.map (En .gamma))))
    (Zdi.totalEnergy (z.map exactCoef)) := by
  have : Zdi.totalEnergy (z.map exactCoef) = Zdi.sumWhere (fun _ => true) (Zdi.energyOf .alpha) (z.map exactCoef) +
      Zdi.sumWhere (fun _ => true) (Zdi.energyOf .beta) (z.map exactCoef) +
      Zdi.sumWhere (fun _ => true) (Zdi.energyOf .gamma) (z.map exactCoef) := by
    simp only [Zdi.totalEnergy, Zdi.sumWhere, List.filter_true]
  rw [this]
  exact (good_polAll hS hz hn).add ((good_all hS hz hn .gamma).mono (by norm_num) (by norm_num)) (by norm_num) (by norm_num)

theorem entries_show : List.Forall₂ ShowsEntry (entries S z (z.map (En .alpha)) (z.map (En .beta)) (z.map (En .gamma)))
    (Zdi.energyEntries (z.map exactCoef)) := by
  have hb : both (z.map (En .alpha)) (z.map (En .beta)) = z.map Pol := both_map _ _ _
  have a := fun k => (good_all hS hz hn k).mono (n' := 10 ^ 6 + 6) (c' := 430) (by norm_num) (by norm_num)
  have gp := (good_polAll hS hz hn).mono (n' := 10 ^ 6 + 6) (c' := 430) (by norm_num) (by norm_num)
  have gt := (good_total hS hz hn).mono (n' := 10 ^ 6 + 6) (c' := 430) (by norm_num) (by norm_num)
  have g1 := fun p => (good_one hS hz hn p .gamma).mono (n' := 10 ^ 6 + 6) (c' := 430) (by norm_num) (by norm_num)
  have g2 := fun p => (good_pol hS hz hn p).mono (n' := 10 ^ 6 + 6) (c' := 430) (by norm_num) (by norm_num)
  have ax := (((good_pol hS hz hn fun r => decide (r.m = 0)).mono (n' := 10 ^ 6 + 5) (c' := 421) (by norm_num) (by norm_num)).add
    ((good_one hS hz hn (fun r => decide (r.m = 0)) .gamma).mono (n' := 10 ^ 6 + 5) (c' := 421) (by norm_num) (by norm_num))
    (by norm_num) (by norm_num)).mono (n' := 10 ^ 6 + 6) (c' := 430) (by norm_num) (by norm_num)
  have n0 := fun k => sumWhere_nonneg hz (fun _ => true) k
  have n1 : (10 ^ 6 + 6 : ℕ) ≤ 11 * 10 ^ 5 - 1 := by norm_num
  have n2 : (10 ^ 6 + 6 : ℕ) ≤ 11 * 10 ^ 5 := by norm_num
  have le1 := fun p => sumWhere_le hz p .gamma
  have le2 : ∀ p, Zdi.sumWhere p Zdi.energyPol (z.map exactCoef) ≤ Zdi.sumWhere (fun _ => true) (Zdi.energyOf .alpha) (z.map exactCoef) +
      Zdi.sumWhere (fun _ => true) (Zdi.energyOf .beta) (z.map exactCoef) := by
    intro p; rw [sumWhere_pol]; exact add_le_add (sumWhere_le hz p .alpha) (sumWhere_le hz p .beta)
  have tot : Zdi.totalEnergy (z.map exactCoef) = Zdi.sumWhere (fun _ => true) (Zdi.energyOf .alpha) (z.map exactCoef) +
      Zdi.sumWhere (fun _ => true) (Zdi.energyOf .beta) (z.map exactCoef) +
      Zdi.sumWhere (fun _ => true) (Zdi.energyOf .gamma) (z.map exactCoef) := by
    simp only [Zdi.totalEnergy, Zdi.sumWhere, List.filter_true]
  have na := n0 .alpha
  have nb := n0 .beta
  have ng := n0 .gamma
  unfold entries Zdi.energyEntries
  simp only [sums_eq, hb, pick_map, EnergyText.Sums.pol, EnergyText.Sums.total]
  refine List.rel_append (List.rel_append (List.rel_append ?_ ?_) ?_) ?_
  · refine .cons ⟨rfl, showsReal_of gt.rel (by norm_num)⟩ (.cons ⟨rfl, (a .alpha).frac gt n1 n2 (by rw [tot]; linarith)⟩
      (.cons ⟨rfl, gp.frac gt n1 n2 (by rw [tot]; linarith)⟩ (.cons ⟨rfl, (a .gamma).frac gt n1 n2 (by rw [tot]; linarith)⟩
      (.cons ⟨rfl, (g2 fun r => decide (r.l = 1)).frac gp n1 n2 (le2 _)⟩ (.cons ⟨rfl, (g2 fun r => decide (r.l = 2)).frac gp n1 n2 (le2 _)⟩
      (.cons ⟨rfl, (g2 fun r => decide (r.l = 3)).frac gp n1 n2 (le2 _)⟩
      (.cons ⟨rfl, (g1 fun r => decide (r.l = 1)).frac (a .gamma) n1 n2 (le1 _)⟩
      (.cons ⟨rfl, (g1 fun r => decide (r.l = 2)).frac (a .gamma) n1 n2 (le1 _)⟩
      (.cons ⟨rfl, (g1 fun r => decide (r.l = 3)).frac (a .gamma) n1 n2 (le1 _)⟩ .nil)))))))))
  · rw [List.forall₂_map_left_iff, List.forall₂_map_right_iff, List.forall₂_same]
    intro l _
    exact ⟨rfl, (g2 fun r => decide (r.l = l)).frac gp n1 n2 (le2 _)⟩
  · rw [List.forall₂_map_left_iff, List.forall₂_map_right_iff, List.forall₂_same]
    intro l _
    exact ⟨rfl, (g1 fun r => decide (r.l = l)).frac (a .gamma) n1 n2 (le1 _)⟩
  · refine .cons ⟨rfl, ax.frac gt n1 n2 ?_⟩ .nil
    rw [tot]
    exact add_le_add (le2 _) (le1 _)

theorem axisym_show : List.Forall₂ ShowsEntry (axisymEntries S z (z.map (En .alpha)) (z.map (En .beta)) (z.map (En .gamma)))
    (Zdi.axisymEntries (z.map exactCoef)) := by
  have a := fun k => (good_all hS hz hn k).mono (n' := 10 ^ 6 + 6) (c' := 430) (by norm_num) (by norm_num)
  have gp := (good_polAll hS hz hn).mono (n' := 10 ^ 6 + 6) (c' := 430) (by norm_num) (by norm_num)
  have g1 := fun p k => (good_one hS hz hn p k).mono (n' := 10 ^ 6 + 6) (c' := 430) (by norm_num) (by norm_num)
  have g2 := fun p => (good_pol hS hz hn p).mono (n' := 10 ^ 6 + 6) (c' := 430) (by norm_num) (by norm_num)
  have n1 : (10 ^ 6 + 6 : ℕ) ≤ 11 * 10 ^ 5 - 1 := by norm_num
  have n2 : (10 ^ 6 + 6 : ℕ) ≤ 11 * 10 ^ 5 := by norm_num
  have nb := sumWhere_nonneg hz (fun _ => true) .beta
  have le2 : ∀ p, Zdi.sumWhere p Zdi.energyPol (z.map exactCoef) ≤ Zdi.sumWhere (fun _ => true) (Zdi.energyOf .alpha) (z.map exactCoef) +
      Zdi.sumWhere (fun _ => true) (Zdi.energyOf .beta) (z.map exactCoef) := by
    intro p; rw [sumWhere_pol]; exact add_le_add (sumWhere_le hz p .alpha) (sumWhere_le hz p .beta)
  unfold axisymEntries Zdi.axisymEntries
  simp only [sums_eq, pick_map, EnergyText.Sums.pol]
  exact .cons ⟨rfl, (g1 (fun r => decide (r.m = 0)) .alpha).frac gp n1 n2 ((sumWhere_le hz _ .alpha).trans (by linarith))⟩
    (.cons ⟨rfl, (g2 fun r => decide (r.m = 0)).frac gp n1 n2 (le2 _)⟩
    (.cons ⟨rfl, (g1 (fun r => decide (r.m = 0)) .gamma).frac (a .gamma) n1 n2 (sumWhere_le hz _ .gamma)⟩ .nil))

end

theorem isClose_self {x : PyFloat} : isClose x x = true ↔ x ≠ nan := by
  cases x with
  | fin s a =>
    simp only [isClose, decide_eq_true_eq, ne_eq, reduceCtorEq, not_false_eq_true, iff_true, sub_self, abs_zero]
    positivity
  | inf s => simp [isClose]
  | nan => simp [isClose]

/-! ### Overflow -/

theorem nonfin_add {x y : PyFloat} (h : isFin x = false ∨ isFin y = false) : isFin (PyFloat.add x y) = false := by
  cases x <;> cases y <;> simp_all [isFin, PyFloat.add]
  split_ifs <;> rfl

theorem nonfin_neg {x : PyFloat} (h : isFin x = false) : isFin (PyFloat.neg x) = false := by
  cases x <;> simp_all [isFin, PyFloat.neg]

theorem zero_mul_nonfin {s : Bool} {x : PyFloat} (h : isFin x = false) : PyFloat.mul (fin s 0) x = nan := by
  cases x <;> simp_all [isFin, PyFloat.mul]

theorem add_nan (x : PyFloat) : PyFloat.add x nan = nan := by cases x <;> rfl

/-- Too large to be squared. -/
def Huge (x : PyFloat) : Prop := isFin x = false ∨ ∃ s q, x = fin s q ∧ (2 : ℚ) ^ (512 : ℤ) ≤ q

theorem Huge.square {x : PyFloat} (h : Huge x) : isFin (PyFloat.mul x x) = false := by
  rcases h with h | ⟨s, q, rfl, hq⟩
  · cases x <;> simp_all [isFin, PyFloat.mul]
  · have h0 : (0 : ℚ) < q := lt_of_lt_of_le (by positivity) hq
    have h1 : (2 : ℚ) ^ (1024 : ℤ) ≤ q * q := by
      rw [show (1024 : ℤ) = 512 + 512 by norm_num, zpow_add₀ (by norm_num)]
      exact mul_le_mul hq hq (by positivity) h0.le
    simp only [PyFloat.mul]
    rw [ofMag_big h1]
    rfl

theorem Huge.neg {x : PyFloat} (h : Huge x) : Huge (PyFloat.neg x) := by
  rcases h with h | ⟨s, q, rfl, hq⟩
  · exact Or.inl (nonfin_neg h)
  · exact Or.inr ⟨!s, q, rfl, hq⟩

theorem huge_square {c : PyFloat × PyFloat} (h : Huge c.1 ∨ Huge c.2) : isFin (FloatEnergy.square c).1 = false := by
  unfold FloatEnergy.square PyFloat.sub
  refine nonfin_add (h.imp (fun h => h.square) fun h => nonfin_neg h.square)

theorem huge_energy (l m : ℤ) {c : PyFloat × PyFloat} (h : Huge c.1 ∨ Huge c.2) (lt : Bool) : (energyC l m c lt).2 = nan := by
  have h1 := huge_square h
  have hk : ∃ s, (cmul (fin false (if m = 0 then 1 else 0), fin false 0) (fin false (1 / 4), fin false 0)).2 = fin s 0 := by
    by_cases hm : m = 0
    · refine ⟨false, ?_⟩; simp only [hm, if_true]; decide +kernel
    · refine ⟨false, ?_⟩; simp only [hm, if_false]; decide +kernel
  obtain ⟨s, hs⟩ := hk
  have hw : isFin (cadd (FloatEnergy.square c) (FloatEnergy.square (conj c))).1 = false := nonfin_add (Or.inl h1)
  have hz : (zonal m c).2 = nan := by
    show PyFloat.add _ (PyFloat.mul (cmul _ _).2 _) = nan
    rw [hs, zero_mul_nonfin hw, add_nan]
  have he : (cadd (plain c) (zonal m c)).2 = nan := by
    show PyFloat.add _ (zonal m c).2 = nan
    rw [hz, add_nan]
  cases lt
  · exact he
  · show (cmul (cadd (plain c) (zonal m c)) _).2 = nan
    show PyFloat.add (PyFloat.mul _ _) (PyFloat.mul (cadd (plain c) (zonal m c)).2 _) = nan
    rw [he]
    exact add_nan _

/-! ### Sums that need not be accurate -/

theorem En_size {e : ℤ} (he : e ≤ 500) {r : ERow} (h : RowIn e r) (k : Zdi.Comp) :
    RelF 0 (En k r) ((En k r).num : ℝ) ∧ ((En k r).num : ℝ) ≤ 2 ^ (2 * e + 2) := by
  have c := RowIn.coef h k
  have s1 := PartIn.sized he c.1
  have s2 := PartIn.sized he c.2
  have f := energy_fin (PartIn.fd c.1) (PartIn.fd c.2) s1 s2 h.degree.1 h.degree.2 r.m (decide (k ≠ .alpha))
  have hnum : (En k r).num = valueF r.l r.m (decide (k ≠ .alpha)) (coefOf k r).1.num (coefOf k r).2.num := by
    unfold En; rw [f.1]; rfl
  refine ⟨⟨_, f.1, f.2, ?_⟩, ?_⟩
  · rw [hnum]
    exact Rel.refl (by exact_mod_cast f.2.nonneg)
  · rw [hnum]
    have sz := spec_size h k
    rw [← exactF_eq] at sz
    have e4 : (2 : ℝ) ^ (2 * e + 2) = 4 * 2 ^ (2 * e) := by rw [zpow_add₀ (by norm_num)]; norm_num; ring
    have q1 := sq_size c.1
    have q2 := sq_size c.2
    have e0 : (0 : ℝ) < 2 ^ (2 * e) := by positivity
    rw [e4]
    generalize (2 : ℝ) ^ (2 * e) = t at *
    by_cases hm : r.m = 0
    · have hh := valueF_hidden s1 s2 h.degree.1 (decide (k ≠ .alpha))
      rw [hm] at sz ⊢
      have := abs_le.1 hh
      have : (((coefOf k r).1.num : ℝ) ^ 2 + ((coefOf k r).2.num : ℝ) ^ 2) / 2 ^ 50 ≤ t := by
        rw [div_le_iff₀ (by norm_num)]
        norm_num
        linarith
      linarith
    · have hr := valueF_rel s1 s2 h.degree.1 (m := r.m) (Or.inl hm) (decide (k ≠ .alpha))
      have hw := pow_w_le 4 (by norm_num)
      have := hr.upper
      have h2 := mul_le_mul sz.2 hw (pow_nonneg w_pos.le _) e0.le
      linarith

theorem npSum_plain {S : List PyFloat → PyFloat} (hS : ∀ xs, IsNpSum xs (S xs)) {z : List ERow} (hz : ∀ r ∈ z, RowIn 479 r)
    (hn : z.length ≤ 10 ^ 6) (k : Zdi.Comp) : ∃ q, S (z.map (En k)) = fin false q ∧ IsDouble q ∧ q ≤ 2 ^ (990 : ℤ) := by
  obtain ⟨⟨q, h1, hd, h3⟩, h4⟩ := npSum_rows hS (Z := z) (f := En k) (e := fun r => ((En k r).num : ℝ)) (k := 0) (by norm_num)
    (fun r hr => (En_size (by norm_num) (hz r hr) k).1) (fun r hr => (En_size (by norm_num) (hz r hr) k).2.trans
      (zpow_le_zpow_right₀ (by norm_num) (by norm_num))) hn
  refine ⟨q, h1, hd, ?_⟩
  have : ((q : ℚ) : ℝ) ≤ ((2 ^ (990 : ℤ) : ℚ) : ℝ) := by
    rw [Rat.cast_zpow, Rat.cast_ofNat]
    calc (q : ℝ) ≤ _ := h3.upper
      _ ≤ 2 ^ (981 : ℤ) * 2 := mul_le_mul h4 (pow_w_le _ (by omega)) (pow_nonneg w_pos.le _) (by positivity)
      _ = 2 ^ (982 : ℤ) := by rw [show (982 : ℤ) = 981 + 1 by norm_num, zpow_add₀ (by norm_num), zpow_one]
      _ ≤ _ := zpow_le_zpow_right₀ (by norm_num) (by norm_num)
  exact_mod_cast this

end FloatEnergy

open FloatEnergy FloatError

/-! ### Theorems -/

/-- **C117.** The energies are real numbers: `np.real_if_close` drops the imaginary parts whenever the parts of the
coefficients are finite and not above `2 ^ 510` (1e153). -/
theorem C117_real (z : List ERow) (k : ERow → PyFloat × PyFloat) (lTerm : Bool)
    (hz : ∀ r ∈ z, (0 ≤ r.l ∧ r.l < 2 ^ 53) ∧
      (∃ s q, (k r).1 = fin s q ∧ IsDouble q ∧ q ≤ 2 ^ (510 : ℤ)) ∧ ∃ s q, (k r).2 = fin s q ∧ IsDouble q ∧ q ≤ 2 ^ (510 : ℤ)) :
    ∃ es, helper z k lTerm = some es ∧ es.length = z.length := by
  have key : ∀ {x : PyFloat}, (∃ s q, x = fin s q ∧ IsDouble q ∧ q ≤ 2 ^ (510 : ℤ)) → Fd x ∧ |x.num| ≤ 2 ^ (510 : ℤ) := by
    rintro x ⟨s, q, rfl, hd, h⟩
    exact ⟨⟨s, q, rfl, hd⟩, by rw [num_abs s hd.nonneg]; exact h⟩
  exact ⟨_, helper_real (fun r hr => ⟨(hz r hr).1, key (hz r hr).2.1, key (hz r hr).2.2⟩) lTerm, by simp⟩

/-- **C117.** But if one part of one coefficient is infinite, nan, or at least `2 ^ 512` (1.3e154), then the energy of that
coefficient is nan in its imaginary part, for any order, and the complex numbers are kept. -/
theorem C117_overflow (z : List ERow) (k : ERow → PyFloat × PyFloat) (lTerm : Bool) (r : ERow) (hr : r ∈ z) (x : PyFloat)
    (hx : x = (k r).1 ∨ x = (k r).2) (h : isFin x = false ∨ ∃ s q, x = fin s q ∧ (2 : ℚ) ^ (512 : ℤ) ≤ q) :
    (FloatEnergy.energyC r.l r.m (k r) lTerm).2 = nan ∧ helper z k lTerm = none := by
  have e : (FloatEnergy.energyC r.l r.m (k r) lTerm).2 = nan := huge_energy _ _ (by
    rcases hx with rfl | rfl
    · exact Or.inl h
    · exact Or.inr h) _
  refine ⟨e, ?_⟩
  unfold helper realIfClose
  rw [if_neg]
  rw [List.all_eq_true]
  intro hc
  have := hc _ (List.mem_map.2 ⟨r, hr, rfl⟩)
  rw [e] at this
  exact absurd this (by decide)

/-- **C117.** Every energy is a number that is not negative, and has its first 49 bits right: the relative error is at most
`2 ^ -49`. The coefficients of order 0 must be real. -/
theorem C117_energy (z : List ERow) (hz : ∀ r ∈ z, RowIn 500 r ∧ AxialReal r) :
    ∃ ea eb eg, arrays z = some (ea, eb, eg) ∧
      List.Forall₂ (fun e r => Summed (1 / 2 ^ 49) e (specEnergy .alpha (exactCoef r))) ea z ∧
      List.Forall₂ (fun e r => Summed (1 / 2 ^ 49) e (specEnergy .beta (exactCoef r))) eb z ∧
      List.Forall₂ (fun e r => Summed (1 / 2 ^ 49) e (specEnergy .gamma (exactCoef r))) eg z := by
  refine ⟨_, _, _, arrays_eq fun r hr => (hz r hr).1, ?_, ?_, ?_⟩
  all_goals
    rw [List.forall₂_map_left_iff, List.forall₂_same]
    intro r hr
    obtain ⟨q, e, hd, h⟩ := En_rel (hz r hr).1 (hz r hr).2 _
    refine ⟨q, e, hd, h.err.trans (mul_le_mul_of_nonneg_right ?_ h.pos)⟩
    have := pow_w_err 4 (by norm_num)
    norm_num at this ⊢
    linarith

/-- **C117.** An imaginary part in order 0 does not count, but its square is added and subtracted again: the energy is still not
negative, and wrong by at most the fraction `2 ^ -50` of the sum of both squares. -/
theorem C117_hidden (r : ERow) (h : RowIn 500 r) (hm : r.m = 0) (z : List ERow) (hz : ∀ r ∈ z, RowIn 500 r) :
    ∃ ea eb eg, arrays (r :: z) = some (ea, eb, eg) ∧
      (∃ q, ea.head? = some (fin false q) ∧ |(q : ℝ) - specEnergy .alpha (exactCoef r)| ≤ ((r.a.1.num : ℝ) ^ 2 + (r.a.2.num : ℝ) ^ 2) / 2 ^ 50) ∧
      (∃ q, eb.head? = some (fin false q) ∧ |(q : ℝ) - specEnergy .beta (exactCoef r)| ≤ ((r.b.1.num : ℝ) ^ 2 + (r.b.2.num : ℝ) ^ 2) / 2 ^ 50) ∧
      (∃ q, eg.head? = some (fin false q) ∧ |(q : ℝ) - specEnergy .gamma (exactCoef r)| ≤ ((r.g.1.num : ℝ) ^ 2 + (r.g.2.num : ℝ) ^ 2) / 2 ^ 50) := by
  have key : ∀ k, ∃ q, En k r = fin false q ∧ |(q : ℝ) - specEnergy k (exactCoef r)| ≤
      (((coefOf k r).1.num : ℝ) ^ 2 + ((coefOf k r).2.num : ℝ) ^ 2) / 2 ^ 50 := by
    intro k
    have c := RowIn.coef h k
    have f := energy_fin (PartIn.fd c.1) (PartIn.fd c.2) (PartIn.sized le_rfl c.1) (PartIn.sized le_rfl c.2) h.degree.1 h.degree.2 r.m
      (decide (k ≠ .alpha))
    refine ⟨_, f.1, ?_⟩
    rw [← exactF_eq, hm]
    exact valueF_hidden (PartIn.sized le_rfl c.1) (PartIn.sized le_rfl c.2) h.degree.1 _
  refine ⟨_, _, _, arrays_eq fun r' hr' => ?_, ?_, ?_, ?_⟩
  · rcases List.mem_cons.1 hr' with rfl | hr'
    · exact h
    · exact hz r' hr'
  · obtain ⟨q, h1, h2⟩ := key .alpha; exact ⟨q, by simp [h1], h2⟩
  · obtain ⟨q, h1, h2⟩ := key .beta; exact ⟨q, by simp [h1], h2⟩
  · obtain ⟨q, h1, h2⟩ := key .gamma; exact ⟨q, by simp [h1], h2⟩

/-- **C117.** So nothing may be left: the coefficient `1 + 2 ^ 30 i` of order 0 has energy 1 and is given energy 0. -/
theorem C117_hidden_lost : ∃ r : ERow, r.m = 0 ∧ RowIn 500 r ∧ specEnergy .alpha (exactCoef r) = 1 ∧
    helper [r] ERow.a false = some [fin false 0] := by
  have zero : PartIn 500 (fin false 0) := ⟨false, 0, rfl, FloatRange.isDouble_zero, Or.inl rfl, by positivity⟩
  have one : PartIn 500 (fin false 1) := ⟨false, 1, rfl, FloatRange.isDouble_one, Or.inr (by
    rw [zpow_neg]; exact inv_le_one_of_one_le₀ (one_le_zpow₀ (by norm_num) (by norm_num))), one_le_zpow₀ (by norm_num) (by norm_num)⟩
  have big : PartIn 500 (fin false (2 ^ 30)) := ⟨false, 2 ^ 30, rfl, ⟨1, 30, by norm_num, by norm_num, by norm_num, by norm_num⟩, Or.inr (by
    refine le_trans ?_ (one_le_pow₀ (by norm_num))
    rw [zpow_neg]; exact inv_le_one_of_one_le₀ (one_le_zpow₀ (by norm_num) (by norm_num))), by
      rw [← zpow_natCast]; exact zpow_le_zpow_right₀ (by norm_num) (by norm_num)⟩
  refine ⟨⟨1, 0, (fin false 1, fin false (2 ^ 30)), (fin false 0, fin false 0), (fin false 0, fin false 0)⟩, rfl,
    ⟨by norm_num, ⟨one, big⟩, ⟨zero, zero⟩, ⟨zero, zero⟩⟩, ?_, ?_⟩
  · simp [specEnergy, exactCoef, Zdi.Comp.of, num]
  · decide +kernel

/-- **C117.** Below the range an energy may even be negative: for the imaginary coefficient `13 / 2 ^ 540` (3.6e-162) of order 0 it
is the negative number nearest to zero. -/
theorem C117_negative : helper [⟨1, 0, (fin false 0, fin false (13 / 2 ^ 540)), (fin false 0, fin false 0), (fin false 0, fin false 0)⟩]
    ERow.a false = some [fin true (1 / 2 ^ 1074)] := by
  decide +kernel

/-- **C117.** The sums that the report of `energy` starts from are accurate to 1e-9, in whatever order numpy adds up. -/
theorem C117_sums (S : List PyFloat → PyFloat) (hS : ∀ xs, IsNpSum xs (S xs)) (z : List ERow)
    (hz : ∀ r ∈ z, RowIn 480 r ∧ AxialReal r) (hn : z.length ≤ 10 ^ 6) :
    ∃ ea eb eg, arrays z = some (ea, eb, eg) ∧ SumsOf (z.map exactCoef) (sums S z ea eb eg) :=
  ⟨_, _, _, arrays_eq fun r hr => RowIn.mono (by norm_num) (hz r hr).1, sumsOf hS hz hn⟩

theorem FloatEnergy.total_small {S : List PyFloat → PyFloat} (hS : ∀ xs, IsNpSum xs (S xs)) {z : List ERow}
    (hz : ∀ r ∈ z, RowIn 480 r ∧ AxialReal r) (hn : z.length ≤ 10 ^ 6) :
    energyIn (z.map exactCoef) (fun _ _ => true) [.alpha, .beta, .gamma] ≤ 2 ^ 1000 := by
  have a := (all_one hS hz hn .alpha).2
  have b := (all_one hS hz hn .beta).2
  have g := (all_one hS hz hn .gamma).2
  have e : energyIn (z.map exactCoef) (fun _ _ => true) [.alpha, .beta, .gamma] =
      energyIn (z.map exactCoef) (fun _ _ => true) [.alpha] + energyIn (z.map exactCoef) (fun _ _ => true) [.beta] +
      energyIn (z.map exactCoef) (fun _ _ => true) [.gamma] := by
    simp only [energyIn, List.map_cons, List.map_nil, List.sum_cons, List.sum_nil, add_zero]
    rw [← List.sum_map_add, ← List.sum_map_add]
    congr 1
    apply List.map_congr_left
    intro r _
    ring
  rw [e, ← zpow_natCast]
  have h4 : (4 : ℝ) * 2 ^ (981 : ℤ) = 2 ^ (983 : ℤ) := by
    rw [show (983 : ℤ) = 2 + 981 by norm_num, zpow_add₀ (by norm_num)]; norm_num
  have h5 : (2 : ℝ) ^ (983 : ℤ) ≤ 2 ^ ((1000 : ℕ) : ℤ) := zpow_le_zpow_right₀ (by norm_num) (by norm_num)
  have h6 : (0 : ℝ) < 2 ^ (981 : ℤ) := by positivity
  linarith

theorem FloatEnergy.exact_axial (z : List ERow) : ((z.map exactCoef).filter fun r => decide (r.l = 1 ∧ r.m = 0)).length =
    (z.filter fun r => decide (r.l = 1 ∧ r.m = 0)).length := by
  rw [List.filter_map, List.length_map]
  rfl

/-- **C117.** From the coefficients to the page: the report that `energy` prints shows the shares of the coefficients. -/
theorem C117_report (S : List PyFloat → PyFloat) (hS : ∀ xs, IsNpSum xs (S xs)) (z : List ERow)
    (hz : ∀ r ∈ z, RowIn 480 r ∧ AxialReal r) (hn : z.length ≤ 10 ^ 6)
    (ha : (z.filter fun r => decide (r.l = 1 ∧ r.m = 0)).length = 1) (printed : List Text) :
    ∃ ea eb eg, arrays z = some (ea, eb, eg) ∧
    ∃ total shares1 shares2, EnergyText.report false (sums S z ea eb eg) printed = .ok () (printed ++ (total :: shares1 ++
      "* The radial energy is part of the poloidal energy.".toList :: shares2)) ∧
    ShowsTotal (energyIn (z.map exactCoef) (fun _ _ => true) [.alpha, .beta, .gamma]) total ∧
    List.Forall₂ (ShowsShare (z.map exactCoef)) (printedShares.take 3) shares1 ∧
    List.Forall₂ (ShowsShare (z.map exactCoef)) (printedShares.drop 3) shares2 := by
  obtain ⟨ea, eb, eg, h1, h2⟩ := C117_sums S hS z hz hn
  refine ⟨ea, eb, eg, h1, C111_report _ ?_ _ h2 (total_small hS hz hn) (by rw [exact_axial]; exact ha) printed⟩
  intro r hr
  obtain ⟨r', hr', rfl⟩ := List.mem_map.1 hr
  exact (hz r' hr').1.degree.1

/-- **C117.** From the coefficients to the table: the numbers in the lines are the parts of the coefficients in the total. -/
theorem C117_table (S : List PyFloat → PyFloat) (hS : ∀ xs, IsNpSum xs (S xs)) (z : List ERow)
    (hz : ∀ r ∈ z, RowIn 480 r ∧ AxialReal r) (hn : z.length ≤ 10 ^ 6)
    (h0 : energyIn (z.map exactCoef) (fun _ _ => true) [.alpha, .beta, .gamma] ≠ 0) :
    ∃ ea eb eg, arrays z = some (ea, eb, eg) ∧
    ∃ vs : List (ℤ × ℤ × ℚ × ℚ × ℚ), List.Forall₂ (fun t v => readRow t = some v) ((EnergyText.table (sums S z ea eb eg)).drop 2) vs ∧
      List.Forall₂ (fun v r => v.1 = r.l ∧ v.2.1 = r.m ∧
        ShowsPart v.2.2.1 (specEnergy .alpha (exactCoef r)) (energyIn (z.map exactCoef) (fun _ _ => true) [.alpha, .beta, .gamma]) ∧
        ShowsPart v.2.2.2.1 (specEnergy .beta (exactCoef r)) (energyIn (z.map exactCoef) (fun _ _ => true) [.alpha, .beta, .gamma]) ∧
        ShowsPart v.2.2.2.2 (specEnergy .gamma (exactCoef r)) (energyIn (z.map exactCoef) (fun _ _ => true) [.alpha, .beta, .gamma])) vs z := by
  obtain ⟨ea, eb, eg, h1, h2⟩ := C117_sums S hS z hz hn
  obtain ⟨vs, v1, v2, -⟩ := C111_table (z.map exactCoef) (by
    intro r hr
    obtain ⟨r', hr', rfl⟩ := List.mem_map.1 hr
    exact (hz r' hr').1.degree.1) _ h2 (total_small hS hz hn) h0
  refine ⟨ea, eb, eg, h1, vs, v1, ?_⟩
  rw [List.forall₂_map_right_iff] at v2
  exact v2

/-- **C117.** The assertion that the total is the poloidal and the toroidal energy together can only fail if the total is nan: the
same numbers are added up in the same order. -/
theorem C117_assert (S : List PyFloat → PyFloat) (z : List ERow) (ea eb eg : List PyFloat) (d : List (String × PyFloat)) :
    let s := sums S z ea eb eg
    (s.total ≠ nan → isClose s.total (PyFloat.add s.pol s.gamma) = true) ∧
    (s.total = nan → energyReal S z ea eb eg d = .error .assertion (d ++ entries S z ea eb eg)) := by
  intro s
  have e : PyFloat.add s.pol s.gamma = s.total := rfl
  refine ⟨fun h => by rw [e]; exact isClose_self.2 h, fun h => ?_⟩
  have hc : ¬ isClose s.total (PyFloat.add s.pol s.gamma) = true := by rw [e, isClose_self]; exact fun h' => h' h
  simp only [energyReal, pyAssert]
  rw [if_neg hc]
  rfl

/-- **C117.** `energy` with a destination stores the same keys as in exact arithmetic, in the same order, each with the exact value to
1e-9 of it; nan where the whole is zero. It completes if there is exactly one coefficient for the axial dipole and raises AssertionError
if not. -/
theorem C117_dest (S : List PyFloat → PyFloat) (hS : ∀ xs, IsNpSum xs (S xs)) (z : List ERow)
    (hz : ∀ r ∈ z, RowIn 200 r ∧ AxialReal r) (hn : z.length ≤ 10 ^ 6) (d : List (String × PyFloat)) (d' : List (String × Option ℝ)) :
    ∃ ea eb eg es es', arrays z = some (ea, eb, eg) ∧ List.Forall₂ ShowsEntry es es' ∧
      ((z.filter fun r => decide (r.l = 1 ∧ r.m = 0)).length = 1 ∧ energyReal S z ea eb eg d = .ok (ea, eb, eg) (d ++ es) ∧
          (∃ x, Zdi.energy (z.map exactCoef) d' = .ok x (d' ++ es')) ∨
        (z.filter fun r => decide (r.l = 1 ∧ r.m = 0)).length ≠ 1 ∧ energyReal S z ea eb eg d = .error .assertion (d ++ es) ∧
          Zdi.energy (z.map exactCoef) d' = .error .assertion (d' ++ es')) := by
  have h1 := entries_show hS hz hn
  have h2 := axisym_show hS hz hn
  have hax : (z.filter fun r => decide (r.l = 1) && decide (r.m = 0)) = z.filter fun r => decide (r.l = 1 ∧ r.m = 0) := by
    apply List.filter_congr; intro r _; simp
  have gt := good_total hS hz hn
  have hs : (sums S z (z.map (En .alpha)) (z.map (En .beta)) (z.map (En .gamma))).total ≠ nan := by
    obtain ⟨q, e, -⟩ := gt.rel
    rw [sums_eq]
    intro hc
    have : PyFloat.add (PyFloat.add (S (z.map (En .alpha))) (S (z.map (En .beta)))) (S (z.map (En .gamma))) = nan := hc
    rw [e] at this
    cases this
  have hc := (C117_assert S z (z.map (En .alpha)) (z.map (En .beta)) (z.map (En .gamma)) d).1 hs
  have hl : (sums S z (z.map (En .alpha)) (z.map (En .beta)) (z.map (En .gamma))).axial.length =
      (z.filter fun r => decide (r.l = 1 ∧ r.m = 0)).length := by rw [sums_eq, ← hax, List.length_map]
  by_cases ha : (z.filter fun r => decide (r.l = 1 ∧ r.m = 0)).length = 1
  · obtain ⟨r, hr⟩ := List.length_eq_one_iff.1 ha
    have hrm : r ∈ z.filter fun r => decide (r.l = 1 ∧ r.m = 0) := by rw [hr]; exact List.mem_singleton_self r
    have hrz := List.mem_of_mem_filter hrm
    have hr1 : r.l = 1 ∧ r.m = 0 := by simpa using (List.mem_filter.1 hrm).2
    have hd := (good_Pol hS hz hn hrz).mono (n' := 10 ^ 6 + 6) (c' := 430) (by norm_num) (by norm_num)
    have hD := (good_pol hS hz hn fun r => decide (r.l = 1)).mono (n' := 10 ^ 6 + 6) (c' := 430) (by norm_num) (by norm_num)
    have hle : Zdi.energyPol (exactCoef r) ≤ Zdi.sumWhere (fun r => decide (r.l = 1)) Zdi.energyPol (z.map exactCoef) := by
      unfold Zdi.sumWhere
      refine List.single_le_sum ?_ _ (List.mem_map.2 ⟨exactCoef r, List.mem_filter.2 ⟨List.mem_map.2 ⟨r, hrz, rfl⟩, ?_⟩, rfl⟩)
      · intro x hx
        obtain ⟨r', hr', rfl⟩ := List.mem_map.1 hx
        have := exact_degree hz r' (List.mem_of_mem_filter hr')
        exact add_nonneg (C41_nonneg .alpha r' this) (C41_nonneg .beta r' this)
      · simp [exactCoef, hr1.1]
    have hlast := hd.frac hD (by norm_num) (by norm_num) hle
    have hX : Zdi.axialDipole (z.map exactCoef) = [exactCoef r] := by
      unfold Zdi.axialDipole
      rw [List.filter_map]
      have : (z.filter ((fun r => decide (r.l = 1) && decide (r.m = 0)) ∘ exactCoef)) = [r] := by rw [← hr, ← hax]; rfl
      rw [this]; rfl
    have hdm : (sums S z (z.map (En .alpha)) (z.map (En .beta)) (z.map (En .gamma))).axial.headD (fin false 0) = Pol r := by
      rw [sums_eq]; simp only [hax, hr]; rfl
    have hpol1 : (sums S z (z.map (En .alpha)) (z.map (En .beta)) (z.map (En .gamma))).pol1 =
        S ((z.filter fun r => decide (r.l = 1)).map Pol) := by rw [sums_eq]
    obtain ⟨last, hE⟩ := (C42_energy (z.map exactCoef) d').1 (by rw [exact_axial]; exact ha)
    have hlast2 : last = Zdi.npDiv (Zdi.energyPol (exactCoef r))
        (Zdi.sumWhere (fun r => decide (r.l = 1)) Zdi.energyPol (z.map exactCoef)) := by
      have hE2 : Zdi.energy (z.map exactCoef) d' = .ok ((z.map exactCoef).map (Zdi.energyOf .alpha), (z.map exactCoef).map (Zdi.energyOf .beta),
          (z.map exactCoef).map (Zdi.energyOf .gamma)) (d' ++ Zdi.energyEntries (z.map exactCoef) ++ Zdi.axisymEntries (z.map exactCoef) ++
          [("magnetogram.total.energy.dipole.axisymmetric.fraction", Zdi.npDiv (Zdi.energyPol (exactCoef r))
            (Zdi.sumWhere (fun r => decide (r.l = 1)) Zdi.energyPol (z.map exactCoef)))]) := by
        have hclose : |Zdi.totalEnergy (z.map exactCoef) - (Zdi.sumWhere (fun _ => true) (Zdi.energyOf .alpha) (z.map exactCoef)
            + Zdi.sumWhere (fun _ => true) (Zdi.energyOf .beta) (z.map exactCoef)
            + Zdi.sumWhere (fun _ => true) (Zdi.energyOf .gamma) (z.map exactCoef))|
            ≤ 1e-8 + 1e-5 * |Zdi.sumWhere (fun _ => true) (Zdi.energyOf .alpha) (z.map exactCoef)
            + Zdi.sumWhere (fun _ => true) (Zdi.energyOf .beta) (z.map exactCoef)
            + Zdi.sumWhere (fun _ => true) (Zdi.energyOf .gamma) (z.map exactCoef)| := by
          have : Zdi.totalEnergy (z.map exactCoef) = Zdi.sumWhere (fun _ => true) (Zdi.energyOf .alpha) (z.map exactCoef)
            + Zdi.sumWhere (fun _ => true) (Zdi.energyOf .beta) (z.map exactCoef)
            + Zdi.sumWhere (fun _ => true) (Zdi.energyOf .gamma) (z.map exactCoef) := by
            simp only [Zdi.totalEnergy, Zdi.sumWhere, List.filter_true]
          rw [this, sub_self, abs_zero]
          positivity
        simp only [Zdi.energy, Zdi.writeEntries, pyAssert, if_pos hclose, List.length_map, hX, List.length_singleton, if_true]
        rfl
      rw [hE] at hE2
      injection hE2 with _ h3
      have h4 := List.append_cancel_left h3
      injection h4 with h5
      injection h5
    refine ⟨_, _, _, _, _, arrays_eq fun r hr => RowIn.mono (by norm_num) (hz r hr).1,
      List.rel_append (List.rel_append h1 h2) (.cons (a := ("magnetogram.total.energy.dipole.axisymmetric.fraction",
        PyFloat.div (Pol r) (S ((z.filter fun r => decide (r.l = 1)).map Pol))))
        (b := ("magnetogram.total.energy.dipole.axisymmetric.fraction", Zdi.npDiv (Zdi.energyPol (exactCoef r))
          (Zdi.sumWhere (fun r => decide (r.l = 1)) Zdi.energyPol (z.map exactCoef)))) ⟨rfl, hlast⟩ .nil), Or.inl ⟨ha, ?_, ?_⟩⟩
    · simp only [energyReal, pyAssert]
      rw [if_pos hc, if_pos (by rw [hl]; exact ha), hdm, hpol1]
      show EStateM.Result.ok _ _ = _
      simp only [List.append_assoc]
    · rw [hlast2] at hE
      exact ⟨_, by rw [← List.append_assoc, ← List.append_assoc]; exact hE⟩
  · refine ⟨_, _, _, _, _, arrays_eq fun r hr => RowIn.mono (by norm_num) (hz r hr).1, List.rel_append h1 h2, Or.inr ⟨ha, ?_, ?_⟩⟩
    · simp only [energyReal, pyAssert]
      rw [if_pos hc, if_neg (by rw [hl]; exact ha)]
      show EStateM.Result.error _ _ = _
      simp only [List.append_assoc]
    · rw [(C42_energy (z.map exactCoef) d').2 (by rw [exact_axial]; exact ha), List.append_assoc]

theorem FloatEnergy.share_fin {p q : ℚ} (hp : 0 ≤ p) (hq : 0 < q) (h : p ≤ q) :
    PyFloat.div (fin false p) (fin false q) = fin false (fl0 (p / q)) ∧ 0 ≤ fl0 (p / q) ∧ fl0 (p / q) ≤ 1 ∧
      |fl0 (p / q) - p / q| ≤ p / q / 2 ^ 53 + 2 ^ (-1075 : ℤ) := by
  have h1 : p / q ≤ 1 := (div_le_one hq).2 h
  have h0 : 0 ≤ p / q := div_nonneg hp hq.le
  refine ⟨?_, fl0_nonneg h0, FloatCoords.fl0_le FloatRange.isDouble_one h0 h1, FloatCoords.fl0_err h0⟩
  simp only [PyFloat.div, if_neg hq.ne', bne_self_eq_false]
  refine ofMag_of_le h0 (h1.trans ?_)
  have := two_zpow_max (i := 0) (by norm_num)
  rwa [zpow_zero] at this

/-- **C117.** Also with coefficients of order 0 that are not real: unless the total is zero, the radial share is not above the poloidal,
the poloidal and the toroidal are not above 1, exactly, and these two add up to 1 up to `2 ^ -51`. -/
theorem C117_bounds (S : List PyFloat → PyFloat) (hS : ∀ xs, IsNpSum xs (S xs)) (z : List ERow) (hz : ∀ r ∈ z, RowIn 479 r)
    (hn : z.length ≤ 10 ^ 6) :
    ∃ ea eb eg, arrays z = some (ea, eb, eg) ∧ ((sums S z ea eb eg).total = fin false 0 ∨
      ∃ rad pol tor, ("magnetogram.radial.energy.fraction", fin false rad) ∈ entries S z ea eb eg ∧
        ("magnetogram.poloidal.energy.fraction", fin false pol) ∈ entries S z ea eb eg ∧
        ("magnetogram.toroidal.energy.fraction", fin false tor) ∈ entries S z ea eb eg ∧
        0 ≤ rad ∧ rad ≤ pol ∧ pol ≤ 1 ∧ 0 ≤ tor ∧ tor ≤ 1 ∧ |pol + tor - 1| ≤ 1 / 2 ^ 51) := by
  refine ⟨_, _, _, arrays_eq fun r hr => RowIn.mono (by norm_num) (hz r hr), ?_⟩
  obtain ⟨a, ha, da, la⟩ := npSum_plain hS hz hn .alpha
  obtain ⟨b, hb, db, lb⟩ := npSum_plain hS hz hn .beta
  obtain ⟨g, hg, dg, lg⟩ := npSum_plain hS hz hn .gamma
  have big : ∀ {x : ℚ}, x ≤ 2 ^ (990 : ℤ) + 2 ^ (990 : ℤ) → x ≤ 2 ^ (991 : ℤ) := by
    intro x hx
    rwa [show (991 : ℤ) = 1 + 990 by norm_num, zpow_add₀ (by norm_num), zpow_one, two_mul]
  have h991 : (2 : ℚ) ^ (991 : ℤ) ≤ maxDouble := two_zpow_max (by norm_num)
  have h992 : (2 : ℚ) ^ (991 : ℤ) + 2 ^ (991 : ℤ) ≤ maxDouble := by
    have := two_zpow_max (i := 992) (by norm_num)
    rwa [show (992 : ℤ) = 1 + 991 by norm_num, zpow_add₀ (by norm_num), zpow_one, two_mul] at this
  have hab : a + b ≤ 2 ^ (991 : ℤ) := big (add_le_add la lb)
  have hab0 := add_nonneg da.nonneg db.nonneg
  have eP : PyFloat.add (fin false a) (fin false b) = fin false (fl0 (a + b)) := FloatCoords.add_fin da.nonneg db.nonneg (hab.trans h991)
  have dP := FloatCoords.fl0_dbl hab0 (hab.trans h991)
  have lP := FloatCoords.fl0_le_zpow (by norm_num) (by norm_num) hab0 hab
  have aP : a ≤ fl0 (a + b) := by
    have := rnd_le_of_double (q := a + b) da (by linarith [db.nonneg]) (hab.trans h991)
    rwa [FloatRound.rnd_nonneg_eq hab0] at this
  generalize fl0 (a + b) = P at *
  have hg991 : g ≤ 2 ^ (991 : ℤ) := lg.trans (two_zpow_le (by norm_num))
  have hPg : P + g ≤ maxDouble := (add_le_add lP hg991).trans h992
  have hPg0 := add_nonneg dP.nonneg dg.nonneg
  have eT : PyFloat.add (fin false P) (fin false g) = fin false (fl0 (P + g)) := FloatCoords.add_fin dP.nonneg dg.nonneg hPg
  have PT : P ≤ fl0 (P + g) := by
    have := rnd_le_of_double (q := P + g) dP (by linarith [dg.nonneg]) hPg
    rwa [FloatRound.rnd_nonneg_eq hPg0] at this
  have gT : g ≤ fl0 (P + g) := by
    have := rnd_le_of_double (q := P + g) dg (by linarith [dP.nonneg]) hPg
    rwa [FloatRound.rnd_nonneg_eq hPg0] at this
  have err : |fl0 (P + g) - (P + g)| ≤ (P + g) / 2 ^ 53 := by
    have := FloatRound.rnd_add_rel (x := fin false P) (y := fin false g) ⟨_, _, rfl, dP⟩ ⟨_, _, rfl, dg⟩
    have np : (fin false P).num = P := rfl
    have ng : (fin false g).num = g := rfl
    rwa [np, ng, FloatRound.rnd_nonneg_eq hPg0, abs_of_nonneg hPg0] at this
  have hT0 := fl0_nonneg hPg0
  generalize fl0 (P + g) = T at *
  have hal : (sums S z (z.map (En .alpha)) (z.map (En .beta)) (z.map (En .gamma))).alpha = fin false a := ha
  have hga : (sums S z (z.map (En .alpha)) (z.map (En .beta)) (z.map (En .gamma))).gamma = fin false g := hg
  have hpo : (sums S z (z.map (En .alpha)) (z.map (En .beta)) (z.map (En .gamma))).pol = fin false P := by
    show PyFloat.add (S (z.map (En .alpha))) (S (z.map (En .beta))) = _
    rw [ha, hb, eP]
  have hto : (sums S z (z.map (En .alpha)) (z.map (En .beta)) (z.map (En .gamma))).total = fin false T := by
    show PyFloat.add (PyFloat.add (S (z.map (En .alpha))) (S (z.map (En .beta)))) (S (z.map (En .gamma))) = _
    rw [ha, hb, hg, eP, eT]
  rcases hT0.eq_or_lt with e | hT
  · left; rw [hto, ← e]
  right
  obtain ⟨s1, s2, -, -⟩ := share_fin da.nonneg hT (aP.trans PT)
  obtain ⟨p1, p2, p3, p4⟩ := share_fin dP.nonneg hT PT
  obtain ⟨t1, t2, t3, t4⟩ := share_fin dg.nonneg hT gT
  refine ⟨fl0 (a / T), fl0 (P / T), fl0 (g / T), ?_, ?_, ?_, s2, ?_, p3, t2, t3, ?_⟩
  · unfold entries; simp only [hal, hto, s1]; simp
  · unfold entries; simp only [hpo, hto, p1]; simp
  · unfold entries; simp only [hga, hto, t1]; simp
  · refine EnergyText.fl0_mono (div_nonneg da.nonneg hT.le) (div_le_div_of_nonneg_right aP hT.le) ?_
    have h1 : P / T ≤ 1 := (div_le_one hT).2 PT
    have := two_zpow_max (i := 0) (by norm_num)
    rw [zpow_zero] at this
    exact h1.trans this
  · have hs : P / T + g / T = (P + g) / T := (add_div _ _ _).symm
    have hlo : |(P + g) / T - 1| ≤ (P + g) / T / 2 ^ 53 := by
      have : (P + g) / T - 1 = -((T - (P + g)) / T) := by field_simp; ring
      rw [this, abs_neg, abs_div, abs_of_pos hT, div_right_comm]
      exact div_le_div_of_nonneg_right err hT.le
    have tiny : (2 : ℚ) ^ (-1075 : ℤ) ≤ 1 / 2 ^ 60 := by
      have := two_zpow_le (i := -1075) (j := -60) (by norm_num)
      rwa [show (2 : ℚ) ^ (-60 : ℤ) = 1 / 2 ^ 60 by norm_num] at this
    generalize (2 : ℚ) ^ (-1075 : ℤ) = t at *
    rw [← hs] at hlo
    generalize fl0 (P / T) = u at *
    generalize fl0 (g / T) = v at *
    generalize P / T = x at *
    generalize g / T = y at *
    rw [abs_le] at *
    constructor <;> linarith

/-- A sum from left to right (for the examples). -/
def FloatEnergy.exSum : List PyFloat → PyFloat
  | [] => fin false 0
  | x :: xs => xs.foldl PyFloat.add x

theorem FloatEnergy.exSum_ok (xs : List PyFloat) : IsNpSum xs (exSum xs) := by
  cases xs with
  | nil => exact Or.inl ⟨rfl, rfl⟩
  | cons x xs =>
    refine Or.inr ⟨by simp, xs.foldl (fun t y => .node t (.leaf y)) (.leaf x), [], ?_, ?_⟩
    · have : ∀ (ys : List PyFloat) (t : FloatRange.SumTree),
          (ys.foldl (fun t y => FloatRange.SumTree.node t (.leaf y)) t).terms = t.terms ++ ys := by
        intro ys
        induction ys with
        | nil => intro t; simp
        | cons y ys ih => intro t; rw [List.foldl_cons, ih]; simp [FloatRange.SumTree.terms]
      rw [this]
      simp [FloatRange.SumTree.terms]
    · have : ∀ (ys : List PyFloat) (t : FloatRange.SumTree),
          (ys.foldl (fun t y => FloatRange.SumTree.node t (.leaf y)) t).sum id = ys.foldl PyFloat.add (t.sum id) := by
        intro ys
        induction ys with
        | nil => intro t; rfl
        | cons y ys ih => intro t; rw [List.foldl_cons, List.foldl_cons, ih]; rfl
      rw [this]
      rfl

/-- The integers that are used in examples. -/
def FloatEnergy.exInt (n : ℕ) : PyFloat × PyFloat := (fin false n, fin false 0)

theorem FloatEnergy.exInt_ok {n : ℕ} (h : n < 2 ^ 53) : PartIn 200 (exInt n).1 ∧ PartIn 200 (exInt n).2 := by
  refine ⟨⟨false, n, rfl, ⟨n, 0, h, by norm_num, by norm_num, by simp⟩, ?_, ?_⟩,
    ⟨false, 0, rfl, FloatRange.isDouble_zero, Or.inl rfl, by positivity⟩⟩
  · rcases Nat.eq_zero_or_pos n with rfl | hn
    · left; simp
    · right
      have : (1 : ℚ) ≤ n := by exact_mod_cast hn
      refine le_trans ?_ this
      rw [zpow_neg]; exact inv_le_one_of_one_le₀ (one_le_zpow₀ (by norm_num) (by norm_num))
  · have h1 : (n : ℚ) ≤ 2 ^ 53 := by exact_mod_cast h.le
    refine h1.trans ?_
    rw [← zpow_natCast]; exact zpow_le_zpow_right₀ (by norm_num) (by norm_num)

/-- A magnetogram that is a quadrupole (and an axial dipole of no energy). -/
def FloatEnergy.exQuad : List ERow :=
  [⟨1, 0, exInt 0, exInt 0, exInt 0⟩, ⟨2, 0, exInt 0, exInt 1, exInt 0⟩, ⟨2, 1, exInt 1, exInt 3, exInt 0⟩]

theorem FloatEnergy.exQuad_ok : ∀ r ∈ exQuad, RowIn 200 r ∧ AxialReal r := by
  intro r hr
  simp only [exQuad, List.mem_cons, List.not_mem_nil, or_false] at hr
  rcases hr with rfl | rfl | rfl
  all_goals
    exact ⟨⟨by norm_num, exInt_ok (by norm_num), exInt_ok (by norm_num), exInt_ok (by norm_num)⟩,
      fun _ => ⟨by simp [exInt, num], by simp [exInt, num], by simp [exInt, num]⟩⟩

/-- **C117.** Not all shares keep to 1: all of the poloidal energy of this field is quadrupole, and the share of the quadrupole is
above 1, by the last bit. -/
theorem C117_share_above_one : (∀ r ∈ exQuad, RowIn 200 r ∧ AxialReal r) ∧
    (∀ xs, IsNpSum xs (exSum xs)) ∧ ∃ ea eb eg, arrays exQuad = some (ea, eb, eg) ∧
    ("magnetogram.total.energy.quadrupole.fraction", fin false (1 + 1 / 2 ^ 52)) ∈ entries exSum exQuad ea eb eg := by
  refine ⟨exQuad_ok, exSum_ok, _, _, _, arrays_eq fun r hr => RowIn.mono (by norm_num) (exQuad_ok r hr).1, ?_⟩
  unfold entries
  have : PyFloat.div (sums exSum exQuad (exQuad.map (En .alpha)) (exQuad.map (En .beta)) (exQuad.map (En .gamma))).pol2
      (sums exSum exQuad (exQuad.map (En .alpha)) (exQuad.map (En .beta)) (exQuad.map (En .gamma))).pol = fin false (1 + 1 / 2 ^ 52) := by
    decide +kernel
  simp only [this]
  simp

/-! ### Examples -/

example := C117_energy exQuad fun r hr => ⟨RowIn.mono (by norm_num) (exQuad_ok r hr).1, (exQuad_ok r hr).2⟩
example := C117_sums exSum exSum_ok exQuad (fun r hr => ⟨RowIn.mono (by norm_num) (exQuad_ok r hr).1, (exQuad_ok r hr).2⟩) (by decide)
example := C117_report exSum exSum_ok exQuad (fun r hr => ⟨RowIn.mono (by norm_num) (exQuad_ok r hr).1, (exQuad_ok r hr).2⟩) (by decide)
  (by decide)
example := C117_bounds exSum exSum_ok exQuad (fun r hr => RowIn.mono (by norm_num) (exQuad_ok r hr).1) (by decide)
example := C117_dest exSum exSum_ok exQuad exQuad_ok (by decide) [] []

example : helper exQuad ERow.b true = some [fin false 0, fin false (fl0 (2 / 3)), fin false 3] := by decide +kernel

example : energyIn (exQuad.map exactCoef) (fun _ _ => true) [.alpha, .beta, .gamma] = 1 / 2 + 2 / 3 + 3 := by
  simp [exQuad, energyIn, exactCoef, specEnergy, exInt, num, Zdi.Comp.of]
  norm_num

example := C117_overflow [⟨1, 1, (fin false (2 ^ 512), fin false 0), exInt 0, exInt 0⟩] ERow.a false _ (List.mem_singleton_self _)
  (fin false (2 ^ 512)) (Or.inl rfl) (Or.inr ⟨false, 2 ^ 512, rfl, le_of_eq (zpow_natCast _ _)⟩)

end Verif
