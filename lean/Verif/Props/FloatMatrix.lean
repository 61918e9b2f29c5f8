import Verif.Model.FloatMatrix
import Verif.Props.FloatEnergy
import Verif.Props.Energy

/-!
# C132: the matrix of energies in double precision
-/

set_option exponentiation.threshold 4000

namespace Verif
open PyFloat

/-! ### Specification -/

/-- A part of the coefficient is infinite, not a number or at least `2 ^ 512`, so that its square overflows. -/
def Spec.TooLarge (c : PyFloat × PyFloat) : Prop :=
  ∃ x, (x = c.1 ∨ x = c.2) ∧ (isFin x = false ∨ ∃ s q, x = fin s q ∧ (2 : ℚ) ^ (512 : ℤ) ≤ q)

open Spec

namespace FloatMatrix
open FloatEnergy

theorem stored_energies (z : List ERow) (k : ERow → PyFloat × PyFloat) (lt : Bool) :
    (energies z k lt).stored = z.map fun r => (energyC r.l r.m (k r) lt).1 := by
  unfold energies helper realIfClose
  split_ifs with h
  · simp [Arr.stored, Function.comp_def]
  · simp [Arr.stored, Function.comp_def]

theorem stored_toC (a : Arr) : a.toC.map Prod.fst = a.stored := by
  cases a <;> simp [Arr.toC, Arr.stored, Function.comp_def]

theorem zip_fst (xs ys : List (PyFloat × PyFloat)) :
    (List.zipWith cadd xs ys).map Prod.fst = List.zipWith PyFloat.add (xs.map Prod.fst) (ys.map Prod.fst) := by
  induction xs generalizing ys with
  | nil => rfl
  | cons x xs ih =>
    cases ys with
    | nil => rfl
    | cons y ys => simp only [List.zipWith_cons_cons, List.map_cons, ih]; rfl

theorem stored_add (a b : Arr) : (addArr a b).stored = List.zipWith PyFloat.add a.stored b.stored := by
  cases a <;> cases b
  · rfl
  all_goals
    simp only [addArr]
    conv_lhs => rw [Arr.stored]
    rw [zip_fst, stored_toC, stored_toC]

/-- The index pair of a row. -/
def at_ (L : ℕ) (r : ERow) : ℕ × ℕ := (r.l.toNat, if 0 ≤ r.m then r.m.toNat else (r.m + (2 * L + 1)).toNat)

theorem indices_ok (L : ℕ) (z : List ERow) (h : ∀ r ∈ z, |r.m| ≤ r.l ∧ r.l ≤ L) : indices L z = .ok (z.map (at_ L)) := by
  rw [indices]
  apply mapM_pure_ok
  intro r hr
  obtain ⟨h1, h2⟩ := h r hr
  obtain ⟨h3, h4⟩ := abs_le.1 h1
  rw [npIndex_ok (by omega) (by omega)]
  by_cases hm : 0 ≤ r.m
  · rw [npIndex_ok hm (by omega)]
    simp [at_, hm, bind, Except.bind, pure, Except.pure]
  · rw [npIndex, if_neg (by omega), if_pos (by omega)]
    simp [at_, hm, bind, Except.bind, pure, Except.pure]

theorem at_iff (L : ℕ) (r : ERow) (h : |r.m| ≤ r.l ∧ r.l ≤ L) (i j : ℕ) (hj : j ≤ 2 * L) :
    at_ L r = (i, (j + (L + 1)) % (2 * L + 1)) ↔ (r.l = i ∧ r.m + L = j) := by
  obtain ⟨h3, h4⟩ := abs_le.1 h.1
  have h5 := h.2
  have hmod : (j + (L + 1)) % (2 * L + 1) = if L ≤ j then j - L else j + L + 1 := by
    split_ifs with hc
    · rw [show j + (L + 1) = (j - L) + (2 * L + 1) by omega, Nat.add_mod_right, Nat.mod_eq_of_lt (by omega)]
    · rw [Nat.mod_eq_of_lt (by omega)]; omega
  rw [hmod, at_, Prod.mk.injEq]
  split_ifs <;> omega

theorem foldl_none (es : List ((ℕ × ℕ) × PyFloat)) (p : ℕ × ℕ) (v : PyFloat) (h : ∀ e ∈ es, e.1 ≠ p) :
    es.foldl (fun v e => if e.1 = p then e.2 else v) v = v := by
  induction es generalizing v with
  | nil => rfl
  | cons e es ih =>
    rw [List.foldl_cons, if_neg (h e (by simp))]
    exact ih v fun e he => h e (by simp [he])

/-- The matrices: the degree, where the entries are, and what they are. -/
theorem matrix_eq (z : List ERow) (hne : z ≠ []) (h : ∀ r ∈ z, |r.m| ≤ r.l) :
    ∃ L : ℕ, (∃ r ∈ z, r.l = L) ∧ (∀ r ∈ z, r.l ≤ L) ∧
      energyMatrix z = .ok (L, roll L (assign (z.map fun r => (at_ L r, En .alpha r))),
        roll L (assign (z.map fun r => (at_ L r, Pol r))), roll L (assign (z.map fun r => (at_ L r, En .gamma r)))) := by
  obtain ⟨L, hL, hLm, hLu⟩ := listMax_spec (xs := z.map ERow.l) (by simpa using hne)
  obtain ⟨r0, hr0, rfl⟩ := List.mem_map.1 hLm
  have hL0 : 0 ≤ r0.l := le_trans (abs_nonneg _) (h r0 hr0)
  obtain ⟨L, hLn⟩ := Int.eq_ofNat_of_zero_le hL0
  rw [hLn] at hL hLu
  have hb : ∀ r ∈ z, |r.m| ≤ r.l ∧ r.l ≤ L := fun r hr => ⟨h r hr, hLu _ (List.mem_map_of_mem hr)⟩
  refine ⟨L, ⟨r0, hr0, hLn⟩, fun r hr => (hb r hr).2, ?_⟩
  have hd : degree z = .ok (L : ℤ) := by rw [degree, hL]
  have e1 : ∀ f : ERow → PyFloat, (z.map (at_ L)).zip (z.map f) = z.map fun r => (at_ L r, f r) := by
    intro f
    rw [List.zip_map']
  rw [energyMatrix, hd]
  simp only [bind, Except.bind, indices_ok L z hb]
  rw [if_neg (by omega)]
  simp only [pure, Except.pure, stored_energies, stored_add, Int.toNat_natCast]
  rw [show List.zipWith PyFloat.add (z.map fun r => (energyC r.l r.m r.a false).1) (z.map fun r => (energyC r.l r.m r.b true).1)
    = z.map Pol from both_map z (En .alpha) (En .beta)]
  rw [e1, e1, e1]
  rfl

theorem entry_last (L : ℕ) (u v : List ERow) (r : ERow) (f : ERow → PyFloat)
    (h : ∀ s ∈ u ++ r :: v, |s.m| ≤ s.l ∧ s.l ≤ L) (hv : ∀ s ∈ v, ¬ (s.l = r.l ∧ s.m = r.m)) {i j : ℕ} (hi : (i : ℤ) = r.l)
    (hj : (j : ℤ) = r.m + L) : roll L (assign ((u ++ r :: v).map fun r => (at_ L r, f r))) i j = f r := by
  have hr := h r (by simp)
  obtain ⟨h3, h4⟩ := abs_le.1 hr.1
  have hj' : j ≤ 2 * L := by omega
  rw [roll, assign, List.map_append, List.map_cons, List.foldl_append, List.foldl_cons,
    if_pos ((at_iff L r hr i j hj').2 ⟨hi.symm, hj.symm⟩), foldl_none]
  intro e he
  obtain ⟨s, hs, rfl⟩ := List.mem_map.1 he
  intro h'
  have := (at_iff L s (h s (by simp [hs])) i j hj').1 h'
  exact hv s hs ⟨by omega, by omega⟩

theorem entry_zero (L : ℕ) (z : List ERow) (f : ERow → PyFloat)
    (h : ∀ s ∈ z, |s.m| ≤ s.l ∧ s.l ≤ L) {i j : ℕ} (hj : j ≤ 2 * L) (hz : ∀ s ∈ z, ¬ (s.l = i ∧ s.m + L = j)) :
    roll L (assign (z.map fun r => (at_ L r, f r))) i j = fin false 0 := by
  rw [roll, assign, foldl_none]
  intro e he
  obtain ⟨s, hs, rfl⟩ := List.mem_map.1 he
  intro h'
  exact hz s hs ((at_iff L s (h s hs) i j hj).1 h')

theorem nonfin_mul {x y : PyFloat} (h : isFin y = false) : isFin (PyFloat.mul x y) = false := by
  cases x <;> cases y <;> simp_all [isFin, PyFloat.mul]
  split_ifs <;> rfl

theorem huge_real (l m : ℤ) {c : PyFloat × PyFloat} (h : TooLarge c) (lt : Bool) : isFin (energyC l m c lt).1 = false := by
  have h : Huge c.1 ∨ Huge c.2 := by
    obtain ⟨x, rfl | rfl, hx⟩ := h
    · exact Or.inl hx
    · exact Or.inr hx
  have hi := huge_energy l m h false
  have hz : isFin (zonal m c).1 = false := by
    unfold zonal cmul
    exact nonfin_add (Or.inl (nonfin_mul (nonfin_add (Or.inl (huge_square h)))))
  have he : isFin (cadd (plain c) (zonal m c)).1 = false := nonfin_add (Or.inr hz)
  cases lt
  · exact he
  · unfold energyC
    simp only [if_true]
    unfold cmul
    have h2 : (cadd (plain c) (zonal m c)).2 = nan := hi
    rw [h2]
    exact nonfin_add (Or.inr rfl)

theorem Pol_rel {r : ERow} (h : RowIn 500 r) (ha : AxialReal r) : RelF 5 (Pol r) (polE r) := by
  refine (En_rel h ha .alpha).add (En_rel h ha .beta) (by norm_num) ?_
  have a := (spec_size h .alpha).2
  have b := (spec_size h .beta).2
  have e : (2 : ℝ) ^ (1001 : ℤ) = 2 ^ (2 * 500 : ℤ) + 2 ^ (2 * 500 : ℤ) := by
    rw [← two_mul, ← zpow_one_add₀ (by norm_num)]; norm_num
  rw [e]
  exact add_le_add a b

theorem RelF.sum {n : ℕ} {x : PyFloat} {v : ℝ} (h : RelF n x v) (hn : n ≤ 8) : Summed (1 / 2 ^ 48) x v := by
  obtain ⟨q, e, hd, h⟩ := h
  refine ⟨q, e, hd, h.err.trans (mul_le_mul_of_nonneg_right ?_ h.pos)⟩
  have := pow_w_err n (by omega)
  have hn' : (n : ℝ) ≤ 8 := by exact_mod_cast hn
  have : (n : ℝ) / 2 ^ 51 ≤ 8 / 2 ^ 51 := by gcongr
  norm_num at *
  linarith

end FloatMatrix

open FloatEnergy FloatMatrix

/-- **C132.** `energy_matrix` never raises when `|m| ≤ l`, whatever the numbers are. The matrices have the largest degree `L`. At
`[l, m + L]` are the energies of the pair, right up to the fraction `2 ^ -48` when its numbers are in range, and infinite or not a
number when a part is too large; of several rows with the same pair the last one counts. Everything else is zero. -/
theorem C132_matrix (z : List ERow) (hne : z ≠ []) (h : ∀ r ∈ z, |r.m| ≤ r.l) :
    ∃ (L : ℕ) (er ep et : ℕ → ℕ → PyFloat), FloatMatrix.energyMatrix z = .ok (L, er, ep, et) ∧
      (∃ r ∈ z, r.l = L) ∧ (∀ r ∈ z, r.l ≤ L) ∧
      (∀ u r v, z = u ++ r :: v → (∀ s ∈ v, ¬ (s.l = r.l ∧ s.m = r.m)) → ∀ i j : ℕ, (i : ℤ) = r.l → (j : ℤ) = r.m + L →
        (RowIn 500 r → AxialReal r → Summed (1 / 2 ^ 48) (er i j) (specEnergy .alpha (exactCoef r)) ∧
          Summed (1 / 2 ^ 48) (ep i j) (specEnergy .alpha (exactCoef r) + specEnergy .beta (exactCoef r)) ∧
          Summed (1 / 2 ^ 48) (et i j) (specEnergy .gamma (exactCoef r))) ∧
        (TooLarge r.a → isFin (er i j) = false ∧ isFin (ep i j) = false) ∧
        (TooLarge r.b → isFin (ep i j) = false) ∧ (TooLarge r.g → isFin (et i j) = false)) ∧
      ∀ i j : ℕ, j ≤ 2 * L → (∀ r ∈ z, ¬ (r.l = i ∧ r.m + L = j)) →
        er i j = fin false 0 ∧ ep i j = fin false 0 ∧ et i j = fin false 0 := by
  obtain ⟨L, h1, h2, h3⟩ := matrix_eq z hne h
  have hb : ∀ r ∈ z, |r.m| ≤ r.l ∧ r.l ≤ L := fun r hr => ⟨h r hr, h2 r hr⟩
  refine ⟨L, _, _, _, h3, h1, h2, ?_, ?_⟩
  · rintro u r v rfl hv i j hi hj
    rw [entry_last L u v r _ hb hv hi hj, entry_last L u v r _ hb hv hi hj, entry_last L u v r _ hb hv hi hj]
    refine ⟨fun hr ha => ⟨RelF.sum (En_rel hr ha .alpha) (by norm_num), RelF.sum (Pol_rel hr ha) (by norm_num),
      RelF.sum (En_rel hr ha .gamma) (by norm_num)⟩, fun t => ?_, fun t => ?_, fun t => ?_⟩
    · exact ⟨huge_real _ _ t _, nonfin_add (Or.inl (huge_real _ _ t _))⟩
    · exact nonfin_add (Or.inr (huge_real _ _ t _))
    · exact huge_real _ _ t _
  · intro i j hj hz
    exact ⟨entry_zero L z _ hb hj hz, entry_zero L z _ hb hj hz, entry_zero L z _ hb hj hz⟩

/-- **C132.** Without rows, or with negative degrees only, ValueError is raised. -/
theorem C132_none (z : List ERow) (h : ∀ r ∈ z, r.l < 0) : FloatMatrix.energyMatrix z = .error .value := by
  by_cases hz : z = []
  · rw [hz]; rfl
  · obtain ⟨L, hL, hm, -⟩ := listMax_spec (xs := z.map ERow.l) (by simpa using hz)
    obtain ⟨r, hr, rfl⟩ := List.mem_map.1 hm
    have hd : FloatMatrix.degree z = .ok r.l := by rw [FloatMatrix.degree, hL]
    rw [FloatMatrix.energyMatrix, hd]
    simp only [bind, Except.bind, if_pos (h r hr)]
    rfl

/-- **C132.** `energy` and `energy_matrix` disagree about a magnetogram with one number that is too large: `energy_matrix` gives the
energies of all other pairs as if it were not there, while `energy` goes on with complex numbers for all of them. -/
theorem C132_others (u v : List ERow) (r : ERow) (h : ∀ s ∈ u ++ r :: v, |s.m| ≤ s.l) (hn : ((u ++ r :: v).map fun r => (r.l, r.m)).Nodup)
    (ht : TooLarge r.a) (s : ERow) (hs : s ∈ u ++ v) (hr : RowIn 500 s) (ha : AxialReal s) :
    helper (u ++ r :: v) ERow.a false = none ∧
    ∃ (L : ℕ) (er ep et : ℕ → ℕ → PyFloat), FloatMatrix.energyMatrix (u ++ r :: v) = .ok (L, er, ep, et) ∧
      Summed (1 / 2 ^ 48) (er s.l.toNat (s.m + L).toNat) (specEnergy .alpha (exactCoef s)) := by
  constructor
  · obtain ⟨x, hx, h'⟩ := ht
    exact (C117_overflow _ _ _ r (by simp) x hx h').2
  · obtain ⟨L, er, ep, et, e, -, hl, he, -⟩ := C132_matrix (u ++ r :: v) (by simp) h
    refine ⟨L, er, ep, et, e, ?_⟩
    have hs' : s ∈ u ++ r :: v := by
      rcases List.mem_append.1 hs with h | h <;> simp [h]
    obtain ⟨a, b, hab⟩ := List.append_of_mem hs'
    have h3 := abs_le.1 (h s hs')
    have h4 := hl s hs'
    have h5 : 0 ≤ s.l := (abs_nonneg _).trans (h s hs')
    refine ((he a s b hab ?_ _ _ (Int.toNat_of_nonneg h5) (Int.toNat_of_nonneg (by omega))).1 hr ha).1
    intro t hb ⟨e1, e2⟩
    rw [hab, List.map_append, List.map_cons, List.nodup_append, List.nodup_cons] at hn
    exact hn.2.1.1 (List.mem_map.2 ⟨t, hb, by rw [e1, e2]⟩)

/-- Non-vacuity of C132: a number that overflows beside one in range, and a repeated pair. -/
example : ∃ u r v s, (∀ t ∈ u ++ r :: v, |t.m| ≤ t.l) ∧ ((u ++ r :: v).map fun r : ERow => (r.l, r.m)).Nodup ∧ TooLarge r.a ∧
    s ∈ u ++ v ∧ RowIn 500 s ∧ AxialReal s := by
  have k := fun n h => exInt_ok (n := n) h
  have k0 := k 0 (by norm_num)
  have k3 := k 3 (by norm_num)
  have rs : RowIn 200 ⟨2, -1, exInt 3, exInt 0, exInt 3⟩ := ⟨by norm_num, k3, k0, k3⟩
  refine ⟨[⟨2, -1, exInt 3, exInt 0, exInt 3⟩], ⟨1, 1, (fin false (2 ^ 600), fin false 0), exInt 0, exInt 0⟩, [],
    ⟨2, -1, exInt 3, exInt 0, exInt 3⟩, by simp, by simp, ⟨_, Or.inl rfl, Or.inr ⟨_, _, rfl, ?_⟩⟩, by simp,
    FloatEnergy.RowIn.mono (by norm_num) rs, fun h => absurd h (by norm_num)⟩
  norm_num

end Verif
