import Verif.Model.Summary
import Verif.Props.Energy

/-!
# C75: the shares shown by the energy summary
-/

namespace Verif
open Spec Zdi Summary

namespace Summary

theorem bind_ok {α β : Type} {x : Res α} {f : α → Res β} {b : β} (h : (x >>= f) = .ok b) :
    ∃ a, x = .ok a ∧ f a = .ok b := by
  cases x with
  | ok a => exact ⟨a, rfl, h⟩
  | error e => cases h

/-! ### Sums of energies -/

theorem energyIn_eq (z : Zdi) (p : ℤ → ℤ → Bool) (ks : List Comp) :
    energyIn z p ks = (z.map fun r => if p r.l r.m then (ks.map fun k => specEnergy k r).sum else 0).sum := by
  rw [energyIn]
  induction z with
  | nil => rfl
  | cons r z ih =>
    rw [List.map_cons, List.sum_cons, ← ih, List.filter_cons]
    split_ifs with h <;> simp [List.map_cons]

theorem energy_nonneg {z : Zdi} (h : ∀ r ∈ z, 0 ≤ r.l) (ks : List Comp) : ∀ r ∈ z, 0 ≤ (ks.map fun k => specEnergy k r).sum := by
  intro r hr
  apply List.sum_nonneg
  intro x hx
  obtain ⟨k, -, rfl⟩ := List.mem_map.1 hx
  rw [← C41_value]
  exact C41_nonneg k r (h r hr)

theorem energyIn_nonneg {z : Zdi} (h : ∀ r ∈ z, 0 ≤ r.l) (p : ℤ → ℤ → Bool) (ks : List Comp) : 0 ≤ energyIn z p ks := by
  rw [energyIn_eq]
  apply List.sum_nonneg
  intro x hx
  obtain ⟨r, hr, rfl⟩ := List.mem_map.1 hx
  split_ifs
  · exact energy_nonneg h ks r hr
  · exact le_rfl

theorem energyIn_le {z : Zdi} (h : ∀ r ∈ z, 0 ≤ r.l) (p : ℤ → ℤ → Bool) (ks : List Comp) :
    energyIn z p ks ≤ energyIn z (fun _ _ => true) ks := by
  rw [energyIn_eq, energyIn_eq]
  apply List.sum_le_sum
  intro r hr
  have := energy_nonneg h ks r hr
  simp only [if_true]
  split_ifs
  · exact le_rfl
  · exact this

theorem energyIn_degrees {z : Zdi} (h : ∀ r ∈ z, 0 ≤ r.l) (ks : List Comp) :
    energyIn z (fun l _ => l = 1) ks + energyIn z (fun l _ => l = 2) ks + energyIn z (fun l _ => l = 3) ks ≤
      energyIn z (fun _ _ => true) ks := by
  rw [energyIn_eq, energyIn_eq, energyIn_eq, energyIn_eq, ← List.sum_map_add, ← List.sum_map_add]
  apply List.sum_le_sum
  intro r hr
  have := energy_nonneg h ks r hr
  simp only [decide_eq_true_eq, if_true]
  split_ifs with h1 h2 h3 <;> first | omega | linarith

theorem energyIn_cons (z : Zdi) (p : ℤ → ℤ → Bool) (k : Comp) (ks : List Comp) :
    energyIn z p (k :: ks) = energyIn z p [k] + energyIn z p ks := by
  rw [energyIn_eq, energyIn_eq, energyIn_eq, ← List.sum_map_add]
  congr 2
  funext r
  split_ifs <;> simp

/-! ### Pies -/

theorem pie_some (b : Bool) (xs : List ℝ) (h : ∀ x ∈ xs, 0 ≤ x) : pie b (xs.map some) =
    if b = true then (open Classical in if xs.sum = 0 then .error .value else .ok (xs.map fun v => v / xs.sum))
    else open Classical in if 1 < xs.sum then .error .value else .ok xs := by
  have hm : ((xs.map some).mapM fun v => (v.elim (.error .value) .ok : Res ℝ)) = .ok xs := by
    clear h
    induction xs with
    | nil => rfl
    | cons x xs ih => rw [List.map_cons, List.mapM_cons, ih]; rfl
  have hn : ¬ ∃ v ∈ xs, v < 0 := by
    rintro ⟨v, hv, h0⟩
    exact absurd (h v hv) (not_le.2 h0)
  rw [pie, hm]
  change (if ∃ v ∈ xs, v < 0 then _ else _) = _
  rw [if_neg hn]
  cases b
  · simp only [Bool.false_eq_true, if_false]; split_ifs <;> rfl
  · simp only [if_true]; split_ifs <;> rfl

theorem pie_none (b : Bool) (x : List (Option ℝ)) (h : none ∈ x) : ∀ s, pie b x ≠ .ok s := by
  intro s hs
  rw [pie] at hs
  obtain ⟨xs, hxs, -⟩ := bind_ok hs
  clear hs
  induction x generalizing xs with
  | nil => simp at h
  | cons v x ih =>
    rw [List.mapM_cons] at hxs
    obtain ⟨a, ha, hxs⟩ := bind_ok hxs
    obtain ⟨as, has, -⟩ := bind_ok hxs
    rcases List.mem_cons.1 h with rfl | h
    · cases ha
    · exact ih h as has

theorem look_eq (es : List (String × Option ℝ)) (key : String) (o : Option ℝ) (h : reported es key = some o)
    (rest : List (String × Option ℝ)) : look (es ++ rest) key = .ok o := by
  rw [reported, Option.map_eq_some_iff] at h
  obtain ⟨e, he, rfl⟩ := h
  rw [look, List.find?_append, he]
  rfl

end Summary

/-! ### Names for the energies that the summary is about -/

namespace Spec
/-- Total energy. -/
noncomputable def eTotal (z : Zdi) : ℝ := energyIn z (fun _ _ => true) [.alpha, .beta, .gamma]
/-- Poloidal energy. -/
noncomputable def ePol (z : Zdi) : ℝ := energyIn z (fun _ _ => true) [.alpha, .beta]
/-- Toroidal energy. -/
noncomputable def eTor (z : Zdi) : ℝ := energyIn z (fun _ _ => true) [.gamma]
/-- Radial energy. -/
noncomputable def eRad (z : Zdi) : ℝ := energyIn z (fun _ _ => true) [.alpha]
/-- Axisymmetric energy. -/
noncomputable def eAxi (z : Zdi) : ℝ := energyIn z (fun _ m => m = 0) [.alpha, .beta, .gamma]
/-- Axisymmetric poloidal energy. -/
noncomputable def ePolAxi (z : Zdi) : ℝ := energyIn z (fun _ m => m = 0) [.alpha, .beta]
/-- Axisymmetric toroidal energy. -/
noncomputable def eTorAxi (z : Zdi) : ℝ := energyIn z (fun _ m => m = 0) [.gamma]
/-- Poloidal energy of one degree. -/
noncomputable def ePolL (z : Zdi) (l : ℤ) : ℝ := energyIn z (fun l' _ => l' = l) [.alpha, .beta]
/-- Toroidal energy of one degree. -/
noncomputable def eTorL (z : Zdi) (l : ℤ) : ℝ := energyIn z (fun l' _ => l' = l) [.gamma]
/-- Exactly one row is the axial dipole. -/
def OneAxialDipole (z : Zdi) : Prop := (z.filter fun r => decide (r.l = 1 ∧ r.m = 0)).length = 1
/-- A share that is no number if the whole is zero. -/
noncomputable def quot (x y : ℝ) : Option ℝ := open Classical in if y = 0 then none else some (x / y)
end Spec

namespace Summary

open Classical in
/-- The summary as a sequence of pies. -/
theorem summary_pies (b : Bool) (z : Zdi) (h : OneAxialDipole z) : energySummary b z = (do
    let total ← pie b [quot (ePol z) (eTotal z), quot (eTor z) (eTotal z)]
    let radial ← pie b [quot (eRad z) (eTotal z)]
    let axisym ← pie b [quot (eAxi z) (eTotal z)]
    let poles ← pie b [quot (ePolL z 1) (ePol z), quot (ePolL z 2) (ePol z), quot (ePolL z 3) (ePol z)]
    let polAxisym ← pie b [quot (ePolAxi z) (ePol z)]
    if quot (eTor z) (eTotal z) = some 0 then pure ⟨total, radial, axisym, poles, polAxisym, none⟩
    else do
      let tor ← pie b [quot (eTorL z 1) (eTor z), quot (eTorL z 2) (eTor z), quot (eTorL z 3) (eTor z)]
      let torAxisym ← pie b [quot (eTorAxi z) (eTor z)]
      pure ⟨total, radial, axisym, poles, polAxisym, some (tor, torAxisym)⟩) := by
  obtain ⟨last, he⟩ := (C42_energy z []).1 h
  rw [List.nil_append] at he
  have key : ∀ e ∈ shares, look (energyEntries z ++ axisymEntries z ++
      [("magnetogram.total.energy.dipole.axisymmetric.fraction", last)]) e.key = .ok (shareOf z e) :=
    fun e hmem => look_eq _ _ _ (C41_shares z e hmem) _
  have k0 := key ⟨"magnetogram.poloidal.energy.fraction", fun _ _ => true, [.alpha, .beta], [.alpha, .beta, .gamma]⟩
    (by simp [shares])
  have k1 := key ⟨"magnetogram.toroidal.energy.fraction", fun _ _ => true, [.gamma], [.alpha, .beta, .gamma]⟩
    (by simp [shares])
  have k2 := key ⟨"magnetogram.radial.energy.fraction", fun _ _ => true, [.alpha], [.alpha, .beta, .gamma]⟩
    (by simp [shares])
  have k3 := key ⟨"magnetogram.total.energy.axisymmetric.fraction", fun _ m => m = 0, [.alpha, .beta, .gamma],
    [.alpha, .beta, .gamma]⟩ (by simp [shares])
  have k4 := key ⟨"magnetogram.total.energy.dipole.fraction", fun l _ => l = 1, [.alpha, .beta], [.alpha, .beta]⟩
    (by simp [shares])
  have k5 := key ⟨"magnetogram.total.energy.quadrupole.fraction", fun l _ => l = 2, [.alpha, .beta], [.alpha, .beta]⟩
    (by simp [shares])
  have k6 := key ⟨"magnetogram.total.energy.octopole.fraction", fun l _ => l = 3, [.alpha, .beta], [.alpha, .beta]⟩
    (by simp [shares])
  have k7 := key ⟨"magnetogram.total.energy.poloidal.axisymmetric.fraction", fun _ m => m = 0, [.alpha, .beta],
    [.alpha, .beta]⟩ (by simp [shares])
  have k8 := key ⟨"magnetogram.total.energy.toroidal.l1.fraction", fun l _ => l = 1, [.gamma], [.gamma]⟩
    (by simp [shares])
  have k9 := key ⟨"magnetogram.total.energy.toroidal.l2.fraction", fun l _ => l = 2, [.gamma], [.gamma]⟩
    (by simp [shares])
  have k10 := key ⟨"magnetogram.total.energy.toroidal.l3.fraction", fun l _ => l = 3, [.gamma], [.gamma]⟩
    (by simp [shares])
  have k11 := key ⟨"magnetogram.total.energy.toroidal.axisymmetric.fraction", fun _ m => m = 0, [.gamma],
    [.gamma]⟩ (by simp [shares])
  simp only at k0 k1 k2 k3 k4 k5 k6 k7 k8 k9 k10 k11
  have ok_bind : ∀ {α β : Type} (a : α) (f : α → Res β), ((Except.ok a : Res α) >>= f) = f a := fun _ _ => rfl
  rw [energySummary, he]
  simp only [k0, k1, k2, k3, k4, k5, k6, k7, k8, k9, k10, k11, ok_bind]
  rfl

/-- Bounds between the energies. -/
theorem bounds {z : Zdi} (h : ∀ r ∈ z, 0 ≤ r.l) :
    eTotal z = ePol z + eTor z ∧ 0 ≤ ePol z ∧ 0 ≤ eTor z ∧ 0 ≤ eRad z ∧ eRad z ≤ ePol z ∧ 0 ≤ eAxi z ∧
    eAxi z ≤ eTotal z ∧ 0 ≤ ePolAxi z ∧ ePolAxi z ≤ ePol z ∧ 0 ≤ eTorAxi z ∧ eTorAxi z ≤ eTor z ∧
    (∀ l, 0 ≤ ePolL z l) ∧ (∀ l, 0 ≤ eTorL z l) ∧ ePolL z 1 + ePolL z 2 + ePolL z 3 ≤ ePol z ∧
    eTorL z 1 + eTorL z 2 + eTorL z 3 ≤ eTor z := by
  have e1 : eTotal z = eRad z + energyIn z (fun _ _ => true) [.beta, .gamma] := energyIn_cons _ _ _ _
  have e2 : energyIn z (fun _ _ => true) [.beta, .gamma] = energyIn z (fun _ _ => true) [.beta] + eTor z :=
    energyIn_cons _ _ _ _
  have e3 : ePol z = eRad z + energyIn z (fun _ _ => true) [.beta] := energyIn_cons _ _ _ _
  have hb := energyIn_nonneg h (fun _ _ => true) [.beta]
  refine ⟨by rw [e1, e2, e3]; ring, energyIn_nonneg h _ _, energyIn_nonneg h _ _, energyIn_nonneg h _ _, by linarith,
    energyIn_nonneg h _ _, energyIn_le h _ _, energyIn_nonneg h _ _, energyIn_le h _ _, energyIn_nonneg h _ _,
    energyIn_le h _ _, fun l => energyIn_nonneg h _ _, fun l => energyIn_nonneg h _ _, energyIn_degrees h _,
    energyIn_degrees h _⟩

/-- A pie that shows its numbers as they are. -/
theorem pie_raw {xs : List ℝ} (h : ∀ x ∈ xs, 0 ≤ x) (h1 : xs.sum ≤ 1) : pie false (xs.map some) = .ok xs := by
  rw [pie_some false xs h, if_neg (by simp), if_neg (not_lt.2 h1)]

/-- A pie that shows shares of the sum. -/
theorem pie_norm {xs : List ℝ} (h : ∀ x ∈ xs, 0 ≤ x) :
    (xs.sum = 0 → ∀ s, pie true (xs.map some) ≠ .ok s) ∧
    (xs.sum ≠ 0 → pie true (xs.map some) = .ok (xs.map fun v => v / xs.sum)) := by
  rw [pie_some true xs h, if_pos rfl]
  constructor
  · intro h0 s; rw [if_pos h0]; simp
  · intro h0; rw [if_neg h0]

theorem quot_ne {x y : ℝ} (h : y ≠ 0) : quot x y = some (x / y) := by rw [quot, if_neg h]

/-- One wedge. -/
theorem pie_one {x y : ℝ} (hx : 0 ≤ x) (hy : 0 < y) :
    (x ≤ y → pie false [quot x y] = .ok [x / y]) ∧ (x = 0 → ∀ s, pie true [quot x y] ≠ .ok s) ∧
    (x ≠ 0 → pie true [quot x y] = .ok [1]) := by
  rw [quot_ne hy.ne']
  have h0 : ∀ v ∈ [x / y], 0 ≤ v := by simp; positivity
  have hs : [x / y].sum = x / y := by simp
  refine ⟨fun h => pie_raw h0 (by rw [hs]; exact (div_le_one hy).2 h), fun h => (pie_norm h0).1 (by rw [hs, h, zero_div]),
    fun h => ?_⟩
  have hne : x / y ≠ 0 := div_ne_zero h hy.ne'
  have := (pie_norm h0).2 (by rwa [hs])
  rw [hs] at this
  simpa [div_self hne] using this

/-- Three wedges. -/
theorem pie_three {a b c y : ℝ} (ha : 0 ≤ a) (hb : 0 ≤ b) (hc : 0 ≤ c) (hy : 0 < y) :
    (a + b + c ≤ y → pie false [quot a y, quot b y, quot c y] = .ok [a / y, b / y, c / y]) ∧
    (a + b + c = 0 → ∀ s, pie true [quot a y, quot b y, quot c y] ≠ .ok s) ∧
    (a + b + c ≠ 0 → pie true [quot a y, quot b y, quot c y] =
      .ok [a / (a + b + c), b / (a + b + c), c / (a + b + c)]) := by
  rw [quot_ne hy.ne', quot_ne hy.ne', quot_ne hy.ne']
  have h0 : ∀ v ∈ [a / y, b / y, c / y], 0 ≤ v := by
    intro v hv
    simp only [List.mem_cons, List.not_mem_nil, or_false] at hv
    rcases hv with rfl | rfl | rfl <;> positivity
  have hs : [a / y, b / y, c / y].sum = (a + b + c) / y := by simp; ring
  refine ⟨fun h => pie_raw h0 (by rw [hs]; exact (div_le_one hy).2 h), fun h => (pie_norm h0).1 (by rw [hs, h, zero_div]),
    fun h => ?_⟩
  have hne : (a + b + c) / y ≠ 0 := div_ne_zero h hy.ne'
  have := (pie_norm h0).2 (by rwa [hs])
  rw [hs] at this
  refine this.trans ?_
  simp only [List.map_cons, List.map_nil]
  have e : ∀ v, v / y / ((a + b + c) / y) = v / (a + b + c) := fun v => div_div_div_cancel_right₀ hy.ne' v _
  rw [e, e, e]

/-- The first pie: its shares add up to 1 whatever matplotlib does. -/
theorem pie_total (b : Bool) {p t : ℝ} (hp : 0 ≤ p) (ht : 0 ≤ t) (h : 0 < p + t) :
    pie b [quot p (p + t), quot t (p + t)] = .ok [p / (p + t), t / (p + t)] := by
  rw [quot_ne h.ne', quot_ne h.ne']
  have h0 : ∀ v ∈ [p / (p + t), t / (p + t)], 0 ≤ v := by
    intro v hv
    simp only [List.mem_cons, List.not_mem_nil, or_false] at hv
    rcases hv with rfl | rfl <;> positivity
  have hs : [p / (p + t), t / (p + t)].sum = 1 := by
    simp only [List.sum_cons, List.sum_nil, add_zero]
    rw [← add_div, div_self h.ne']
  cases b
  · exact pie_raw h0 hs.le
  · have := (pie_norm h0).2 (by rw [hs]; norm_num)
    rw [hs] at this
    simpa using this

theorem ok_bind {α β : Type} (a : α) (f : α → Res β) : ((Except.ok a : Res α) >>= f) = f a := rfl

theorem quot_zero {x y : ℝ} (h : y ≠ 0) : quot x y = some 0 ↔ x = 0 := by
  rw [quot_ne h, Option.some.injEq, div_eq_zero_iff]
  exact ⟨fun e => e.resolve_right h, .inl⟩

/-- What must hold for the summary to be drawn. -/
def Drawable (b : Bool) (z : Zdi) : Prop :=
    OneAxialDipole z ∧ ePol z ≠ 0 ∧ (b = true → eRad z ≠ 0 ∧ eAxi z ≠ 0 ∧ ePolL z 1 + ePolL z 2 + ePolL z 3 ≠ 0 ∧
      ePolAxi z ≠ 0 ∧ (eTor z ≠ 0 → eTorL z 1 + eTorL z 2 + eTorL z 3 ≠ 0 ∧ eTorAxi z ≠ 0))

theorem drawable_of_ok {b : Bool} {z : Zdi} (h : ∀ r ∈ z, 0 ≤ r.l) {s : Shown} (hs : energySummary b z = .ok s) :
    Drawable b z := by
  obtain ⟨e, b1, b2, b3, b4, b5, b6, b7, b8, b9, b10, b11, b12, b13, b14⟩ := bounds h
  have hd : OneAxialDipole z := by
    by_contra hd
    rw [energySummary, (C42_energy z []).2 hd] at hs
    cases hs
  rw [summary_pies b z hd] at hs
  obtain ⟨x0, h0, hs⟩ := bind_ok hs
  obtain ⟨x1, h1, hs⟩ := bind_ok hs
  obtain ⟨x2, h2, hs⟩ := bind_ok hs
  obtain ⟨x3, h3, hs⟩ := bind_ok hs
  obtain ⟨x4, h4, hs⟩ := bind_ok hs
  have hp : ePol z ≠ 0 := fun h0 => pie_none b _ (by rw [h0, quot, if_pos rfl]; simp) _ h3
  have p1 : 0 < ePol z := lt_of_le_of_ne b1 (Ne.symm hp)
  have p2 : 0 < eTotal z := by rw [e]; linarith
  refine ⟨hd, hp, ?_⟩
  rintro rfl
  refine ⟨fun h0 => (pie_one b3 p2).2.1 h0 _ h1, fun h0 => (pie_one b5 p2).2.1 h0 _ h2,
    fun h0 => (pie_three (b11 1) (b11 2) (b11 3) p1).2.1 h0 _ h3, fun h0 => (pie_one b7 p1).2.1 h0 _ h4, fun ht => ?_⟩
  have p3 : 0 < eTor z := lt_of_le_of_ne b2 (Ne.symm ht)
  rw [if_neg (by rwa [quot_zero p2.ne'])] at hs
  obtain ⟨x5, h5, hs⟩ := bind_ok hs
  obtain ⟨x6, h6, hs⟩ := bind_ok hs
  exact ⟨fun h0 => (pie_three (b12 1) (b12 2) (b12 3) p3).2.1 h0 _ h5, fun h0 => (pie_one b9 p3).2.1 h0 _ h6⟩

open Classical in
theorem summary_true {z : Zdi} (h : ∀ r ∈ z, 0 ≤ r.l) (hD : Drawable true z) : energySummary true z = .ok
      { total := [ePol z / eTotal z, eTor z / eTotal z]
        radial := [1]
        axisym := [1]
        poles := [ePolL z 1 / (ePolL z 1 + ePolL z 2 + ePolL z 3), ePolL z 2 / (ePolL z 1 + ePolL z 2 + ePolL z 3),
          ePolL z 3 / (ePolL z 1 + ePolL z 2 + ePolL z 3)]
        polAxisym := [1]
        toroidal := if eTor z = 0 then none else some ([eTorL z 1 / (eTorL z 1 + eTorL z 2 + eTorL z 3),
          eTorL z 2 / (eTorL z 1 + eTorL z 2 + eTorL z 3), eTorL z 3 / (eTorL z 1 + eTorL z 2 + eTorL z 3)], [1]) } := by
  obtain ⟨e, b1, b2, b3, b4, b5, b6, b7, b8, b9, b10, b11, b12, b13, b14⟩ := bounds h
  obtain ⟨hd, hp, hD⟩ := hD
  obtain ⟨d1, d2, d3, d4, d5⟩ := hD rfl
  have p1 : 0 < ePol z := lt_of_le_of_ne b1 (Ne.symm hp)
  have p2 : 0 < ePol z + eTor z := by linarith
  rw [summary_pies true z hd, e, pie_total true b1 b2 p2, (pie_one b3 p2).2.2 d1, (pie_one b5 p2).2.2 d2,
    (pie_three (b11 1) (b11 2) (b11 3) p1).2.2 d3, (pie_one b7 p1).2.2 d4]
  simp only [ok_bind, quot_zero p2.ne']
  split_ifs with ht
  · rfl
  · have p3 : 0 < eTor z := lt_of_le_of_ne b2 (Ne.symm ht)
    rw [(pie_three (b12 1) (b12 2) (b12 3) p3).2.2 (d5 ht).1, (pie_one b9 p3).2.2 (d5 ht).2]
    rfl

end Summary

/-- **C75.** (Variant.) If the sizes are not normalised, every share shown is the one that `energy` reports: the poloidal,
toroidal, radial and axisymmetric parts of the total, and the degrees and the axisymmetric part of the poloidal and of the
toroidal energy; the toroidal panel is left empty exactly if there is no toroidal energy. -/
theorem C75_shares_partial (z : Zdi) (h : ∀ r ∈ z, 0 ≤ r.l) (hd : OneAxialDipole z) (hp : ePol z ≠ 0) :
    energySummary false z = .ok
      { total := [ePol z / eTotal z, eTor z / eTotal z]
        radial := [eRad z / eTotal z]
        axisym := [eAxi z / eTotal z]
        poles := [ePolL z 1 / ePol z, ePolL z 2 / ePol z, ePolL z 3 / ePol z]
        polAxisym := [ePolAxi z / ePol z]
        toroidal := open Classical in if eTor z = 0 then none else
          some ([eTorL z 1 / eTor z, eTorL z 2 / eTor z, eTorL z 3 / eTor z], [eTorAxi z / eTor z]) } := by
  obtain ⟨e, b1, b2, b3, b4, b5, b6, b7, b8, b9, b10, b11, b12, b13, b14⟩ := bounds h
  have p1 : 0 < ePol z := lt_of_le_of_ne b1 (Ne.symm hp)
  have p2 : 0 < ePol z + eTor z := by linarith
  rw [summary_pies false z hd, e, pie_total false b1 b2 p2, (pie_one b3 p2).1 (by linarith), (pie_one b5 p2).1 (e ▸ b6),
    (pie_three (b11 1) (b11 2) (b11 3) p1).1 b13, (pie_one b7 p1).1 b8]
  simp only [ok_bind, quot_zero p2.ne']
  split_ifs with ht
  · rfl
  · have p3 : 0 < eTor z := lt_of_le_of_ne b2 (Ne.symm ht)
    rw [(pie_three (b12 1) (b12 2) (b12 3) p3).1 b14, (pie_one b9 p3).1 b10]
    rfl

/-- **C75.** With the default of matplotlib since 3.5 the first pie still shows the poloidal and toroidal parts of the total,
but the single wedges (radial, axisymmetric) always show 100 per cent, whatever the reported fractions, and the degrees are
shown as parts of the sum of the first three degrees. -/
theorem C75_normalized (z : Zdi) (h : ∀ r ∈ z, 0 ≤ r.l) (s : Shown) (hs : energySummary true z = .ok s) :
    s.total = [ePol z / eTotal z, eTor z / eTotal z] ∧ s.radial = [1] ∧ s.axisym = [1] ∧ s.polAxisym = [1] ∧
    s.poles = [ePolL z 1 / (ePolL z 1 + ePolL z 2 + ePolL z 3), ePolL z 2 / (ePolL z 1 + ePolL z 2 + ePolL z 3),
      ePolL z 3 / (ePolL z 1 + ePolL z 2 + ePolL z 3)] ∧
    (eTor z = 0 → s.toroidal = none) ∧
    (eTor z ≠ 0 → s.toroidal = some ([eTorL z 1 / (eTorL z 1 + eTorL z 2 + eTorL z 3),
      eTorL z 2 / (eTorL z 1 + eTorL z 2 + eTorL z 3), eTorL z 3 / (eTorL z 1 + eTorL z 2 + eTorL z 3)], [1])) := by
  have := summary_true h (drawable_of_ok h hs)
  rw [hs] at this
  obtain rfl := Except.ok.inj this
  exact ⟨rfl, rfl, rfl, rfl, rfl, fun ht => if_pos ht, fun ht => if_neg ht⟩

/-- **C75.** When the summary can be drawn at all: there must be exactly one axial dipole and some poloidal energy; and if
the sizes are normalised, each pie must have something to show. -/
theorem C75_defined (b : Bool) (z : Zdi) (h : ∀ r ∈ z, 0 ≤ r.l) : (∃ s, energySummary b z = .ok s) ↔
    OneAxialDipole z ∧ ePol z ≠ 0 ∧ (b = true → eRad z ≠ 0 ∧ eAxi z ≠ 0 ∧ ePolL z 1 + ePolL z 2 + ePolL z 3 ≠ 0 ∧
      ePolAxi z ≠ 0 ∧ (eTor z ≠ 0 → eTorL z 1 + eTorL z 2 + eTorL z 3 ≠ 0 ∧ eTorAxi z ≠ 0)) := by
  constructor
  · rintro ⟨s, hs⟩
    exact drawable_of_ok h hs
  · intro hD
    cases b
    · exact ⟨_, C75_shares_partial z h hD.1 hD.2.1⟩
    · exact ⟨_, summary_true h hD⟩

/-- **C75.** So with normalised sizes the summary shows something else than `energy` reports: for this magnetogram, with
half of the energy in the radial dipole of order 0 and half in order 1, the axisymmetric part is reported as one half and shown
as 100 per cent. -/
theorem C75_witness : ∃ z s, (∀ r ∈ z, 0 ≤ r.l) ∧ energySummary true z = .ok s ∧ eAxi z / eTotal z = 1 / 2 ∧ s.axisym = [1] := by
  let z : Zdi := [⟨1, 0, 1, 0, 0⟩, ⟨1, 1, 1 + Complex.I, 0, 0⟩]
  have e : ∀ p ks, energyIn z p ks = (if p 1 0 then (ks.map fun k => specEnergy k ⟨1, 0, 1, 0, 0⟩).sum else 0) +
      (if p 1 1 then (ks.map fun k => specEnergy k ⟨1, 1, 1 + Complex.I, 0, 0⟩).sum else 0) := by
    intro p ks; rw [energyIn_eq]; simp [z]
  have hz : ∀ r ∈ z, 0 ≤ r.l := by simp [z]
  have hD : Drawable true z := by
    refine ⟨by simp [OneAxialDipole, z], ?_, fun _ => ⟨?_, ?_, ?_, ?_, fun ht => absurd ?_ ht⟩⟩ <;>
      simp [ePol, eRad, eAxi, ePolL, ePolAxi, eTor, e, specEnergy, Comp.of] <;> norm_num
  refine ⟨z, _, hz, summary_true hz hD, ?_, rfl⟩
  simp [eAxi, eTotal, e, specEnergy, Comp.of]
  norm_num

/-- **C75.** A purely toroidal magnetogram cannot be summarised although its energy can be computed. -/
theorem C75_toroidal_only (b : Bool) (z : Zdi)
    (h : ∀ r ∈ z, 0 ≤ r.l ∧ r.a = 0 ∧ r.b = 0) (s : Shown) : energySummary b z ≠ .ok s := by
  intro hs
  refine ((C75_defined b z fun r hr => (h r hr).1).1 ⟨s, hs⟩).2.1 ?_
  rw [ePol, energyIn_eq]
  apply List.sum_eq_zero
  intro x hx
  obtain ⟨r, hr, rfl⟩ := List.mem_map.1 hx
  obtain ⟨-, h1, h2⟩ := h r hr
  simp [specEnergy, Comp.of, h1, h2]

/-- Non-vacuity: an axial dipole with a toroidal part meets the hypotheses. -/
example : OneAxialDipole [⟨1, 0, 1, 0, 2⟩] ∧ ePol [⟨1, 0, 1, 0, 2⟩] ≠ 0 := by
  constructor
  · simp [OneAxialDipole]
  · rw [ePol, energyIn_eq]; simp [specEnergy, Comp.of]

end Verif
