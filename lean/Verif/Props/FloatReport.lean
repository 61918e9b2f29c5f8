import Verif.Model.FloatReport
import Verif.Props.FloatMatrix

/-!
# C133: `energy` with coefficients that overflow
-/

set_option exponentiation.threshold 4000

namespace Verif
open PyFloat FloatEnergy

/-! ### Specification -/

/-- Both parts of a sum of complex numbers are sums of the parts, in some order. -/
def Spec.SumsParts (C : FloatReport.CLib) : Prop :=
  (∀ xs, IsNpSum xs (C.sum xs)) ∧ ∀ zs, IsNpSum (zs.map Prod.fst) (C.csum zs).1 ∧ IsNpSum (zs.map Prod.snd) (C.csum zs).2

/-- The names that `energy` stores before its first assertion. -/
def Spec.energyNames : List String :=
  ["magnetogram.total.energy.B2", "magnetogram.radial.energy.fraction", "magnetogram.poloidal.energy.fraction",
   "magnetogram.toroidal.energy.fraction", "magnetogram.total.energy.dipole.fraction",
   "magnetogram.total.energy.quadrupole.fraction", "magnetogram.total.energy.octopole.fraction",
   "magnetogram.total.energy.toroidal.l1.fraction", "magnetogram.total.energy.toroidal.l2.fraction",
   "magnetogram.total.energy.toroidal.l3.fraction"]
  ++ ((List.range 15).map fun l => "magnetogram.pol.energy.l" ++ toString (l + 1) ++ ".fraction")
  ++ ((List.range 15).map fun l => "magnetogram.tor.energy.l" ++ toString (l + 1) ++ ".fraction")
  ++ ["magnetogram.total.energy.axisymmetric.fraction"]

open Spec

namespace FloatReport
open FloatMatrix FloatRange

theorem nan_add (x : PyFloat) : PyFloat.add nan x = nan := by cases x <;> rfl

theorem tree_nan (t : SumTree) (h : nan ∈ t.terms) : t.sum id = nan := by
  induction t with
  | leaf x => simpa [SumTree.terms, SumTree.sum, eq_comm] using h
  | node a b iha ihb =>
    rw [SumTree.sum]
    rcases List.mem_append.1 h with h | h
    · rw [iha h, nan_add]
    · rw [ihb h, FloatEnergy.add_nan]

theorem npSum_nan {xs : List PyFloat} {v : PyFloat} (h : IsNpSum xs v) (hx : nan ∈ xs) : v = nan := by
  rcases h with ⟨rfl, -⟩ | ⟨-, t, ss, hp, rfl⟩
  · simp at hx
  · exact tree_nan t (hp.mem_iff.2 (by simp [hx]))

/-- Complex with an imaginary part that is not a number. -/
def Bad : Num → Prop
  | .re _ => False
  | .cx z => z.2 = nan

theorem Bad.add {a b : Num} (h : Bad a ∨ Bad b) : Bad (addN a b) := by
  cases a <;> cases b <;> simp only [Bad, or_self, false_or, or_false] at h
  · show PyFloat.add _ _ = nan
    rw [show (Num.toC (.cx _)).2 = _ from h, FloatEnergy.add_nan]
  · show PyFloat.add _ _ = nan
    rw [show (Num.toC (.cx _)).2 = _ from h, nan_add]
  · show PyFloat.add _ _ = nan
    rcases h with h | h
    · rw [show (Num.toC (.cx _)).2 = _ from h, nan_add]
    · rw [show (Num.toC (.cx _)).2 = _ from h, FloatEnergy.add_nan]

theorem Bad.not_close (C : CLib) {a b : Num} (h : Bad b) : closeN C a b = false := by
  cases b with
  | re _ => exact h.elim
  | cx z =>
    have h : z.2 = nan := h
    have e : ∀ x : PyFloat, FloatClose.eq x nan = false := fun x => by cases x <;> rfl
    cases a <;>
    · simp only [closeN, FloatClose.close, Num.toC, h, isFin, e, FloatClose.defaults]
      simp

theorem bad_sum {C : CLib} (hC : SumsParts C) {z : List ERow} {k : ERow → PyFloat × PyFloat} {lt : Bool} {r : ERow} (hr : r ∈ z)
    (h : TooLarge (k r)) : Bad (sumN C (energies z k lt)) := by
  obtain ⟨x, hx, h⟩ := h
  have := C117_overflow z k lt r hr x hx h
  unfold energies
  rw [this.2]
  exact npSum_nan (hC.2 _).2 (List.mem_map.2 ⟨_, List.mem_map.2 ⟨r, hr, rfl⟩, this.1⟩)

theorem bad_total {C : CLib} (hC : SumsParts C) {z : List ERow} {r : ERow} (hr : r ∈ z)
    (h : TooLarge r.a ∨ TooLarge r.b ∨ TooLarge r.g) :
    Bad (totalN C (energies z ERow.a false) (energies z ERow.b true) (energies z ERow.g true)) := by
  rcases h with h | h | h
  · exact Bad.add (Or.inl (Bad.add (Or.inl (bad_sum hC hr h))))
  · exact Bad.add (Or.inl (Bad.add (Or.inr (bad_sum hC hr h))))
  · exact Bad.add (Or.inr (bad_sum hC hr h))

theorem names (C : CLib) (z : List ERow) (ea eb eg : Arr) : (entriesN C z ea eb eg).map Prod.fst = energyNames := by
  simp only [entriesN, List.map_append, List.map_cons, List.map_nil, List.map_map]
  rfl

theorem energies_real {z : List ERow} {k : ERow → PyFloat × PyFloat} {lt : Bool} {xs : List PyFloat} (h : helper z k lt = some xs) :
    energies z k lt = .real xs := by
  unfold energies; rw [h]

theorem arrays_some {z : List ERow} {ea eb eg : List PyFloat} (h : arrays z = some (ea, eb, eg)) :
    energies z ERow.a false = .real ea ∧ energies z ERow.b true = .real eb ∧ energies z ERow.g true = .real eg := by
  unfold arrays at h
  cases ha : helper z ERow.a false <;> cases hb : helper z ERow.b true <;> cases hg : helper z ERow.g true <;>
    simp [ha, hb, hg] at h
  obtain ⟨rfl, rfl, rfl⟩ := h
  exact ⟨energies_real ha, energies_real hb, energies_real hg⟩

/-- A float among the numbers. -/
def asRe (x : String × PyFloat) : String × Num := (x.1, .re x.2)

theorem entries_real (C : CLib) (z : List ERow) (ea eb eg : List PyFloat) :
    entriesN C z (.real ea) (.real eb) (.real eg) = (entries C.sum z ea eb eg).map asRe := by
  simp only [entries, List.map_append, List.map_cons, List.map_nil, List.map_map]
  rfl

end FloatReport

open FloatReport FloatMatrix

/-- **C133.** When one part of one coefficient is `2 ^ 512` or more, infinite or not a number, `energy(dest=…)` raises AssertionError
after it has stored all names up to its first assertion, and the total energy it has stored is complex with an imaginary part that
is not a number. -/
theorem C133_dest (C : CLib) (hC : SumsParts C) (z : List ERow) (r : ERow) (hr : r ∈ z)
    (h : TooLarge r.a ∨ TooLarge r.b ∨ TooLarge r.g) (d : List (String × Num)) :
    ∃ es x, energyAny C z d = .error .assertion (d ++ es) ∧ es.map Prod.fst = energyNames ∧
      ("magnetogram.total.energy.B2", .cx (x, nan)) ∈ es := by
  have hb := bad_total hC hr h
  have hn : closeN C (totalN C (energies z ERow.a false) (energies z ERow.b true) (energies z ERow.g true))
      (addN (pol C (energies z ERow.a false) (energies z ERow.b true)) (sumN C (energies z ERow.g true))) = false :=
    Bad.not_close C hb
  generalize hea : energies z ERow.a false = ea at *
  generalize heb : energies z ERow.b true = eb at *
  generalize heg : energies z ERow.g true = eg at *
  obtain ⟨x, hx⟩ : ∃ x, totalN C ea eb eg = .cx (x, nan) := by
    cases ht : totalN C ea eb eg with
    | re y => rw [ht] at hb; exact hb.elim
    | cx y =>
      rw [ht] at hb
      obtain ⟨y1, y2⟩ := y
      have hb : y2 = nan := hb
      exact ⟨y1, by rw [hb]⟩
  refine ⟨entriesN C z ea eb eg, x, ?_, names C z ea eb eg, ?_⟩
  · simp only [energyAny, hea, heb, heg, pyAssert, hn]
    rfl
  · rw [← hx]
    unfold entriesN
    simp

/-- **C133.** In that case `energy()` without a destination raises ValueError, because the fractions are complex: only the total
energy has been printed, after the table if that was asked for. -/
theorem C133_print (C : CLib) (hC : SumsParts C) (z : List ERow) (r : ERow) (hr : r ∈ z)
    (h : TooLarge r.a ∨ TooLarge r.b ∨ TooLarge r.g) (showFractions : Bool) (printed : List Text) :
    ∃ tab total, printHead C showFractions z printed = .error .value (printed ++ tab ++ ["Total energy: ".toList ++ total ++ " (B^2)".toList]) ∧
      (tab.length = if showFractions then z.length + 2 else 0) ∧ ∃ x, total = C.fmtG (x, nan) := by
  have hb := bad_total hC hr h
  have hlen : ∀ (k : ERow → PyFloat × PyFloat) lt, (nums (energies z k lt)).length = z.length := by
    intro k lt
    unfold energies helper realIfClose
    split_ifs <;> simp [nums]
  have ht := hlen ERow.a false
  have ht2 := hlen ERow.b true
  have ht3 := hlen ERow.g true
  simp only [printHead]
  generalize hea : energies z ERow.a false = ea at *
  generalize heb : energies z ERow.b true = eb at *
  generalize heg : energies z ERow.g true = eg at *
  have hl : (tableN C z ea eb eg).length = z.length + 2 := by
    simp [tableN, ht, ht2, ht3]
  cases ht : totalN C ea eb eg with
  | re y => rw [ht] at hb; exact hb.elim
  | cx y =>
    rw [ht] at hb
    obtain ⟨y1, y2⟩ := y
    have hb : y2 = nan := hb
    subst hb
    have hd : ∃ w, divN C (sumN C ea) (.cx (y1, nan)) = .cx w := by
      cases sumN C ea <;> exact ⟨_, rfl⟩
    obtain ⟨w, hw⟩ := hd
    cases showFractions
    · refine ⟨[], C.fmtG (y1, nan), ?_, rfl, y1, rfl⟩
      simp only [hw, List.append_nil]
      rfl
    · refine ⟨tableN C z ea eb eg, C.fmtG (y1, nan), ?_, by simp [hl], y1, rfl⟩
      simp only [hw]
      rfl

/-- **C133.** When the energies are real both are what C117 has: the same stores and result, and the same first lines. -/
theorem C133_real (C : CLib) (z : List ERow) (ea eb eg : List PyFloat) (h : arrays z = some (ea, eb, eg)) (d : List (String × PyFloat))
    (showFractions : Bool) (printed : List Text) :
    (∀ es, energyReal C.sum z ea eb eg d = .ok (ea, eb, eg) es →
      energyAny C z (d.map asRe) = .ok (.real ea, .real eb, .real eg) (es.map asRe)) ∧
    (∀ e es, energyReal C.sum z ea eb eg d = .error e es → energyAny C z (d.map asRe) = .error e (es.map asRe)) ∧
    printHead C showFractions z printed = .ok () (printed ++ (if showFractions then EnergyText.table (sums C.sum z ea eb eg) else []) ++
      EnergyText.summary (sums C.sum z ea eb eg)) := by
  obtain ⟨e1, e2, e3⟩ := arrays_some h
  have hc : closeN C (totalN C (.real ea) (.real eb) (.real eg)) (addN (pol C (.real ea) (.real eb)) (sumN C (.real eg)))
      = isClose (sums C.sum z ea eb eg).total (PyFloat.add (sums C.sum z ea eb eg).pol (sums C.sum z ea eb eg).gamma) := rfl
  have hx : (nums (pickA (fun r => decide (r.l = 1) && decide (r.m = 0)) z (addArr (.real ea) (.real eb)))) =
      (sums C.sum z ea eb eg).axial.map .re := rfl
  have ha : axisymN C z (.real ea) (.real eb) (.real eg) = (FloatEnergy.axisymEntries C.sum z ea eb eg).map asRe := rfl
  have hh : ∀ xs : List PyFloat, (xs.map Num.re).headD (.re (fin false 0)) = .re (xs.headD (fin false 0)) := by
    intro xs; cases xs <;> rfl
  have hs : sumN C (pickA (fun r => decide (r.l = 1)) z (addArr (.real ea) (.real eb))) = .re (sums C.sum z ea eb eg).pol1 := rfl
  have key : energyAny C z (d.map asRe) = match energyReal C.sum z ea eb eg d with
      | .ok _ es => .ok (.real ea, .real eb, .real eg) (es.map asRe)
      | .error e es => .error e (es.map asRe) := by
    simp only [energyAny, e1, e2, e3, entries_real, hc, hx, ha, hh, hs, List.length_map, energyReal, pyAssert]
    by_cases c1 : isClose (sums C.sum z ea eb eg).total (PyFloat.add (sums C.sum z ea eb eg).pol (sums C.sum z ea eb eg).gamma) = true
    · by_cases c2 : (sums C.sum z ea eb eg).axial.length = 1
      · simp only [c1, c2, if_true]
        simp only [bind, EStateM.bind, modify, modifyGet, MonadStateOf.modifyGet, EStateM.modifyGet, pure, EStateM.pure]
        simp only [List.map_append, List.map_cons, List.map_nil]
        rfl
      · simp only [c1, c2, if_true, if_false]
        simp only [bind, EStateM.bind, modify, modifyGet, MonadStateOf.modifyGet, EStateM.modifyGet, pure, EStateM.pure, throw,
          throwThe, MonadExceptOf.throw, EStateM.throw]
        simp only [List.map_append]
    · simp only [c1]
      simp only [bind, EStateM.bind, modify, modifyGet, MonadStateOf.modifyGet, EStateM.modifyGet, pure, EStateM.pure, throw,
        throwThe, MonadExceptOf.throw, EStateM.throw]
      simp only [List.map_append, Bool.false_eq_true, if_false, EStateM.throw]
  refine ⟨fun es hes => ?_, fun e es hes => ?_, ?_⟩
  · rw [key, hes]
  · rw [key, hes]
  · have hr : tableN C z (.real ea) (.real eb) (.real eg) = EnergyText.table (sums C.sum z ea eb eg) := by
      unfold tableN EnergyText.table
      congr 1
      show _ = List.map _ (List.zipWith _ z (List.zip ea (List.zip eb eg)))
      rw [List.map_zipWith]
      show List.zipWith _ z (List.zip (ea.map Num.re) (List.zip (eb.map Num.re) (eg.map Num.re))) = _
      rw [List.zip_map, List.zip_map, List.zipWith_map_right]
      rfl
    simp only [printHead, e1, e2, e3, hr]
    cases showFractions
    · simp only [Bool.false_eq_true, if_false, List.append_nil]
      show EStateM.Result.ok () _ = _
      simp [EnergyText.summary]
      exact ⟨rfl, rfl, rfl, rfl⟩
    · simp only [if_true]
      show EStateM.Result.ok () _ = _
      simp [EnergyText.summary]
      exact ⟨rfl, rfl, rfl, rfl⟩

/-- Non-vacuity of C133: sums as numpy makes them, and a magnetogram with one number that is too large beside an ordinary one. -/
example : ∃ (C : CLib) (z : List ERow) (r : ERow), SumsParts C ∧ r ∈ z ∧ (TooLarge r.a ∨ TooLarge r.b ∨ TooLarge r.g) := by
  refine ⟨⟨exSum, fun zs => (exSum (zs.map Prod.fst), exSum (zs.map Prod.snd)), fun x _ => x, ⟨fun x _ => x⟩, fun _ => [], fun _ => []⟩,
    [⟨1, 0, exInt 3, exInt 1, exInt 2⟩, ⟨1, 1, exInt 1, (fin false 0, fin true (2 ^ 600)), exInt 0⟩], _, ⟨exSum_ok, fun zs => ⟨exSum_ok _, exSum_ok _⟩⟩,
    List.mem_cons_of_mem _ (List.mem_singleton.2 rfl), Or.inr (Or.inl ⟨_, Or.inr rfl, Or.inr ⟨true, 2 ^ 600, rfl, ?_⟩⟩)⟩
  norm_num

/-- Non-vacuity of C133, real energies: the quadrupole of C117. -/
example : ∃ ea eb eg, arrays exQuad = some (ea, eb, eg) :=
  ⟨_, _, _, arrays_eq fun r hr => FloatEnergy.RowIn.mono (by norm_num) (exQuad_ok r hr).1⟩

end Verif
