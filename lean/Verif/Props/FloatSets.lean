import Verif.Model.FloatSets
import Verif.Lemmas.FloatRange
import Verif.Lemmas.Writer
import Verif.Props.Container

/-!
# Property C108: arithmetic of coefficient sets in double precision

C08 to C12 hold for exact numbers. What remains of them for sets of complex128 numbers: every sum, difference and product
with a real number is the nearest double, real and imaginary part by itself; quotients are not, because the code multiplies by
the rounded reciprocal.
-/

set_option exponentiation.threshold 4000

namespace Verif
open Spec Coefs PyFloat FloatSets FloatRange

/-- Finite doubles of either sign. -/
def Spec.FinD (x : PyFloat) : Prop := ∃ neg q, x = fin neg q ∧ IsDouble q

/-- The numbers that finite doubles stand for. -/
def Spec.IsNum (q : ℚ) : Prop := IsDouble |q|

/-- `r` is a double, and none is nearer to `q`. -/
def Spec.IsNearest (r q : ℚ) : Prop := IsNum r ∧ ∀ d, IsNum d → |r - q| ≤ |d - q|

/-- The number in column `j` at degree `l` and order `m`: its real part (`im = false`) or its imaginary part. -/
def Spec.partAt (s : Coefs PyComplex) (l m : ℤ) (j : ℕ) (im : Bool) : ℚ :=
  let z := (valueAt s l m).getD j zeroJ
  (if im then z.2 else z.1).num

/-- A complex128 set with `n` columns and the default zero. -/
structure Spec.CSet (n : ℕ) (s : Coefs PyComplex) : Prop where
  wf : WellFormed s
  dflt : s.dflt = List.replicate n zeroJ
  dtype : s.dtype = .cplx

/-- All its numbers are finite. -/
def Spec.Finite (s : Coefs PyComplex) : Prop := ∀ l m, ∀ z ∈ valueAt s l m, FinD z.1 ∧ FinD z.2

/-! ### Numbers -/

namespace FloatSets

theorem isNum_num {x : PyFloat} (h : FinD x) : IsNum x.num := by
  obtain ⟨neg, q, rfl, hq⟩ := h
  unfold IsNum
  cases neg
  · simpa [num, abs_of_nonneg hq.nonneg] using hq
  · simpa [num, abs_of_nonneg hq.nonneg] using hq

theorem finD_zero (s : Bool) : FinD (fin s 0) := ⟨s, 0, rfl, isDouble_zero⟩

/-- Rounding a magnitude and giving it a sign. -/
theorem nearest_ofMag (s : Bool) {q : ℚ} (h0 : 0 ≤ q) (h : q ≤ maxDouble) :
    FinD (ofMag s q) ∧ IsNearest (ofMag s q).num (if s then -q else q) := by
  have hd : IsDouble (fl0 q) := by
    refine fl0_isDouble q h0 ?_
    rcases h0.eq_or_lt with rfl | hq
    · rw [fl0_zero]; positivity
    · exact lt_of_le_of_lt (fl0_le_max hq h) maxDouble_lt
  rw [ofMag_of_le h0 h]
  refine ⟨⟨s, _, rfl, hd⟩, isNum_num ⟨s, _, rfl, hd⟩, fun d hdd => ?_⟩
  have key : ∀ d, IsNum d → |fl0 q - q| ≤ |d - q| := by
    intro d hdd
    rcases h0.eq_or_lt with rfl | hq
    · rw [fl0_zero]; simp
    · rcases le_total 0 d with h | h
      · refine fl0_nearest hq ?_
        rw [IsNum, abs_of_nonneg h] at hdd
        exact hdd
      · refine (fl0_nearest hq isDouble_zero).trans ?_
        rw [zero_sub, abs_neg, abs_of_pos hq, abs_of_nonpos (by linarith)]
        linarith
  cases s
  · simpa [num] using key d hdd
  · have := key (-d) (by rw [IsNum, abs_neg]; exact hdd)
    simp only [num, if_true]
    rw [show -fl0 q - -q = -(fl0 q - q) by ring, abs_neg, show d - -q = -(-d - q) by ring, abs_neg]
    exact this

theorem nearest_exact {r q : ℚ} (h : IsNearest r q) (hq : IsNum q) : r = q := by
  have := h.2 q hq
  rw [sub_self, abs_zero] at this
  linarith [abs_nonpos_iff.1 this]

theorem isNum_zero : IsNum 0 := by rw [IsNum, abs_zero]; exact isDouble_zero

theorem isNum_neg {q : ℚ} (h : IsNum q) : IsNum (-q) := by rw [IsNum, abs_neg]; exact h

theorem nearest_self {q : ℚ} (h : IsNum q) : IsNearest q q := ⟨h, fun d _ => by rw [sub_self, abs_zero]; exact abs_nonneg _⟩

theorem add_nearest {x y : PyFloat} (hx : FinD x) (hy : FinD y) (h : |x.num + y.num| ≤ maxDouble) :
    FinD (add x y) ∧ IsNearest (add x y).num (x.num + y.num) := by
  obtain ⟨s, a, rfl, ha⟩ := hx
  obtain ⟨t, b, rfl, hb⟩ := hy
  by_cases hr : (fin s a).num + (fin t b).num = 0
  · have e : add (fin s a) (fin t b) = fin (s && t) 0 := by simp only [PyFloat.add, if_pos hr]
    rw [e, hr]
    refine ⟨finD_zero _, ?_⟩
    have : (fin (s && t) 0).num = 0 := by simp [num]
    rw [this]
    exact nearest_self isNum_zero
  · have e : add (fin s a) (fin t b) =
        ofMag (decide ((fin s a).num + (fin t b).num < 0)) |(fin s a).num + (fin t b).num| := by
      simp only [PyFloat.add, if_neg hr]
    rw [e]
    generalize (fin s a).num + (fin t b).num = r at *
    have := nearest_ofMag (decide (r < 0)) (abs_nonneg r) h
    have e2 : (if decide (r < 0) = true then -|r| else |r|) = r := by
      by_cases hn : r < 0
      · simp [hn, abs_of_neg hn]
      · simp [hn, abs_of_nonneg (not_lt.1 hn)]
    rwa [e2] at this

theorem mul_nearest {x y : PyFloat} (hx : FinD x) (hy : FinD y) (h : |x.num * y.num| ≤ maxDouble) :
    FinD (mul x y) ∧ IsNearest (mul x y).num (x.num * y.num) := by
  obtain ⟨s, a, rfl, ha⟩ := hx
  obtain ⟨t, b, rfl, hb⟩ := hy
  have h0 : 0 ≤ a * b := mul_nonneg ha.nonneg hb.nonneg
  have e : (fin s a).num * (fin t b).num = if (s != t) then -(a * b) else a * b := by
    cases s <;> cases t <;> simp [num]
  have hle : a * b ≤ maxDouble := by
    rw [e] at h
    have : |if (s != t) then -(a * b) else a * b| = a * b := by
      split_ifs
      · rw [abs_neg, abs_of_nonneg h0]
      · rw [abs_of_nonneg h0]
    rwa [this] at h
  rw [e]
  exact nearest_ofMag (s != t) h0 hle

theorem mul_zero_num {x : PyFloat} (hx : FinD x) (t : Bool) : ∃ u, mul x (fin t 0) = fin u 0 := by
  obtain ⟨s, a, rfl, _⟩ := hx
  exact ⟨s != t, by simp [mul, ofMag_zero]⟩

/-- Adding a zero changes no number. -/
theorem add_zero_num {x : PyFloat} (hx : FinD x) (u : Bool) : FinD (add x (fin u 0)) ∧ (add x (fin u 0)).num = x.num := by
  have hz : (fin u 0).num = 0 := by simp [num]
  have hm : |x.num| ≤ maxDouble := (isNum_num hx).le_max
  have := add_nearest hx (finD_zero u) (by rw [hz, add_zero]; exact hm)
  rw [hz, add_zero] at this
  exact ⟨this.1, nearest_exact this.2 (isNum_num hx)⟩

theorem zero_add_num {x : PyFloat} (hx : FinD x) (u : Bool) : FinD (add (fin u 0) x) ∧ (add (fin u 0) x).num = x.num := by
  have hz : (fin u 0).num = 0 := by simp [num]
  have hm : |x.num| ≤ maxDouble := (isNum_num hx).le_max
  have := add_nearest (finD_zero u) hx (by rw [hz, zero_add]; exact hm)
  rw [hz, zero_add] at this
  exact ⟨this.1, nearest_exact this.2 (isNum_num hx)⟩

theorem add_comm_bits (x y : PyFloat) : add x y = add y x := by
  cases x with
  | nan => cases y <;> rfl
  | inf s =>
    cases y with
    | nan => rfl
    | inf t =>
      simp only [PyFloat.add]
      by_cases h : s = t
      · subst h; rfl
      · rw [if_neg h, if_neg (Ne.symm h)]
    | fin t b => rfl
  | fin s a =>
    cases y with
    | nan => rfl
    | inf t => rfl
    | fin t b =>
      simp only [PyFloat.add]
      rw [add_comm (fin s a).num, Bool.and_comm]

theorem cadd_comm_bits (z w : PyComplex) : cadd z w = cadd w z := by
  simp only [cadd, add_comm_bits]

/-- Product of a complex number with a real factor. -/
theorem cmul_real {z : PyComplex} (h1 : FinD z.1) (h2 : FinD z.2) {x : PyFloat} (hx : FinD x)
    (b1 : |z.1.num * x.num| ≤ maxDouble) (b2 : |z.2.num * x.num| ≤ maxDouble) :
    (FinD (cmul z (ofReal x)).1 ∧ IsNearest (cmul z (ofReal x)).1.num (z.1.num * x.num)) ∧
    (FinD (cmul z (ofReal x)).2 ∧ IsNearest (cmul z (ofReal x)).2.num (z.2.num * x.num)) := by
  obtain ⟨f1, n1⟩ := mul_nearest h1 hx b1
  obtain ⟨f2, n2⟩ := mul_nearest h2 hx b2
  obtain ⟨u, hu⟩ := mul_zero_num h2 false
  obtain ⟨v, hv⟩ := mul_zero_num h1 false
  simp only [cmul, ofReal]
  rw [hu, hv]
  have e1 := add_zero_num f1 (!u)
  have e2 := zero_add_num f2 v
  refine ⟨⟨e1.1, ?_⟩, e2.1, ?_⟩
  · change IsNearest (add (mul z.1 x) (fin (!u) 0)).num _
    rw [e1.2]; exact n1
  · rw [e2.2]; exact n2

/-! ### Sets -/

theorem elem_getI (s : Coefs PyComplex) (l m : ℤ) : valueAt s l m = s.getI (l, m) := rfl

theorem cset_unset {n : ℕ} {s : Coefs PyComplex} (h : CSet n s) {k : Key} (hk : k ∉ s.keys) (j : ℕ) :
    (s.getI k).getD j zeroJ = zeroJ := by
  rw [getI_of_not_mem s k hk, h.dflt]
  by_cases hj : j < n
  · simp [List.getD_eq_getElem?_getD, hj]
  · simp [List.getD_eq_getElem?_getD, not_lt.1 hj]

theorem getD_of_le {xs : List PyComplex} {j : ℕ} (h : xs.length ≤ j) : xs.getD j zeroJ = zeroJ := by
  rw [List.getD_eq_getElem?_getD, List.getElem?_eq_none h, Option.getD_none]

theorem elem_fin {s : Coefs PyComplex} (h : Spec.Finite s) (l m : ℤ) (j : ℕ) :
    FinD ((s.getI (l, m)).getD j zeroJ).1 ∧ FinD ((s.getI (l, m)).getD j zeroJ).2 := by
  by_cases hj : j < (s.getI (l, m)).length
  · have e : (s.getI (l, m)).getD j zeroJ = (s.getI (l, m))[j] := by simp [List.getD_eq_getElem?_getD, hj]
    rw [e]
    exact h l m _ (List.getElem_mem hj)
  · rw [getD_of_le (not_lt.1 hj)]
    exact ⟨finD_zero _, finD_zero _⟩

theorem cadd_zeroJ : cadd zeroJ zeroJ = zeroJ := by decide +kernel

theorem cset_of {n : ℕ} {a s : Coefs PyComplex} (ha : CSet n a) (w : s.WF) (d : s.dflt = a.dflt) (t : s.dtype = a.dtype) :
    CSet n s := ⟨wellFormed_of_WF w, d.trans ha.dflt, t.trans ha.dtype⟩

theorem add_elem {n : ℕ} {a b : Coefs PyComplex} (ha : CSet n a) (hb : CSet n b) {ks : List Key}
    (hk : IsSetIter ks (a.keys ++ b.keys)) :
    ∃ s, addF ks a b = .ok s ∧ CSet n s ∧ (∀ l m, stores s l m ↔ stores a l m ∨ stores b l m) ∧
      (∀ k, (s.getI k).length = n) ∧
      ∀ k j, (s.getI k).getD j zeroJ = cadd ((a.getI k).getD j zeroJ) ((b.getI k).getD j zeroJ) := by
  have wa := WF_of_wellFormed ha.wf
  have wb := WF_of_wellFormed hb.wf
  have hl : a.dflt.length = b.dflt.length := by rw [ha.dflt, hb.dflt]
  obtain ⟨s, e, w, k, d, t, g⟩ := combine_spec cadd wa wb hl hk
  have e' : addF ks a b = .ok s := by
    unfold addF Coefs.add
    rw [if_pos hl]
    exact e
  have hs := cset_of ha w d t
  refine ⟨s, e', hs, fun l m => ?_, fun k => by rw [w.getI_length, hs.dflt, List.length_replicate], fun q j => ?_⟩
  · rw [stores, stores, stores, has_int, has_int, has_int, k, hk.2, List.mem_append]
  · by_cases hq : q ∈ ks
    · rw [g, if_pos hq]
      have e1 : (List.zipWith cadd (a.getI q) (b.getI q)).map (Elem.cast a.dtype) =
          List.zipWith cadd (a.getI q) (b.getI q) := map_cast_of_typed fun _ _ => rfl
      rw [e1]
      have la : (a.getI q).length = n := by rw [wa.getI_length, ha.dflt, List.length_replicate]
      have lb : (b.getI q).length = n := by rw [wb.getI_length, hb.dflt, List.length_replicate]
      by_cases hj : j < n
      · simp [List.getD_eq_getElem?_getD, List.getElem?_zipWith, la, lb, hj]
      · rw [getD_of_le (by simp [la, lb]; omega), getD_of_le (by omega), getD_of_le (by omega), cadd_zeroJ]
    · have hqa : q ∉ a.keys := fun h => hq ((hk.2 q).2 (List.mem_append.2 (Or.inl h)))
      have hqb : q ∉ b.keys := fun h => hq ((hk.2 q).2 (List.mem_append.2 (Or.inr h)))
      rw [cset_unset hs (by rw [k]; exact hq), cset_unset ha hqa, cset_unset hb hqb, cadd_zeroJ]

theorem mul_elem {n : ℕ} {a : Coefs PyComplex} (ha : CSet n a) (x : PyFloat) :
    ∃ s, mulF a x = .ok s ∧ CSet n s ∧ (∀ k, k ∈ s.keys ↔ k ∈ a.keys) ∧ (∀ k, (s.getI k).length = n) ∧
      ∀ k j, (s.getI k).getD j zeroJ = cmul ((a.getI k).getD j zeroJ) (ofReal x) ∨
        ((s.getI k).getD j zeroJ = zeroJ ∧ (a.getI k).getD j zeroJ = zeroJ) := by
  have wa := WF_of_wellFormed ha.wf
  obtain ⟨s, e, w, k, d, t, g⟩ := @mulScalar_spec PyComplex _ ⟨cmul⟩ a wa (ofReal x)
  have hs := cset_of ha w d t
  have hk : ∀ q, q ∈ s.keys ↔ q ∈ a.keys := fun q => by rw [k, mem_sortKeys]
  refine ⟨s, e, hs, hk, fun k => by rw [w.getI_length, hs.dflt, List.length_replicate], fun q j => ?_⟩
  by_cases hq : q ∈ a.keys
  · have la : (a.getI q).length = n := by rw [wa.getI_length, ha.dflt, List.length_replicate]
    rw [g, if_pos hq]
    by_cases hj : j < n
    · left
      simp only [List.getD_eq_getElem?_getD, List.getElem?_map, List.getElem?_eq_getElem (la ▸ hj : j < (a.getI q).length),
        Option.map_some, Option.getD_some]
      rfl
    · right
      exact ⟨getD_of_le (by simp [la]; omega), getD_of_le (by omega)⟩
  · right
    exact ⟨cset_unset hs (fun h => hq ((hk q).1 h)) j, cset_unset ha hq j⟩

theorem partAt_false (s : Coefs PyComplex) (l m : ℤ) (j : ℕ) :
    partAt s l m j false = ((s.getI (l, m)).getD j zeroJ).1.num := rfl

theorem partAt_true (s : Coefs PyComplex) (l m : ℤ) (j : ℕ) :
    partAt s l m j true = ((s.getI (l, m)).getD j zeroJ).2.num := rfl

theorem zeroJ_num (im : Bool) : (if im then zeroJ.2 else zeroJ.1).num = 0 := by cases im <;> simp [zeroJ, num]

theorem finite_of {s : Coefs PyComplex} (h : ∀ l m j, FinD ((s.getI (l, m)).getD j zeroJ).1 ∧
    FinD ((s.getI (l, m)).getD j zeroJ).2) : Spec.Finite s := by
  intro l m z hz
  obtain ⟨j, hj, rfl⟩ := List.mem_iff_getElem.1 hz
  have := h l m j
  have e : (s.getI (l, m)).getD j zeroJ = (s.getI (l, m))[j]'hj := by
    have hj' : j < (s.getI (l, m)).length := hj
    rw [List.getD_eq_getElem?_getD, List.getElem?_eq_getElem hj', Option.getD_some]
    rfl
  rw [e] at this
  exact this

theorem partAt_isNum {s : Coefs PyComplex} (h : Spec.Finite s) (l m : ℤ) (j : ℕ) (im : Bool) : IsNum (partAt s l m j im) := by
  have := elem_fin h l m j
  cases im
  · exact isNum_num this.1
  · exact isNum_num this.2

end FloatSets

/-! ### Sums -/

/-- **C108.** Sums of finite sets that do not overflow: the union of the pairs, and every number is the double nearest to the
exact sum (a missing pair counts as zero). -/
theorem C108_add {n : ℕ} {a b : Coefs PyComplex} (ha : CSet n a) (hb : CSet n b) (fa : Spec.Finite a) (fb : Spec.Finite b)
    {ks : List Key} (hk : IsSetIter ks (a.keys ++ b.keys))
    (hm : ∀ l m j im, |partAt a l m j im + partAt b l m j im| ≤ maxDouble) :
    ∃ s, addF ks a b = .ok s ∧ CSet n s ∧ Spec.Finite s ∧ (∀ l m, stores s l m ↔ stores a l m ∨ stores b l m) ∧
      ∀ l m j im, IsNearest (partAt s l m j im) (partAt a l m j im + partAt b l m j im) := by
  obtain ⟨s, e, hs, st, _, g⟩ := add_elem ha hb hk
  have key : ∀ l m j, _ := fun l m j => add_nearest (elem_fin fa l m j).1 (elem_fin fb l m j).1 (hm l m j false)
  have key2 : ∀ l m j, _ := fun l m j => add_nearest (elem_fin fa l m j).2 (elem_fin fb l m j).2 (hm l m j true)
  refine ⟨s, e, hs, finite_of fun l m j => ?_, st, fun l m j im => ?_⟩
  · rw [g]; exact ⟨(key l m j).1, (key2 l m j).1⟩
  · cases im
    · rw [partAt_false, g]; exact (key l m j).2
    · rw [partAt_true, g]; exact (key2 l m j).2

/-- **C108.** Sums commute bit for bit, also with infinities and nan, whatever the iteration orders. -/
theorem C108_add_comm {n : ℕ} {a b x y : Coefs PyComplex} (ha : CSet n a) (hb : CSet n b) {ks ks' : List Key}
    (hk : IsSetIter ks (a.keys ++ b.keys)) (hk' : IsSetIter ks' (b.keys ++ a.keys)) (hx : addF ks a b = .ok x)
    (hy : addF ks' b a = .ok y) : Same x y := by
  obtain ⟨x', ex, cx, sx, lx, gx⟩ := add_elem ha hb hk
  obtain ⟨y', ey, cy, sy, ly, gy⟩ := add_elem hb ha hk'
  rw [hx] at ex; rw [hy] at ey; cases ex; cases ey
  refine ⟨cx.dflt.trans cy.dflt.symm, cx.dtype.trans cy.dtype.symm, fun l m => ?_, fun l m => ?_⟩
  · rw [Bool.eq_iff_iff]
    exact (sx l m).trans (or_comm.trans (sy l m).symm)
  · rw [get_int, get_int]
    congr 1
    refine List.ext_getElem ((lx _).trans (ly _).symm) fun j h1 h2 => ?_
    have := (gx (l, m) j).trans ((cadd_comm_bits _ _).trans (gy (l, m) j).symm)
    simpa [List.getD_eq_getElem?_getD, h1, h2] using this

/-- A number that the doubles can represent is what is returned: nothing is rounded. -/
theorem C108_exact {r q : ℚ} (h : IsNearest r q) (hq : IsNum q) : r = q := nearest_exact h hq

/-- The sum of two doubles is never off by more than the fraction 2^-53 of itself, however small it is. -/
theorem C108_sum_relative {r p q : ℚ} (hp : IsNum p) (hq : IsNum q) (h : IsNearest r (p + q)) (hm : |p + q| ≤ maxDouble) :
    |r - (p + q)| ≤ |p + q| / 2 ^ 53 := by
  by_cases hs : (2 : ℚ) ^ (-1022 : ℤ) ≤ |p + q|
  · have h0 := fl0_rel hs
    have hn := (nearest_ofMag (decide (p + q < 0)) (abs_nonneg (p + q)) hm).2
    have e2 : (if decide (p + q < 0) = true then -|p + q| else |p + q|) = p + q := by
      by_cases hn : p + q < 0
      · simp [hn, abs_of_neg hn]
      · simp [hn, abs_of_nonneg (not_lt.1 hn)]
    rw [e2] at hn
    refine (h.2 _ hn.1).trans (le_trans ?_ h0)
    rw [ofMag_of_le (abs_nonneg _) hm]
    by_cases hneg : p + q < 0
    · simp only [hneg, decide_true, num, if_true]
      rw [abs_of_neg hneg, show -fl0 (-(p + q)) - (p + q) = -(fl0 (-(p + q)) - -(p + q)) by ring, abs_neg]
    · simp only [hneg, decide_false, num, Bool.false_eq_true, if_false]
      rw [abs_of_nonneg (not_lt.1 hneg)]
  · have hd : IsNum (p + q) := by
      obtain ⟨P, hP⟩ := hp.multiple
      obtain ⟨Q, hQ⟩ := hq.multiple
      have hint : ∃ N : ℤ, p + q = N * 2 ^ (-1074 : ℤ) := by
        have hp' : ∃ N : ℤ, p = N * 2 ^ (-1074 : ℤ) := by
          rcases abs_choice p with h | h
          · exact ⟨P, by rw [← h, hP]; push_cast; rfl⟩
          · exact ⟨-P, by rw [← neg_neg p, ← h, hP]; push_cast; ring⟩
        have hq' : ∃ N : ℤ, q = N * 2 ^ (-1074 : ℤ) := by
          rcases abs_choice q with h | h
          · exact ⟨Q, by rw [← h, hQ]; push_cast; rfl⟩
          · exact ⟨-Q, by rw [← neg_neg q, ← h, hQ]; push_cast; ring⟩
        obtain ⟨M, hM⟩ := hp'
        obtain ⟨N, hN⟩ := hq'
        exact ⟨M + N, by rw [hM, hN]; push_cast; ring⟩
      obtain ⟨N, hN⟩ := hint
      have habs : |p + q| = (N.natAbs : ℚ) * 2 ^ (-1074 : ℤ) := by
        rw [hN, abs_mul, abs_of_pos (by positivity : (0 : ℚ) < 2 ^ (-1074 : ℤ)), Nat.cast_natAbs, Int.cast_abs]
      refine ⟨N.natAbs, -1074, ?_, le_rfl, by norm_num, habs⟩
      rw [not_le, habs] at hs
      have h2 : ((2 : ℚ) ^ (-1022 : ℤ)) = 2 ^ 52 * 2 ^ (-1074 : ℤ) := by
        rw [← zpow_natCast, ← zpow_add₀ (by norm_num)]; norm_num
      rw [h2] at hs
      have h3 : (N.natAbs : ℚ) < 2 ^ 52 := lt_of_mul_lt_mul_right hs (by positivity)
      have h4 : N.natAbs < 2 ^ 52 := by exact_mod_cast h3
      omega
    rw [nearest_exact h hd, sub_self, abs_zero]
    positivity

/-! ### Products and differences -/

/-- **C108.** Products with a real number that do not overflow: the same pairs, and every number is the double nearest to the
exact product. -/
theorem C108_mul {n : ℕ} {a : Coefs PyComplex} (ha : CSet n a) (fa : Spec.Finite a) {x : PyFloat} (hx : FinD x)
    (hm : ∀ l m j im, |partAt a l m j im * x.num| ≤ maxDouble) :
    ∃ s, mulF a x = .ok s ∧ CSet n s ∧ Spec.Finite s ∧ (∀ l m, stores s l m ↔ stores a l m) ∧
      ∀ l m j im, IsNearest (partAt s l m j im) (partAt a l m j im * x.num) := by
  obtain ⟨s, e, hs, hk, _, g⟩ := mul_elem ha x
  have key : ∀ l m j, _ := fun l m j => cmul_real (elem_fin fa l m j).1 (elem_fin fa l m j).2 hx (hm l m j false) (hm l m j true)
  refine ⟨s, e, hs, finite_of fun l m j => ?_, fun l m => ?_, fun l m j im => ?_⟩
  · rcases g (l, m) j with h | ⟨h, _⟩
    · rw [h]; exact ⟨(key l m j).1.1, (key l m j).2.1⟩
    · rw [h]; exact ⟨finD_zero _, finD_zero _⟩
  · rw [stores, stores, has_int, has_int, hk]
  · have hz : IsNearest 0 (0 * x.num) := by rw [zero_mul]; exact nearest_self isNum_zero
    cases im
    · rcases g (l, m) j with h | ⟨h, h'⟩
      · rw [partAt_false, h]; exact (key l m j).1.2
      · rw [partAt_false, partAt_false, h, h']; exact (zeroJ_num false).symm ▸ hz
    · rcases g (l, m) j with h | ⟨h, h'⟩
      · rw [partAt_true, h]; exact (key l m j).2.2
      · rw [partAt_true, partAt_true, h, h']; exact (zeroJ_num true).symm ▸ hz

/-- **C108.** Differences: every number is the double nearest to the exact difference, although the code adds a product. -/
theorem C108_sub {n : ℕ} {a b : Coefs PyComplex} (ha : CSet n a) (hb : CSet n b) (fa : Spec.Finite a) (fb : Spec.Finite b)
    {ks : List Key} (hk : IsSetIter ks (a.keys ++ b.keys))
    (hm : ∀ l m j im, |partAt a l m j im - partAt b l m j im| ≤ maxDouble) :
    ∃ s, subF ks a b = .ok s ∧ CSet n s ∧ Spec.Finite s ∧ (∀ l m, stores s l m ↔ stores a l m ∨ stores b l m) ∧
      ∀ l m j im, IsNearest (partAt s l m j im) (partAt a l m j im - partAt b l m j im) := by
  have h1 : FinD (fin true 1) := ⟨true, 1, rfl, isDouble_one⟩
  have hn1 : (fin true 1).num = -1 := by simp [num]
  obtain ⟨nb, e, cb, fnb, st, g⟩ := C108_mul hb fb h1 (fun l m j im => by
    rw [hn1, mul_neg_one, abs_neg]; exact (partAt_isNum fb l m j im).le_max)
  have gn : ∀ l m j im, partAt nb l m j im = -partAt b l m j im := fun l m j im => by
    have := g l m j im
    rw [hn1, mul_neg_one] at this
    exact nearest_exact this (isNum_neg (partAt_isNum fb l m j im))
  have hk' : IsSetIter ks (a.keys ++ nb.keys) := by
    refine ⟨hk.1, fun k => ?_⟩
    have := st k.1 k.2
    rw [stores, stores, has_int, has_int] at this
    rw [hk.2, List.mem_append, List.mem_append, this]
  obtain ⟨s, e2, cs, fs, st2, g2⟩ := C108_add ha cb fa fnb hk' (fun l m j im => by rw [gn, ← sub_eq_add_neg]; exact hm l m j im)
  refine ⟨s, ?_, cs, fs, fun l m => by rw [st2, st], fun l m j im => ?_⟩
  · unfold subF
    rw [e]
    exact e2
  · have := g2 l m j im
    rwa [gn, ← sub_eq_add_neg] at this

/-- **C108.** A finite set minus itself is zero everywhere. -/
theorem C108_sub_self {n : ℕ} {a : Coefs PyComplex} (ha : CSet n a) (fa : Spec.Finite a) {ks : List Key}
    (hk : IsSetIter ks (a.keys ++ a.keys)) :
    ∃ s, subF ks a a = .ok s ∧ ∀ l m j im, partAt s l m j im = 0 := by
  obtain ⟨s, e, _, _, _, g⟩ := C108_sub ha ha fa fa hk (fun l m j im => by rw [sub_self, abs_zero]; exact maxDouble_isDouble.nonneg)
  refine ⟨s, e, fun l m j im => ?_⟩
  have := g l m j im
  rw [sub_self] at this
  exact nearest_exact this isNum_zero

/-- **C108.** Subtracting what was added gives the first set back up to rounding of the sum. -/
theorem C108_add_sub {n : ℕ} {a b s t : Coefs PyComplex} (ha : CSet n a) (hb : CSet n b) (fa : Spec.Finite a)
    (fb : Spec.Finite b) {ks ks' : List Key} (hk : IsSetIter ks (a.keys ++ b.keys)) (hk' : IsSetIter ks' (s.keys ++ b.keys))
    (hm : ∀ l m j im, |partAt a l m j im + partAt b l m j im| ≤ maxDouble / 4) (hm' : ∀ l m j im, |partAt b l m j im| ≤ maxDouble / 4)
    (hs : addF ks a b = .ok s) (ht : subF ks' s b = .ok t) :
    ∀ l m j im, |partAt t l m j im - partAt a l m j im| ≤
      (|partAt a l m j im| + |partAt a l m j im + partAt b l m j im|) / 2 ^ 52 := by
  have hmax : 0 ≤ maxDouble := maxDouble_isDouble.nonneg
  have hm1 : ∀ l m j im, |partAt a l m j im + partAt b l m j im| ≤ maxDouble := fun l m j im => (hm l m j im).trans (by linarith)
  obtain ⟨s', e, cs, fs, _, g⟩ := C108_add ha hb fa fb hk hm1
  rw [hs] at e; cases e
  have r1 : ∀ l m j im, _ := fun l m j im =>
    C108_sum_relative (partAt_isNum fa l m j im) (partAt_isNum fb l m j im) (g l m j im) (hm1 l m j im)
  have hm2 : ∀ l m j im, |partAt s l m j im - partAt b l m j im| ≤ maxDouble := by
    intro l m j im
    have h1 := r1 l m j im
    have h2 := hm l m j im
    have h3 := hm' l m j im
    have h4 : |partAt a l m j im + partAt b l m j im| / 2 ^ 53 ≤ |partAt a l m j im + partAt b l m j im| :=
      div_le_self (abs_nonneg _) (by norm_num)
    have h5 := abs_sub_abs_le_abs_sub (partAt s l m j im) (partAt a l m j im + partAt b l m j im)
    have h6 := abs_sub (partAt s l m j im) (partAt b l m j im)
    linarith
  obtain ⟨t', e', _, _, _, g'⟩ := C108_sub cs hb fs fb hk' hm2
  rw [ht] at e'; cases e'
  intro l m j im
  have h1 := r1 l m j im
  have h2 := C108_sum_relative (r := partAt t l m j im) (partAt_isNum fs l m j im) (isNum_neg (partAt_isNum fb l m j im))
    (by rw [← sub_eq_add_neg]; exact g' l m j im) (by rw [← sub_eq_add_neg]; exact hm2 l m j im)
  generalize partAt t l m j im = T at *
  generalize partAt s l m j im = S at *
  generalize partAt a l m j im = A at *
  generalize partAt b l m j im = B at *
  rw [← sub_eq_add_neg] at h2
  have h3 : |S - B| ≤ |A| + |A + B| / 2 ^ 53 := by
    calc |S - B| = |(S - (A + B)) + A| := by ring_nf
      _ ≤ |S - (A + B)| + |A| := abs_add_le _ _
      _ ≤ _ := by linarith
  calc |T - A| = |(T - (S - B)) + (S - (A + B))| := by ring_nf
    _ ≤ |T - (S - B)| + |S - (A + B)| := abs_add_le _ _
    _ ≤ (|A| + |A + B| / 2 ^ 53) / 2 ^ 53 + |A + B| / 2 ^ 53 := by
        refine add_le_add (h2.trans ?_) h1
        gcongr
    _ ≤ _ := by
        have := abs_nonneg A
        have := abs_nonneg (A + B)
        norm_num
        linarith

/-! ### Quotients -/

/-- What the code needs of the C library's `pow(q, -1)`: one of the two doubles around the exact reciprocal. -/
structure Spec.GoodInv (inv : PyFloat → PyFloat) : Prop where
  close : ∀ neg q, IsDouble q → (2 : ℚ) ^ (-1022 : ℤ) ≤ q⁻¹ → q⁻¹ ≤ maxDouble →
    ∃ r, inv (fin neg q) = fin neg r ∧ IsDouble r ∧ |r - q⁻¹| ≤ q⁻¹ / 2 ^ 52
  exact : ∀ neg q, IsDouble q → 0 < q → IsDouble q⁻¹ → inv (fin neg q) = fin neg q⁻¹
  big : ∀ neg q, IsDouble q → (2 : ℚ) ^ (1024 : ℤ) ≤ q⁻¹ → inv (fin neg q) = inf neg

namespace FloatSets

/-- The correctly rounded reciprocal. -/
def nearestInv (y : PyFloat) : PyFloat := PyFloat.div (fin false 1) y

theorem nearestInv_fin (neg : Bool) {q : ℚ} (h : 0 < q) : nearestInv (fin neg q) = ofMag neg q⁻¹ := by
  simp only [nearestInv, PyFloat.div, if_neg h.ne', one_div, Bool.false_bne]

theorem pos_of_inv {q : ℚ} {k : ℤ} (h : (2 : ℚ) ^ k ≤ q⁻¹) : 0 < q :=
  inv_pos.1 (lt_of_lt_of_le (by positivity) h)

theorem nearestInv_good : GoodInv nearestInv where
  close neg q _ h1 h2 := by
    have hq := pos_of_inv h1
    have hi : 0 ≤ q⁻¹ := (inv_pos.2 hq).le
    rw [nearestInv_fin neg hq, ofMag_of_le hi h2]
    refine ⟨_, rfl, fl0_isDouble _ hi (lt_of_le_of_lt (fl0_le_max (inv_pos.2 hq) h2) maxDouble_lt), ?_⟩
    refine (fl0_rel h1).trans ?_
    gcongr <;> norm_num
  exact neg q _ h hd := by
    rw [nearestInv_fin neg h, ofMag_of_le hd.nonneg hd.le_max, fl0_of_isDouble hd]
  big neg q _ h := by
    rw [nearestInv_fin neg (pos_of_inv h), ofMag_big h]

theorem div_core {n : ℕ} {a : Coefs PyComplex} (ha : CSet n a) (fa : Spec.Finite a) {inv : PyFloat → PyFloat} {neg : Bool}
    {q r : ℚ} (hq : 0 < q) (hr : inv (fin neg q) = fin neg r) (hd : IsDouble r)
    (hm : ∀ l m j im, |partAt a l m j im * (fin neg r).num| ≤ maxDouble) :
    ∃ s, divF inv a (fin neg q) = .ok s ∧ CSet n s ∧ Spec.Finite s ∧ (∀ l m, stores s l m ↔ stores a l m) ∧
      ∀ l m j im, IsNearest (partAt s l m j im) (partAt a l m j im * (fin neg r).num) := by
  have e : divF inv a (fin neg q) = mulF a (fin neg r) := by
    simp only [divF, powNeg, if_neg hq.ne', hr]
    rfl
  rw [e]
  exact C108_mul ha fa ⟨neg, r, rfl, hd⟩ hm

end FloatSets

/-- **C108.** Quotients by a number whose reciprocal is a normal double: the relative error is below 2^-51, four times that of
the nearest double. -/
theorem C108_div {inv : PyFloat → PyFloat} (hi : GoodInv inv) {n : ℕ} {a : Coefs PyComplex} (ha : CSet n a) (fa : Spec.Finite a)
    {neg : Bool} {q : ℚ} (hd : IsDouble q) (h1 : (2 : ℚ) ^ (-1022 : ℤ) ≤ q⁻¹) (h2 : q⁻¹ ≤ maxDouble)
    (hm : ∀ l m j im, partAt a l m j im = 0 ∨
      (2 : ℚ) ^ (-1021 : ℤ) ≤ |partAt a l m j im| / q ∧ |partAt a l m j im| / q ≤ maxDouble / 2) :
    ∃ s, divF inv a (fin neg q) = .ok s ∧ CSet n s ∧ Spec.Finite s ∧ (∀ l m, stores s l m ↔ stores a l m) ∧
      ∀ l m j im, |partAt s l m j im - partAt a l m j im / (fin neg q).num| ≤
        |partAt a l m j im / (fin neg q).num| / 2 ^ 51 := by
  obtain ⟨r, hr, hrd, hc⟩ := hi.close neg q hd h1 h2
  have hq := pos_of_inv h1
  have hqi : 0 < q⁻¹ := inv_pos.2 hq
  have hmax : 0 ≤ maxDouble := maxDouble_isDouble.nonneg
  have hr2 : r ≤ 2 * q⁻¹ := by
    have := (abs_le.1 hc).2
    have : q⁻¹ / 2 ^ 52 ≤ q⁻¹ := div_le_self hqi.le (by norm_num)
    linarith
  have hr1 : q⁻¹ / 2 ≤ r := by
    have h3 := (abs_le.1 hc).1
    have : q⁻¹ / 2 ^ 52 ≤ q⁻¹ / 2 := by gcongr; norm_num
    linarith
  have hsg : ∀ x : ℚ, |x * (fin neg r).num| = |x| * r := by
    intro x
    rw [abs_mul]
    congr 1
    cases neg <;> simp [num, abs_of_nonneg hrd.nonneg]
  have hmx : ∀ l m j im, |partAt a l m j im * (fin neg r).num| ≤ maxDouble := by
    intro l m j im
    rw [hsg]
    rcases hm l m j im with h | h
    · rw [h, abs_zero, zero_mul]; exact hmax
    · calc |partAt a l m j im| * r ≤ |partAt a l m j im| * (2 * q⁻¹) := by gcongr
        _ = 2 * (|partAt a l m j im| / q) := by rw [div_eq_mul_inv]; ring
        _ ≤ maxDouble := by linarith [h.2]
  obtain ⟨s, e, cs, fs, st, g⟩ := div_core ha fa hq hr hrd hmx
  refine ⟨s, e, cs, fs, st, fun l m j im => ?_⟩
  have hg := g l m j im
  have hx := hm l m j im
  have hxm := hmx l m j im
  generalize partAt s l m j im = S at *
  generalize partAt a l m j im = A at *
  rcases hx with rfl | hx
  · rw [zero_mul] at hg
    rw [nearest_exact hg isNum_zero]
    simp
  · -- rounding of the product
    have hlow : (2 : ℚ) ^ (-1022 : ℤ) ≤ |A * (fin neg r).num| := by
      rw [hsg]
      calc (2 : ℚ) ^ (-1022 : ℤ) = 2 ^ (-1021 : ℤ) / 2 := by
            rw [show (-1021 : ℤ) = -1022 + 1 by norm_num, zpow_add₀ (by norm_num)]; norm_num
        _ ≤ (|A| / q) / 2 := by linarith [hx.1]
        _ = |A| * (q⁻¹ / 2) := by rw [div_eq_mul_inv |A| q]; ring
        _ ≤ |A| * r := by gcongr
    have hrnd : |S - A * (fin neg r).num| ≤ |A * (fin neg r).num| / 2 ^ 53 := by
      have h0 := fl0_rel hlow
      have hn := (nearest_ofMag (decide (A * (fin neg r).num < 0)) (abs_nonneg (A * (fin neg r).num)) hxm).2
      have e2 : ∀ y : ℚ, (if decide (y < 0) = true then -|y| else |y|) = y := by
        intro y
        by_cases hn : y < 0
        · simp [hn, abs_of_neg hn]
        · simp [hn, abs_of_nonneg (not_lt.1 hn)]
      rw [e2] at hn
      refine (hg.2 _ hn.1).trans (le_trans ?_ h0)
      rw [ofMag_of_le (abs_nonneg _) hxm]
      generalize A * (fin neg r).num = y
      by_cases hneg : y < 0
      · simp only [hneg, decide_true, num, if_true]
        rw [abs_of_neg hneg, show -fl0 (-y) - y = -(fl0 (-y) - -y) by ring, abs_neg]
      · simp only [hneg, decide_false, num, Bool.false_eq_true, if_false]
        rw [abs_of_nonneg (not_lt.1 hneg)]
    -- rounding of the reciprocal
    have hrec : |A * (fin neg r).num - A / (fin neg q).num| ≤ (|A| / q) / 2 ^ 52 := by
      have : |A * (fin neg r).num - A / (fin neg q).num| = |A| * |r - q⁻¹| := by
        rw [← abs_mul]
        cases neg
        · simp only [num, Bool.false_eq_true, if_false]; congr 1; rw [div_eq_mul_inv]; ring
        · simp only [num, if_true]
          rw [show A * -r - A / -q = -(A * (r - q⁻¹)) by rw [div_neg, div_eq_mul_inv]; ring, abs_neg]
      rw [this]
      calc |A| * |r - q⁻¹| ≤ |A| * (q⁻¹ / 2 ^ 52) := by gcongr
        _ = (|A| / q) / 2 ^ 52 := by rw [div_eq_mul_inv |A| q]; ring
    have habs : |A / (fin neg q).num| = |A| / q := by
      rw [abs_div]
      congr 1
      cases neg <;> simp [num, abs_of_pos hq]
    have hup : |A * (fin neg r).num| ≤ (|A| / q) * (1 + 1 / 2 ^ 52) := by
      rw [hsg]
      have h3 := (abs_le.1 hc).2
      calc |A| * r ≤ |A| * (q⁻¹ + q⁻¹ / 2 ^ 52) := by gcongr; linarith
        _ = _ := by rw [div_eq_mul_inv |A| q]; ring
    rw [habs]
    have hpos : 0 ≤ |A| / q := by positivity
    calc |S - A / (fin neg q).num| = |(S - A * (fin neg r).num) + (A * (fin neg r).num - A / (fin neg q).num)| := by ring_nf
      _ ≤ |S - A * (fin neg r).num| + |A * (fin neg r).num - A / (fin neg q).num| := abs_add_le _ _
      _ ≤ (|A| / q) * (1 + 1 / 2 ^ 52) / 2 ^ 53 + (|A| / q) / 2 ^ 52 := by
          refine add_le_add (hrnd.trans ?_) hrec
          gcongr
      _ ≤ (|A| / q) / 2 ^ 51 := by
          generalize |A| / q = w at hpos
          norm_num
          linarith

/-- **C108.** If the reciprocal is a double (powers of two), every quotient is the nearest double, and exact if it can be
represented. -/
theorem C108_div_exact {inv : PyFloat → PyFloat} (hi : GoodInv inv) {n : ℕ} {a : Coefs PyComplex} (ha : CSet n a)
    (fa : Spec.Finite a) {neg : Bool} {q : ℚ} (hd : IsDouble q) (hq : 0 < q) (hr : IsDouble q⁻¹)
    (hm : ∀ l m j im, |partAt a l m j im / (fin neg q).num| ≤ maxDouble) :
    ∃ s, divF inv a (fin neg q) = .ok s ∧ CSet n s ∧ Spec.Finite s ∧ (∀ l m, stores s l m ↔ stores a l m) ∧
      ∀ l m j im, IsNearest (partAt s l m j im) (partAt a l m j im / (fin neg q).num) := by
  have e : ∀ x : ℚ, x * (fin neg q⁻¹).num = x / (fin neg q).num := by
    intro x
    cases neg
    · simp only [num, Bool.false_eq_true, if_false, div_eq_mul_inv]
    · simp only [num, if_true, div_eq_mul_inv, inv_neg]
  obtain ⟨s, h1, h2, h3, h4, h5⟩ := div_core (inv := inv) ha fa hq (hi.exact neg q hd hq hr) hr
    (fun l m j im => by rw [e]; exact hm l m j im)
  exact ⟨s, h1, h2, h3, h4, fun l m j im => by rw [← e]; exact h5 l m j im⟩

/-- **C108.** Dividing by zero raises ZeroDivisionError, and dividing by a number of magnitude at most 2^-1024 OverflowError,
whatever the set contains. -/
theorem C108_div_raises {inv : PyFloat → PyFloat} (hi : GoodInv inv) (a : Coefs PyComplex) (neg : Bool) :
    divF inv a (fin neg 0) = .error .zeroDiv ∧
    ∀ q, IsDouble q → 0 < q → q ≤ 2 ^ (-1024 : ℤ) → divF inv a (fin neg q) = .error .overflow := by
  refine ⟨by simp only [divF, powNeg, if_true]; rfl, fun q hd hq hl => ?_⟩
  have hb : (2 : ℚ) ^ (1024 : ℤ) ≤ q⁻¹ := by
    rw [le_inv_comm₀ (by positivity) hq, ← zpow_neg]
    exact hl
  simp only [divF, powNeg, if_neg hq.ne', hi.big neg q hd hb]
  rfl

/-! ### What is lost, and non-vacuity -/

/-- One column, one number at (1, 0). -/
private def exOne (x : PyFloat) : Coefs PyComplex := ⟨[zeroJ], .cplx, [((1, 0), [(x, fin false 0)])], 1, 0⟩

private theorem exOne_cset (x : PyFloat) : CSet 1 (exOne x) := by
  refine ⟨wellFormed_of_WF ?_, rfl, rfl⟩
  constructor <;> simp [exOne, Coefs.keys] <;> intros <;> rfl

private theorem exOne_finite {x : PyFloat} (h : FinD x) : Spec.Finite (exOne x) := by
  intro l m z hz
  rw [elem_getI] at hz
  by_cases hk : (l, m) = (1, 0)
  · rw [hk] at hz
    have : (exOne x).getI (1, 0) = [(x, fin false 0)] := rfl
    rw [this, List.mem_singleton] at hz
    subst hz
    exact ⟨h, finD_zero _⟩
  · rw [getI_of_not_mem _ _ (by simpa [exOne, Coefs.keys] using hk)] at hz
    have : (exOne x).dflt = [zeroJ] := rfl
    rw [this, List.mem_singleton] at hz
    subst hz
    exact ⟨finD_zero _, finD_zero _⟩

private theorem isDouble_nat (n : ℕ) (h : n < 2 ^ 53) : IsDouble n := ⟨n, 0, h, by norm_num, by norm_num, by simp⟩

private theorem exOne_part (x : PyFloat) (l m : ℤ) (j : ℕ) (im : Bool) :
    partAt (exOne x) l m j im = x.num ∨ partAt (exOne x) l m j im = 0 := by
  by_cases hk : (l, m) = (1, 0)
  · have : (exOne x).getI (1, 0) = [(x, fin false 0)] := rfl
    cases im
    · rw [partAt_false, hk, this]
      cases j
      · left; rfl
      · right; simp [zeroJ, num]
    · right
      rw [partAt_true, hk, this]
      cases j <;> simp [zeroJ, num]
  · right
    have hz := cset_unset (exOne_cset x) (k := (l, m)) (by simpa [exOne, Coefs.keys] using hk) j
    cases im
    · rw [partAt_false, hz]; simp [zeroJ, num]
    · rw [partAt_true, hz]; simp [zeroJ, num]

private theorem exOne_iter (x y : PyFloat) : IsSetIter [(1, 0)] ((exOne x).keys ++ (exOne y).keys) := by
  refine ⟨by simp, fun k => ?_⟩
  simp [exOne, Coefs.keys]

/-- Non-vacuity of `C108_add`, `C108_sub` and `C108_div_exact`: 7 + 3, 7 - 3 and 7 / -4 come out exactly. -/
example : (∃ s, addF [(1, 0)] (exOne (fin false 7)) (exOne (fin false 3)) = .ok s ∧ partAt s 1 0 0 false = 10) ∧
    (∃ s, subF [(1, 0)] (exOne (fin false 7)) (exOne (fin false 3)) = .ok s ∧ partAt s 1 0 0 false = 4) ∧
    ∃ s, divF nearestInv (exOne (fin false 7)) (fin true 4) = .ok s ∧ partAt s 1 0 0 false = -(7 / 4) := by
  have h7 : FinD (fin false 7) := ⟨false, 7, rfl, by simpa using isDouble_nat 7 (by norm_num)⟩
  have h3 : FinD (fin false 3) := ⟨false, 3, rfl, by simpa using isDouble_nat 3 (by norm_num)⟩
  have h10 : (10 : ℚ) ≤ maxDouble := by simpa using (isDouble_nat 10 (by norm_num)).le_max
  have v7 : (fin false 7).num = 7 := rfl
  have v3 : (fin false 3).num = 3 := rfl
  have p7 : partAt (exOne (fin false 7)) 1 0 0 false = 7 := rfl
  have p3 : partAt (exOne (fin false 3)) 1 0 0 false = 3 := rfl
  refine ⟨?_, ?_, ?_⟩
  · obtain ⟨s, e, _, _, _, g⟩ := C108_add (exOne_cset _) (exOne_cset _) (exOne_finite h7) (exOne_finite h3) (exOne_iter _ _)
      (fun l m j im => by
        rcases exOne_part (fin false 7) l m j im with h | h <;> rcases exOne_part (fin false 3) l m j im with h' | h' <;>
          rw [h, h'] <;> (try simp only [v7, v3]) <;> norm_num <;> linarith)
    refine ⟨s, e, C108_exact (by simpa only [p7, p3, show (7 : ℚ) + 3 = 10 by norm_num] using g 1 0 0 false) ?_⟩
    simpa [IsNum] using isDouble_nat 10 (by norm_num)
  · obtain ⟨s, e, _, _, _, g⟩ := C108_sub (exOne_cset _) (exOne_cset _) (exOne_finite h7) (exOne_finite h3) (exOne_iter _ _)
      (fun l m j im => by
        rcases exOne_part (fin false 7) l m j im with h | h <;> rcases exOne_part (fin false 3) l m j im with h' | h' <;>
          rw [h, h'] <;> (try simp only [v7, v3]) <;> norm_num <;> linarith)
    refine ⟨s, e, C108_exact (by simpa only [p7, p3, show (7 : ℚ) - 3 = 4 by norm_num] using g 1 0 0 false) ?_⟩
    simpa [IsNum] using isDouble_nat 4 (by norm_num)
  · have v4 : (fin true 4).num = -4 := by simp [num]
    obtain ⟨s, e, _, _, _, g⟩ := C108_div_exact nearestInv_good (neg := true) (q := 4) (exOne_cset _) (exOne_finite h7)
      (by simpa using isDouble_nat 4 (by norm_num)) (by norm_num) ⟨1, -2, by norm_num, by norm_num, by norm_num, by norm_num⟩
      (fun l m j im => by
        rcases exOne_part (fin false 7) l m j im with h | h <;> rw [h, v4] <;> try simp only [v7]
        · norm_num [abs_div]; linarith
        · norm_num; linarith)
    refine ⟨s, e, C108_exact (q := -(7 / 4)) (by simpa only [p7, v4, show (7 : ℚ) / -4 = -(7 / 4) by norm_num] using g 1 0 0 false) ?_⟩
    refine ⟨7, -2, by norm_num, by norm_num, by norm_num, ?_⟩
    rw [abs_neg, abs_of_pos (by norm_num)]
    norm_num

/-- Non-vacuity: one third of 7, with the error allowed by `C108_div`. -/
example : ∃ s, divF nearestInv (exOne (fin false 7)) (fin false 3) = .ok s ∧
    |partAt s 1 0 0 false - 7 / 3| ≤ |7 / 3| / 2 ^ 51 := by
  have h7 : FinD (fin false 7) := ⟨false, 7, rfl, by simpa using isDouble_nat 7 (by norm_num)⟩
  have h3 : IsDouble 3 := by simpa using isDouble_nat 3 (by norm_num)
  obtain ⟨s, e, _, _, _, g⟩ := C108_div nearestInv_good (neg := false) (exOne_cset (fin false 7)) (exOne_finite h7) h3
    (by norm_num) ((by norm_num : (3 : ℚ)⁻¹ ≤ 1).trans isDouble_one.le_max) (fun l m j im => by
      rcases exOne_part (fin false 7) l m j im with h | h
      · right
        rw [h]
        simp only [num, Bool.false_eq_true, if_false]
        refine ⟨by norm_num, ?_⟩
        have : (6 : ℚ) ≤ maxDouble := (by simpa using (isDouble_nat 6 (by norm_num)).le_max)
        norm_num
        linarith
      · exact Or.inl h)
  exact ⟨s, e, g 1 0 0 false⟩

private local instance : DecidableEq (Coefs PyComplex) := fun a b => decidable_of_iff
  (a.dflt = b.dflt ∧ a.dtype = b.dtype ∧ a.dict = b.dict ∧ a.degreeMax = b.degreeMax ∧ a.orderMin = b.orderMin)
  (by cases a; cases b; simp)

/-- **C108.** What is lost: sums do not associate, `(a + b) - b` need not be `a`, and with a correctly rounded reciprocal
`s / 49` turns 49 into `1 - 2^-53`, although the nearest double of the quotient is 1. -/
theorem C108_lost :
    (∃ a b c ab bc x y : Coefs PyComplex, addF [(1, 0)] a b = .ok ab ∧ addF [(1, 0)] ab c = .ok x ∧
      addF [(1, 0)] b c = .ok bc ∧ addF [(1, 0)] a bc = .ok y ∧ partAt x 1 0 0 false = 2 ^ 53 ∧ partAt y 1 0 0 false = 2 ^ 53 + 2) ∧
    (∃ a b s t : Coefs PyComplex, addF [(1, 0)] a b = .ok s ∧ subF [(1, 0)] s b = .ok t ∧ partAt a 1 0 0 false = 1 ∧
      partAt t 1 0 0 false = 0) ∧
    ∃ a s : Coefs PyComplex, CSet 1 a ∧ Spec.Finite a ∧ partAt a 1 0 0 false = 49 ∧
      divF nearestInv a (fin false 49) = .ok s ∧ partAt s 1 0 0 false = 1 - 1 / 2 ^ 53 := by
  have ok : ∀ {r : Res (Coefs PyComplex)} {s}, r.toOption = some s → r = .ok s := by
    intro r s h
    cases r with
    | error e => cases h
    | ok y => cases h; rfl
  refine ⟨⟨exOne (fin false (2 ^ 53)), exOne (fin false 1), exOne (fin false 1), exOne (fin false (2 ^ 53)), exOne (fin false 2),
    exOne (fin false (2 ^ 53)), exOne (fin false (2 ^ 53 + 2)), ?_, ?_, ?_, ?_, by decide +kernel, by decide +kernel⟩,
    ⟨exOne (fin false 1), exOne (fin false (2 ^ 53)), exOne (fin false (2 ^ 53)), exOne (fin false 0), ?_, ?_, by decide +kernel,
      by decide +kernel⟩,
    exOne (fin false 49), exOne (fin false (1 - 1 / 2 ^ 53)), exOne_cset _,
    exOne_finite ⟨false, 49, rfl, by simpa using isDouble_nat 49 (by norm_num)⟩, by decide +kernel, ?_, by decide +kernel⟩
  all_goals exact ok (by decide +kernel)

end Verif
