import Verif.Lemmas.Writer
import Mathlib.Data.List.GetD

/-!
# Properties C20 - C24: writing magnetogram files
-/

namespace Verif
open Spec Coefs

/-! ### Reading a written file -/

section
variable (E : PyEnv)

/-- What is read for one component. -/
private def backOf (z : PyComplex) : PyComplex := PyFloat.complexOf E.mixed (reread z.1) (reread z.2)

private theorem comp_map (s : Coefs PyComplex) (k : Key) (h : (s.getI k).length = s.dflt.length) :
    s.getI k = (List.range s.dflt.length).map fun i => comp s i k := by
  apply List.ext_getElem
  · simp [h]
  · intro i h1 h2
    simp only [List.getElem_map, List.getElem_range, comp]
    rw [List.getD_eq_getElem?_getD, List.getElem?_eq_getElem h1]; rfl

private theorem forall₂_map_left_eq {β γ δ : Type} (l : List β) (f : β → γ) (g : β → δ) (R : γ → δ → Prop)
    (hR : ∀ b ∈ l, ∀ d, R (f b) d → d = g b) (v : List δ) (h : List.Forall₂ R (l.map f) v) : v = l.map g := by
  induction l generalizing v with
  | nil => cases h; rfl
  | cons b l ih =>
    rw [List.map_cons] at h
    cases h with
    | cons h1 h2 =>
      rw [List.map_cons, hR b List.mem_cons_self _ h1, ih (fun b hb => hR b (List.mem_cons_of_mem _ hb)) _ h2]

private theorem linked_const (l : List ℕ) (f : ℕ → List Rec) (r : ℕ → Rec) (rs : ℕ → List Rec)
    (hf : ∀ i, f i = r i :: rs i) (hk : ∀ i j, recKey (r i) = recKey (r j)) : Linked (l.map f) := by
  induction l with
  | nil => trivial
  | cons a l ih =>
    cases l with
    | nil => trivial
    | cons b l =>
      refine ⟨⟨r b, by rw [hf b]; rfl, ?_⟩, ih⟩
      rw [hf a, List.map_cons, hk b a]; exact List.mem_cons_self

private theorem read_back (s : Coefs PyComplex) (hs : s.WF) (hc : s.dflt ≠ []) (dm om : ℤ) (hw : winList dm om ≠ [])
    (text : Text) (hrec : recs E.digits text = (bodyBlocks s dm om).flatten) :
    ∃ r, readMagnetogram E text = .ok r ∧ r.WF ∧ r.dflt = List.replicate s.dflt.length zeroJ ∧
      (∀ k, k ∈ r.keys ↔ k ∈ winList dm om) ∧
      ∀ k ∈ winList dm om, r.getI k = (s.getI k).map (backOf E) := by
  obtain ⟨k0, ks, hk0⟩ := List.exists_cons_of_ne_nil hw
  have hn : s.dflt.length ≠ 0 := fun h => hc (List.length_eq_zero_iff.1 h)
  have hb : ∀ b ∈ bodyBlocks s dm om, b.map recKey = winList dm om := by
    intro b hb
    obtain ⟨i, _, rfl⟩ := List.mem_map.1 hb
    rw [List.map_map]
    conv_rhs => rw [← List.map_id (winList dm om)]
    rfl
  have hlen : (bodyBlocks s dm om).length = s.dflt.length := by simp [bodyBlocks]
  obtain ⟨r, h1, _, h3, h4, h5⟩ := C19_blocks E text (bodyBlocks s dm om)
    (by intro h; rw [h] at hlen; exact hn hlen.symm) ((fileRecords_iff _ _).2 hrec)
    (by
      intro b hb' x hx
      have : recKey x ∈ winList dm om := by rw [← hb b hb']; exact List.mem_map_of_mem hx
      exact ((mem_winList dm om _ _).1 this).2.2.1)
    (by intro b hb'; rw [hb b hb']; exact winList_nodup dm om)
    (by
      refine linked_const _ _ (fun i => (k0.1, k0.2, reread (comp s i k0).1, reread (comp s i k0).2))
        (fun i => ks.map fun k => (k.1, k.2, reread (comp s i k).1, reread (comp s i k).2)) ?_ (fun _ _ => rfl)
      intro i
      simp only [hk0, List.map_cons])
  have hwf : r.WF := WF_of_wellFormed (C03_read_wellFormed E text r h1)
  refine ⟨r, h1, hwf, by rw [h3, hlen], ?_, ?_⟩
  · intro k
    rw [← has_int r k.1 k.2, h4]
    constructor
    · rintro ⟨b, hb', hk⟩; rwa [hb b hb'] at hk
    · intro hk
      obtain ⟨b, bs, hbs⟩ := List.exists_cons_of_ne_nil (l := bodyBlocks s dm om)
        (by intro h; rw [h] at hlen; exact hn hlen.symm)
      exact ⟨b, by rw [hbs]; exact List.mem_cons_self, by rw [hb b (by rw [hbs]; exact List.mem_cons_self)]; exact hk⟩
  · intro k hk
    have := h5 k.1 k.2
    rw [comp_map s k (hs.getI_length k), List.map_map]
    refine forall₂_map_left_eq _ _ _ _ ?_ _ this
    intro i _ z hz
    exact hz.1 _ _ (List.mem_map.2 ⟨k, hk, rfl⟩)

/-! ### Rounding -/

private theorem isFinite_mag {x : PyFloat} (h : IsFinite x) : Mag x := by
  obtain ⟨neg, n, e, _, _, _, rfl⟩ := h
  show (0 : ℚ) ≤ _
  positivity

private theorem isFinite_fin {neg : Bool} {q : ℚ} : IsFinite (.fin neg q) ↔ IsDouble q := by
  constructor
  · rintro ⟨neg', n, e, h1, h2, h3, h⟩
    cases h; exact ⟨n, e, h1, h2, h3, rfl⟩
  · rintro ⟨n, e, h1, h2, h3, rfl⟩; exact ⟨neg, n, e, h1, h2, h3, rfl⟩

private theorem isFinite_cases {x : PyFloat} (h : IsFinite x) : ∃ neg q, x = .fin neg q ∧ IsDouble q := by
  obtain ⟨neg, n, e, h1, h2, h3, rfl⟩ := h
  exact ⟨neg, _, rfl, n, e, h1, h2, h3, rfl⟩

private theorem reread_fin {neg : Bool} {q : ℚ} (h : IsDouble q) :
    reread (.fin neg q) = .fin neg (fl0 (decVal (dec7 q))) :=
  ofMag_of_le (decVal_nonneg h.nonneg) (decVal_le_max h)

private theorem fl0_dec7_isDouble {q : ℚ} (h : IsDouble q) : IsDouble (fl0 (decVal (dec7 q))) := by
  have h0 := decVal_nonneg h.nonneg
  refine fl0_isDouble _ h0 ?_
  rcases h0.eq_or_lt with h1 | h1
  · rw [← h1, fl0_zero]; positivity
  · exact lt_of_le_of_lt (fl0_le_max h1 (decVal_le_max h)) maxDouble_lt

private theorem fl0_dec7_pos {q : ℚ} (h : IsDouble q) (hq : q ≠ 0) : fl0 (decVal (dec7 q)) ≠ 0 := by
  intro h0
  have h1 := dec7_fl0_dec7 h
  rw [h0, dec7_zero] at h1
  have h2 := decVal_pos (lt_of_le_of_ne h.nonneg (Ne.symm hq))
  rw [← h1] at h2
  simp [decVal] at h2

private theorem value_fin (neg : Bool) (q : ℚ) : value (.fin neg q) = (if neg then -1 else 1) * q := by
  cases neg <;> simp [value]

private theorem sign_abs (neg : Bool) (a b : ℚ) :
    |(if neg then -1 else 1) * a - (if neg then -1 else 1) * b| = |a - b| := by
  rw [← mul_sub, abs_mul]; cases neg <;> simp

private theorem abs_sub_sign (neg : Bool) (a : ℚ) {b : ℚ} (hb : 0 ≤ b) : |(|a|) - b| ≤ |a - (if neg then -1 else 1) * b| := by
  have h := abs_abs_sub_abs_le a ((if neg then -1 else 1) * b)
  have : |(if neg then -1 else 1) * b| = b := by
    rw [abs_mul, abs_of_nonneg hb]; cases neg <;> simp
  rwa [this] at h

private theorem rounded7_of {neg neg' : Bool} {q : ℚ} (h : IsDouble q) (hz : neg' = neg ∨ q = 0) :
    Rounded7 (.fin neg q) (.fin neg' (fl0 (decVal (dec7 q)))) := by
  have h0 := decVal_nonneg h.nonneg
  have hval : value (.fin neg' (fl0 (decVal (dec7 q)))) = (if neg then -1 else 1) * fl0 (decVal (dec7 q)) := by
    rcases hz with rfl | rfl
    · exact value_fin _ _
    · rw [value_fin, dec7_zero, show decVal (0, 0) = 0 by simp [decVal], fl0_zero]; simp
  refine ⟨isFinite_fin.2 h, isFinite_fin.2 (fl0_dec7_isDouble h), (if neg then -1 else 1) * decVal (dec7 q), ?_, ?_, ?_, ?_, ?_⟩
  · obtain ⟨n, k, hn, e⟩ := decVal_isDec7 h.nonneg
    refine ⟨(if neg then -1 else 1) * n, k, ?_, ?_⟩
    · rw [abs_mul]
      have : |((n : ℕ) : ℤ)| < 10 ^ 7 := by rw [Nat.abs_cast]; exact_mod_cast hn
      cases neg <;> simpa using this
    · rw [e]; push_cast; ring
  · rintro d ⟨n, k, hn, rfl⟩
    rw [value_fin, sign_abs]
    refine (dec7_nearest h.nonneg (d := |(n : ℚ) * 10 ^ k|) ⟨n.natAbs, k, ?_, ?_⟩).trans (abs_sub_sign _ _ h.nonneg)
    · have : ((n.natAbs : ℕ) : ℤ) < 10 ^ 7 := by rwa [Int.natCast_natAbs]
      exact_mod_cast this
    · rw [abs_mul, abs_of_pos (show (0 : ℚ) < 10 ^ k by positivity), Nat.cast_natAbs, Int.cast_abs]
  · intro y hy
    obtain ⟨neg2, q2, rfl, hq2⟩ := isFinite_cases hy
    rw [hval, sign_abs]
    rcases h0.eq_or_lt with h1 | h1
    · rw [← h1, fl0_zero]; simp
    · have h2 := abs_sub_sign neg (value (.fin neg2 q2)) h0
      have h3 : |value (.fin neg2 q2)| = q2 := by
        rw [value_fin, abs_mul, abs_of_nonneg hq2.nonneg]; cases neg2 <;> simp
      rw [h3] at h2
      exact (fl0_nearest h1 hq2).trans h2
  · rw [value_fin, sign_abs]
    have : |(if neg then -1 else 1) * q| = q := by rw [abs_mul, abs_of_nonneg h.nonneg]; cases neg <;> simp
    rw [this]; exact dec7_rel h.nonneg
  · rw [hval, value_fin, sign_abs]
    have : |(if neg then -1 else 1) * q| = q := by rw [abs_mul, abs_of_nonneg h.nonneg]; cases neg <;> simp
    rw [this]; exact fl0_dec7_rel h

private theorem addZero_fin (neg b : Bool) (q : ℚ) : ∃ neg', (PyFloat.fin neg q).addZero b = .fin neg' q ∧ (neg' = neg ∨ q = 0) := by
  simp only [PyFloat.addZero]
  split_ifs with h
  · subst h; exact ⟨_, rfl, Or.inr rfl⟩
  · exact ⟨_, rfl, Or.inl rfl⟩

private theorem complexOf_fin (mixed n1 n2 : Bool) (q1 q2 : ℚ) :
    ∃ n1' n2', PyFloat.complexOf mixed (.fin n1 q1) (.fin n2 q2) = (.fin n1' q1, .fin n2' q2) ∧
      (n1' = n1 ∨ q1 = 0) ∧ (n2' = n2 ∨ q2 = 0) := by
  obtain ⟨n1', e1, h1⟩ := addZero_fin n1 n2 q1
  obtain ⟨n2', e2, h2⟩ := addZero_fin n2 false q2
  obtain ⟨n2'', e3, h3⟩ := addZero_fin n2' false q2
  cases mixed
  · refine ⟨n1', n2'', ?_, h1, ?_⟩
    · simp only [PyFloat.complexOf, e1, e2, e3]; rfl
    · rcases h3 with rfl | h; exacts [h2, Or.inr h]
  · exact ⟨n1', n2, by simp only [PyFloat.complexOf, e1]; rfl, h1, Or.inl rfl⟩

private theorem zero_of_reread {q : ℚ} (h : IsDouble q) (h0 : fl0 (decVal (dec7 q)) = 0) : q = 0 := by
  by_contra hq; exact fl0_dec7_pos h hq h0

private theorem rounded_back {z : PyComplex} (h1 : IsFinite z.1) (h2 : IsFinite z.2) :
    Rounded7 z.1 (backOf E z).1 ∧ Rounded7 z.2 (backOf E z).2 := by
  obtain ⟨a, b⟩ := z
  obtain ⟨n1, q1, rfl, hq1⟩ := isFinite_cases h1
  obtain ⟨n2, q2, rfl, hq2⟩ := isFinite_cases h2
  obtain ⟨n1', n2', e, z1, z2⟩ := complexOf_fin E.mixed n1 n2 (fl0 (decVal (dec7 q1))) (fl0 (decVal (dec7 q2)))
  simp only [backOf, reread_fin hq1, reread_fin hq2, e]
  exact ⟨rounded7_of hq1 (z1.imp_right (zero_of_reread hq1)), rounded7_of hq2 (z2.imp_right (zero_of_reread hq2))⟩

/-! ## C20 -/

/-- The header of a written file holds no data line: always for the plain header (`__file__` is one line), for
the SWMF header provided no line of the file name is a data line. -/
def HeaderHarmless (U : Digits) (srcPath fileName : Text) (swmf : Bool) : Prop :=
  if swmf then FileRecords U fileName [] else NoBreak srcPath

private theorem recs_written {U : Digits} (src fn : Text) (swmf : Bool) (h : HeaderHarmless U src fn swmf)
    (dm : ℤ) (rest : Text) : recs U (headerText src fn dm swmf ++ rest) = recs U rest := by
  cases swmf with
  | false => exact recs_header_plain src fn dm h rest
  | true =>
    rw [recs_header_swmf, (fileRecords_iff _ _).1 h]; rfl

private theorem write_read (src fn : Text) (s : Coefs PyComplex) (dmo : Option ℤ) (om : ℤ) (swmf : Bool)
    (hs : WellFormed s) (hcol : s.dflt ≠ []) (hwin : ∃ l m, InWindow (dmo.getD s.degreeMax) om l m)
    (hfin : ∀ l m, InWindow (dmo.getD s.degreeMax) om l m → ∀ z ∈ valueAt s l m, IsFinite z.1 ∧ IsFinite z.2)
    (hhead : HeaderHarmless E.digits src fn swmf) :
    ∃ r, writeMagnetogram src fn s dmo om swmf
        = .ok (headerText src fn (dmo.getD s.degreeMax) swmf ++ bodyText s (dmo.getD s.degreeMax) om) ∧
      readMagnetogram E (headerText src fn (dmo.getD s.degreeMax) swmf ++ bodyText s (dmo.getD s.degreeMax) om) = .ok r ∧
      r.WF ∧ r.dflt = List.replicate s.dflt.length zeroJ ∧
      (∀ k, k ∈ r.keys ↔ k ∈ winList (dmo.getD s.degreeMax) om) ∧
      ∀ k ∈ winList (dmo.getD s.degreeMax) om, r.getI k = (s.getI k).map (backOf E) := by
  obtain ⟨l0, m0, h0⟩ := hwin
  have hw : winList (dmo.getD s.degreeMax) om ≠ [] :=
    List.ne_nil_of_mem ((mem_winList _ _ _ _).2 h0)
  have hwf := WF_of_wellFormed hs
  obtain ⟨r, h⟩ := read_back E s hwf hcol _ om hw
    (headerText src fn (dmo.getD s.degreeMax) swmf ++ bodyText s (dmo.getD s.degreeMax) om) (by
      rw [recs_written src fn swmf hhead, recs_body]
      intro i hi k hk
      have hmem : comp s i k ∈ valueAt s k.1 k.2 := by
        change (s.getI k).getD i zeroJ ∈ s.getI k
        rw [List.getD_eq_getElem _ _ (by rw [hwf.getI_length]; exact hi)]
        exact List.getElem_mem _
      have := hfin k.1 k.2 ((mem_winList _ _ _ _).1 hk) _ hmem
      exact ⟨isFinite_mag this.1, isFinite_mag this.2⟩)
  exact ⟨r, write_ok hwf hcol src fn dmo om swmf hw, h⟩

/-- **C20.** Writing a set of finite coefficients and reading the file back gives a set with the same columns,
holding exactly the pairs of the written window, whose components are the doubles nearest to the seven-digit
decimals nearest to the original components. -/
theorem C20_write_read (src fn : Text) (s : Coefs PyComplex) (dmo : Option ℤ) (om : ℤ) (swmf : Bool)
    (hs : WellFormed s) (hcol : s.dflt ≠ []) (hwin : ∃ l m, InWindow (dmo.getD s.degreeMax) om l m)
    (hfin : ∀ l m, InWindow (dmo.getD s.degreeMax) om l m → ∀ z ∈ valueAt s l m, IsFinite z.1 ∧ IsFinite z.2)
    (hhead : HeaderHarmless E.digits src fn swmf) :
    ∃ text r, writeMagnetogram src fn s dmo om swmf = .ok text ∧ readMagnetogram E text = .ok r ∧
      WellFormed r ∧ r.dflt = List.replicate s.dflt.length zeroJ ∧
      (∀ l m : ℤ, r.has (.int l) (.int m) = true ↔ InWindow (dmo.getD s.degreeMax) om l m) ∧
      ∀ l m, InWindow (dmo.getD s.degreeMax) om l m →
        List.Forall₂ (fun z z' => Rounded7 z.1 z'.1 ∧ Rounded7 z.2 z'.2) (valueAt s l m) (valueAt r l m) := by
  obtain ⟨r, h1, h2, h3, h4, h5, h6⟩ := write_read E src fn s dmo om swmf hs hcol hwin hfin hhead
  refine ⟨_, r, h1, h2, wellFormed_of_WF h3, h4, ?_, ?_⟩
  · intro l m
    rw [has_int, h5, mem_winList]
  · intro l m hlm
    have hv : valueAt r l m = (valueAt s l m).map (backOf E) := h6 (l, m) ((mem_winList _ _ _ _).2 hlm)
    rw [hv]
    have hf := hfin l m hlm
    generalize valueAt s l m = v at hf
    induction v with
    | nil => exact .nil
    | cons z v ih =>
      have := hf z List.mem_cons_self
      exact .cons (rounded_back E this.1 this.2) (ih (fun z hz => hf z (List.mem_cons_of_mem _ hz)))

/-! ## C21 -/

private theorem fmtE_congr {neg : Bool} {q q' : ℚ} (h : dec7 q' = dec7 q) : fmtE (.fin neg q') = fmtE (.fin neg q) := by
  simp only [fmtE, h]

/-- Not the float -0.0. -/
def NotNegZero (x : PyFloat) : Prop := x ≠ .fin true 0

private theorem fmtE_back {z : PyComplex} (h1 : IsFinite z.1) (h2 : IsFinite z.2) (n1 : NotNegZero z.1) (n2 : NotNegZero z.2) :
    fmtE (backOf E z).1 = fmtE z.1 ∧ fmtE (backOf E z).2 = fmtE z.2 := by
  obtain ⟨a, b⟩ := z
  obtain ⟨s1, q1, rfl, hq1⟩ := isFinite_cases h1
  obtain ⟨s2, q2, rfl, hq2⟩ := isFinite_cases h2
  have key : ∀ (s b : Bool) (q : ℚ), NotNegZero (.fin s q) → IsDouble q →
      (PyFloat.fin s (fl0 (decVal (dec7 q)))).addZero b = .fin s (fl0 (decVal (dec7 q))) := by
    intro s b q hn hq
    simp only [PyFloat.addZero]
    split_ifs with h0
    · have hq0 := zero_of_reread hq h0
      subst hq0
      rw [h0]
      cases s
      · rfl
      · exact absurd rfl hn
    · rfl
  simp only [backOf, reread_fin hq1, reread_fin hq2, PyFloat.complexOf, key s1 s2 q1 n1 hq1, key s2 false q2 n2 hq2,
    ite_self]
  exact ⟨fmtE_congr (dec7_fl0_dec7 hq1), fmtE_congr (dec7_fl0_dec7 hq2)⟩

private theorem body_congr {s r : Coefs PyComplex} (dm om : ℤ) (hd : r.dflt.length = s.dflt.length)
    (h : ∀ k ∈ winList dm om, ∀ i < s.dflt.length, dataLine k.1 k.2 (comp r i k) = dataLine k.1 k.2 (comp s i k)) :
    bodyText r dm om = bodyText s dm om := by
  rw [bodyText, bodyText, hd]
  refine List.flatMap_congr fun i hi => List.flatMap_congr fun k hk => ?_
  rw [h k hk i (List.mem_range.1 hi)]

private theorem degreeMax_back {r : Coefs PyComplex} (hr : r.WF) {dm om : ℤ} (hw : winList dm om ≠ [])
    (hk : ∀ k, k ∈ r.keys ↔ k ∈ winList dm om) : r.degreeMax = dm := by
  obtain ⟨⟨l, m⟩, hlm⟩ := List.exists_mem_of_ne_nil _ hw
  have h0 := (mem_winList dm om l m).1 hlm
  have hm : InWindow dm om dm m := by
    obtain ⟨a, b, c, d⟩ := h0
    rw [abs_le] at c
    refine ⟨by omega, le_refl _, ?_, d⟩
    rw [abs_le]; omega
  have h1 := hr.degUpper (dm, m) ((hk _).2 ((mem_winList _ _ _ _).2 hm))
  rcases hr.degAttained with ⟨h2, _⟩ | ⟨k, hk2, hk3⟩
  · have := (hk (l, m)).2 hlm
    rw [h2] at this; cases this
  · have := ((mem_winList dm om k.1 k.2).1 ((hk k).1 hk2)).2.1
    simp only at h1
    omega

/-- **C21.** Writing what was read from a written file reproduces the file byte for byte (same limits and header;
the degree limit may also be left out), if no written component is -0.0. -/
theorem C21_second_write (src fn : Text) (s : Coefs PyComplex) (dmo : Option ℤ) (om : ℤ) (swmf : Bool)
    (hs : WellFormed s) (hcol : s.dflt ≠ []) (hwin : ∃ l m, InWindow (dmo.getD s.degreeMax) om l m)
    (hfin : ∀ l m, InWindow (dmo.getD s.degreeMax) om l m → ∀ z ∈ valueAt s l m, IsFinite z.1 ∧ IsFinite z.2)
    (hzero : ∀ l m, InWindow (dmo.getD s.degreeMax) om l m → ∀ z ∈ valueAt s l m, NotNegZero z.1 ∧ NotNegZero z.2)
    (hhead : HeaderHarmless E.digits src fn swmf) :
    ∃ text r, writeMagnetogram src fn s dmo om swmf = .ok text ∧ readMagnetogram E text = .ok r ∧
      writeMagnetogram src fn r dmo om swmf = .ok text ∧ writeMagnetogram src fn r none om swmf = .ok text := by
  obtain ⟨r, h1, h2, h3, h4, h5, h6⟩ := write_read E src fn s dmo om swmf hs hcol hwin hfin hhead
  have hwf := WF_of_wellFormed hs
  have hw : winList (dmo.getD s.degreeMax) om ≠ [] := by
    obtain ⟨l0, m0, h0⟩ := hwin
    exact List.ne_nil_of_mem ((mem_winList _ _ _ _).2 h0)
  have hdm := degreeMax_back h3 hw h5
  have hd : r.dflt.length = s.dflt.length := by rw [h4, List.length_replicate]
  have hrc : r.dflt ≠ [] := by
    intro h; rw [h] at hd; exact hcol (List.length_eq_zero_iff.1 hd.symm)
  have hb : bodyText r (dmo.getD s.degreeMax) om = bodyText s (dmo.getD s.degreeMax) om := by
    refine body_congr _ _ hd fun k hk i hi => ?_
    have hmem : comp s i k ∈ valueAt s k.1 k.2 := by
      change (s.getI k).getD i zeroJ ∈ s.getI k
      rw [List.getD_eq_getElem _ _ (by rw [hwf.getI_length]; exact hi)]
      exact List.getElem_mem _
    have hc : comp r i k = backOf E (comp s i k) := by
      have hi' : i < (s.getI k).length := by rw [hwf.getI_length]; exact hi
      unfold comp
      rw [h6 k hk, List.getD_eq_getElem _ _ (by simpa using hi'), List.getD_eq_getElem _ _ hi', List.getElem_map]
    have hin := (mem_winList _ _ _ _).1 hk
    have f := hfin k.1 k.2 hin _ hmem
    have z := hzero k.1 k.2 hin _ hmem
    obtain ⟨e1, e2⟩ := fmtE_back E f.1 f.2 z.1 z.2
    rw [hc, dataLine, dataLine, e1, e2]
  refine ⟨_, r, h1, h2, ?_, ?_⟩
  · have hdd : dmo.getD r.degreeMax = dmo.getD s.degreeMax := by
      cases dmo with
      | none => exact hdm
      | some d => rfl
    have := write_ok h3 hrc src fn dmo om swmf (by rw [hdd]; exact hw)
    rw [this, hdd, hb]
  · have := write_ok h3 hrc src fn none om swmf (by rw [Option.getD_none, hdm]; exact hw)
    rw [this, Option.getD_none, hdm, hb]

/-- The set with the single coefficient -0.0 + 1.0j. -/
def negZeroSet : Coefs PyComplex := ⟨[zeroJ], .cplx, [((0, 0), [(.fin true 0, .fin false 1)])], 0, 0⟩

theorem negZeroSet_wellFormed : WellFormed negZeroSet := by
  have h : negZeroSet = (Coefs.new [zeroJ] .cplx).stored 0 0 [(.fin true 0, .fin false 1)] := by decide +kernel
  rw [h]
  exact wellFormed_of_WF (Col.new.append_ok (by simp [Coefs.new, Coefs.keys]) (by norm_num) _).2.wf

private theorem one_isFinite : IsFinite (.fin false 1) := ⟨false, 1, 0, by norm_num, by norm_num, by norm_num, by simp⟩
private theorem zero_isFinite (neg : Bool) : IsFinite (.fin neg 0) :=
  ⟨neg, 0, 0, by norm_num, by norm_num, by norm_num, by simp⟩

theorem negZeroSet_finite (l m : ℤ) : ∀ z ∈ valueAt negZeroSet l m, IsFinite z.1 ∧ IsFinite z.2 := by
  intro z hz
  change z ∈ negZeroSet.getI (l, m) at hz
  by_cases h : ((0, 0) : Key) = (l, m)
  · rw [← h] at hz
    have : negZeroSet.getI (0, 0) = [(.fin true 0, .fin false 1)] := by decide +kernel
    rw [this] at hz
    simp only [List.mem_singleton] at hz
    subst hz
    exact ⟨zero_isFinite _, one_isFinite⟩
  · rw [getI_of_not_mem _ _ (by
      simp only [negZeroSet, Coefs.keys, List.map_cons, List.map_nil, List.mem_singleton]
      exact fun h' => h h'.symm)] at hz
    simp only [negZeroSet, List.mem_singleton] at hz
    subst hz
    exact ⟨zero_isFinite _, zero_isFinite _⟩

/-- **C21.** The restriction is needed: a real part -0.0 with a positive imaginary part loses its sign, in every
python version, so the second file differs from the first. -/
theorem C21_negative_zero_lost : ∃ text r text', WellFormed negZeroSet ∧
    writeMagnetogram [] [] negZeroSet = .ok text ∧ readMagnetogram E text = .ok r ∧
    writeMagnetogram [] [] r = .ok text' ∧ text' ≠ text := by
  obtain ⟨r, h1, h2, h3, h4, h5, h6⟩ := write_read E [] [] negZeroSet none 0 false negZeroSet_wellFormed
    (by simp [negZeroSet]) ⟨0, 0, by simp [InWindow, negZeroSet]⟩ (fun l m _ => negZeroSet_finite l m)
    (by show NoBreak []; simp [NoBreak])
  have hw : winList 0 0 = [(0, 0)] := by decide +kernel
  have h5' : ∀ k, k ∈ r.keys ↔ k ∈ winList 0 0 := h5
  have hdm := degreeMax_back h3 (by rw [hw]; simp) h5'
  have hrd : r.dflt = [zeroJ] := h4
  have hw2 := write_ok h3 (by rw [hrd]; simp) [] [] none 0 false (by rw [Option.getD_none, hdm, hw]; simp)
  refine ⟨_, r, _, negZeroSet_wellFormed, h1, h2, hw2, ?_⟩
  have hc : comp r 0 (0, 0) = (.fin false 0, .fin false 1) := by
    unfold comp
    have hm : ((0, 0) : Key) ∈ winList ((none : Option ℤ).getD negZeroSet.degreeMax) 0 := by
      change _ ∈ winList 0 0
      rw [hw]; simp
    rw [h6 (0, 0) hm, show negZeroSet.getI (0, 0) = [(.fin true 0, .fin false 1)] by decide +kernel]
    have hb : backOf E (.fin true 0, .fin false 1) = (.fin false 0, .fin false 1) := by
      unfold backOf
      cases E.mixed <;> decide +kernel
    rw [List.map_cons, hb]; rfl
  have hbr : bodyText r 0 0 = dataLine 0 0 (.fin false 0, .fin false 1) ++ ['\n'] := by
    rw [bodyText, hrd, hw, ← hc]; simp
  rw [Option.getD_none, hdm, hbr]
  decide +kernel

/-! ### The exact condition -/

/-- The signs of zeros in `z` survive writing and reading: an imaginary part -0.0 does so from python 3.14 on
(`newer`), a real part -0.0 when the imaginary part is negative or -0.0. -/
def SignsKept (newer : Bool) (z : PyComplex) : Prop :=
  (z.2 = .fin true 0 → newer = true) ∧ (z.1 = .fin true 0 → ∃ q, z.2 = .fin true q)

private theorem back_signs {z : PyComplex} (h1 : IsFinite z.1) (h2 : IsFinite z.2) :
    (SignsKept E.mixed z → fmtE (backOf E z).1 = fmtE z.1 ∧ fmtE (backOf E z).2 = fmtE z.2) ∧
    (reread (backOf E z).1 = reread z.1 → reread (backOf E z).2 = reread z.2 → SignsKept E.mixed z) := by
  obtain ⟨a, b⟩ := z
  obtain ⟨s1, q1, rfl, hq1⟩ := isFinite_cases h1
  obtain ⟨s2, q2, rfl, hq2⟩ := isFinite_cases h2
  have z0 : fl0 (decVal (dec7 0)) = 0 := by decide +kernel
  have hz : IsDouble 0 := (isFinite_fin (neg := false)).1 ⟨false, 0, 0, by norm_num, by norm_num, by norm_num, by simp⟩
  by_cases e1 : q1 = 0 <;> by_cases e2 : q2 = 0
  · subst e1 e2
    simp only [backOf, reread_fin hz, PyFloat.complexOf, PyFloat.addZero, z0, if_true, SignsKept]
    generalize E.mixed = mx
    cases s1 <;> cases s2 <;> cases mx <;> simp [reread_fin hz, z0]
  · subst e1
    have n2 : fl0 (decVal (dec7 q2)) ≠ 0 := fun h => e2 (zero_of_reread hq2 h)
    simp only [backOf, reread_fin hz, reread_fin hq2, PyFloat.complexOf, PyFloat.addZero, z0, if_true, if_neg n2, ite_self,
      SignsKept, fmtE_congr (dec7_fl0_dec7 hq2)]
    cases s1 <;> cases s2 <;> simp [reread_fin hz, z0, e2]
  · subst e2
    have n1 : fl0 (decVal (dec7 q1)) ≠ 0 := fun h => e1 (zero_of_reread hq1 h)
    simp only [backOf, reread_fin hz, reread_fin hq1, PyFloat.complexOf, PyFloat.addZero, z0, if_true, if_neg n1,
      SignsKept, fmtE_congr (dec7_fl0_dec7 hq1)]
    generalize E.mixed = mx
    cases s2 <;> cases mx <;> simp [reread_fin hz, z0, e1]
  · have n1 : fl0 (decVal (dec7 q1)) ≠ 0 := fun h => e1 (zero_of_reread hq1 h)
    have n2 : fl0 (decVal (dec7 q2)) ≠ 0 := fun h => e2 (zero_of_reread hq2 h)
    simp only [backOf, reread_fin hq2, reread_fin hq1, PyFloat.complexOf, PyFloat.addZero, if_neg n1, if_neg n2, ite_self,
      SignsKept, fmtE_congr (dec7_fl0_dec7 hq1), fmtE_congr (dec7_fl0_dec7 hq2)]
    simp [e1, e2]

private theorem map_grid {α β γ : Type} {L : List α} {M : List β} {f g : α → β → γ}
    (h : (L.flatMap fun i => M.map fun k => f i k) = L.flatMap fun i => M.map fun k => g i k) :
    ∀ i ∈ L, ∀ k ∈ M, f i k = g i k := by
  induction L with
  | nil => simp
  | cons a L ih =>
    rw [List.flatMap_cons, List.flatMap_cons] at h
    obtain ⟨h1, h2⟩ := List.append_inj h (by simp)
    intro i hi k hk
    rcases List.mem_cons.1 hi with rfl | hi
    · exact List.map_inj_left.1 h1 k hk
    · exact ih h2 i hi k hk

/-- **C21.** Exactly when the second file is the first: when no sign of a zero is lost. -/
theorem C21_identical_iff (src fn : Text) (s : Coefs PyComplex) (dmo : Option ℤ) (om : ℤ) (swmf : Bool)
    (hs : WellFormed s) (hcol : s.dflt ≠ []) (hwin : ∃ l m, InWindow (dmo.getD s.degreeMax) om l m)
    (hfin : ∀ l m, InWindow (dmo.getD s.degreeMax) om l m → ∀ z ∈ valueAt s l m, IsFinite z.1 ∧ IsFinite z.2)
    (hhead : HeaderHarmless E.digits src fn swmf) :
    ∃ text r text', writeMagnetogram src fn s dmo om swmf = .ok text ∧ readMagnetogram E text = .ok r ∧
      writeMagnetogram src fn r dmo om swmf = .ok text' ∧
      (text' = text ↔ ∀ l m, InWindow (dmo.getD s.degreeMax) om l m → ∀ z ∈ valueAt s l m, SignsKept E.mixed z) := by
  obtain ⟨r, h1, h2, h3, h4, h5, h6⟩ := write_read E src fn s dmo om swmf hs hcol hwin hfin hhead
  have hwf := WF_of_wellFormed hs
  have hw : winList (dmo.getD s.degreeMax) om ≠ [] := by
    obtain ⟨l0, m0, h0⟩ := hwin
    exact List.ne_nil_of_mem ((mem_winList _ _ _ _).2 h0)
  have hdm := degreeMax_back h3 hw h5
  have hd : r.dflt.length = s.dflt.length := by rw [h4, List.length_replicate]
  have hrc : r.dflt ≠ [] := by
    intro h; rw [h] at hd; exact hcol (List.length_eq_zero_iff.1 hd.symm)
  have hdd : dmo.getD r.degreeMax = dmo.getD s.degreeMax := by
    cases dmo with
    | none => exact hdm
    | some d => rfl
  have hmem : ∀ k, ∀ i < s.dflt.length, comp s i k ∈ valueAt s k.1 k.2 := by
    intro k i hi
    change (s.getI k).getD i zeroJ ∈ s.getI k
    rw [List.getD_eq_getElem _ _ (by rw [hwf.getI_length]; exact hi)]
    exact List.getElem_mem _
  have hc : ∀ k ∈ winList (dmo.getD s.degreeMax) om, ∀ i < s.dflt.length, comp r i k = backOf E (comp s i k) := by
    intro k hk i hi
    have hi' : i < (s.getI k).length := by rw [hwf.getI_length]; exact hi
    unfold comp
    rw [h6 k hk, List.getD_eq_getElem _ _ (by simpa using hi'), List.getD_eq_getElem _ _ hi', List.getElem_map]
  have hw2 := write_ok h3 hrc src fn dmo om swmf (by rw [hdd]; exact hw)
  rw [hdd] at hw2
  refine ⟨_, r, _, h1, h2, hw2, ?_⟩
  rw [List.append_cancel_left_eq]
  constructor
  · intro hb l m hlm z hz
    have hk := (mem_winList _ _ _ _).2 hlm
    have hfs : ∀ i < s.dflt.length, ∀ k ∈ winList (dmo.getD s.degreeMax) om, Mag (comp s i k).1 ∧ Mag (comp s i k).2 := by
      intro i hi k hk
      have := hfin k.1 k.2 ((mem_winList _ _ _ _).1 hk) _ (hmem k i hi)
      exact ⟨isFinite_mag this.1, isFinite_mag this.2⟩
    have hfr : ∀ i < r.dflt.length, ∀ k ∈ winList (dmo.getD s.degreeMax) om, Mag (comp r i k).1 ∧ Mag (comp r i k).2 := by
      intro i hi k hk
      rw [hd] at hi
      have := hfin k.1 k.2 ((mem_winList _ _ _ _).1 hk) _ (hmem k i hi)
      obtain ⟨a, b⟩ := rounded_back E this.1 this.2
      rw [hc k hk i hi]
      exact ⟨isFinite_mag a.2.1, isFinite_mag b.2.1⟩
    have hr := congrArg (recs E.digits) hb
    rw [recs_body _ _ _ hfr, recs_body _ _ _ hfs, bodyBlocks, bodyBlocks, hd, ← List.flatMap_def, ← List.flatMap_def] at hr
    have hall := map_grid hr
    obtain ⟨i, hi, rfl⟩ : ∃ i < s.dflt.length, comp s i (l, m) = z := by
      obtain ⟨i, hi, rfl⟩ := List.getElem_of_mem hz
      have hi' : i < (s.getI (l, m)).length := hi
      refine ⟨i, by rwa [hwf.getI_length] at hi', ?_⟩
      unfold comp
      rw [List.getD_eq_getElem _ _ hi']; rfl
    have := hall i (List.mem_range.2 hi) (l, m) hk
    rw [hc _ hk i hi] at this
    simp only [Prod.mk.injEq] at this
    have f := hfin l m hlm _ (hmem (l, m) i hi)
    exact (back_signs E f.1 f.2).2 this.2.2.1 this.2.2.2
  · intro hz
    refine body_congr _ _ hd fun k hk i hi => ?_
    have hin := (mem_winList _ _ _ _).1 hk
    have f := hfin k.1 k.2 hin _ (hmem k i hi)
    obtain ⟨e1, e2⟩ := (back_signs E f.1 f.2).1 (hz k.1 k.2 hin _ (hmem k i hi))
    rw [hc k hk i hi, dataLine, dataLine, e1, e2]

/-- **C21.** In general the numbers are stable: a component of the second reading has the same value as the
component of the first reading, whatever the zeros. -/
theorem C21_values_stable (src fn : Text) (s : Coefs PyComplex) (dmo : Option ℤ) (om : ℤ) (swmf : Bool)
    (hs : WellFormed s) (hcol : s.dflt ≠ []) (hwin : ∃ l m, InWindow (dmo.getD s.degreeMax) om l m)
    (hfin : ∀ l m, InWindow (dmo.getD s.degreeMax) om l m → ∀ z ∈ valueAt s l m, IsFinite z.1 ∧ IsFinite z.2)
    (hhead : HeaderHarmless E.digits src fn swmf) :
    ∃ text r text' r', writeMagnetogram src fn s dmo om swmf = .ok text ∧ readMagnetogram E text = .ok r ∧
      writeMagnetogram src fn r dmo om swmf = .ok text' ∧ readMagnetogram E text' = .ok r' ∧
      r'.dflt = r.dflt ∧ (∀ l m : ℤ, r'.has (.int l) (.int m) = r.has (.int l) (.int m)) ∧
      ∀ l m, (valueAt r' l m).map (fun z => (value z.1, value z.2)) = (valueAt r l m).map fun z => (value z.1, value z.2) := by
  obtain ⟨r, h1, h2, h3, h4, h5, h6⟩ := write_read E src fn s dmo om swmf hs hcol hwin hfin hhead
  have hw : winList (dmo.getD s.degreeMax) om ≠ [] := by
    obtain ⟨l0, m0, h0⟩ := hwin
    exact List.ne_nil_of_mem ((mem_winList _ _ _ _).2 h0)
  have hdm := degreeMax_back h3 hw h5
  have hdd : dmo.getD r.degreeMax = dmo.getD s.degreeMax := by
    cases dmo with
    | none => exact hdm
    | some d => rfl
  have hd : r.dflt.length = s.dflt.length := by rw [h4, List.length_replicate]
  have hrc : r.dflt ≠ [] := by
    intro h; rw [h] at hd; exact hcol (List.length_eq_zero_iff.1 hd.symm)
  have hfin' : ∀ l m, InWindow (dmo.getD r.degreeMax) om l m → ∀ z ∈ valueAt r l m, IsFinite z.1 ∧ IsFinite z.2 := by
    intro l m hlm z hz
    rw [hdd] at hlm
    change z ∈ r.getI (l, m) at hz
    rw [h6 (l, m) ((mem_winList _ _ _ _).2 hlm)] at hz
    obtain ⟨w, hw', rfl⟩ := List.mem_map.1 hz
    have := hfin l m hlm w hw'
    obtain ⟨a, b⟩ := rounded_back E this.1 this.2
    exact ⟨a.2.1, b.2.1⟩
  obtain ⟨r', g1, g2, g3, g4, g5, g6⟩ := write_read E src fn r dmo om swmf (wellFormed_of_WF h3) hrc
    (by rw [hdd]; exact hwin) hfin' hhead
  rw [hdd] at g5 g6
  refine ⟨_, r, _, r', h1, h2, g1, g2, by rw [g4, h4, List.length_replicate], ?_, ?_⟩
  · intro l m
    rw [Bool.eq_iff_iff, has_int, has_int, g5, h5]
  · intro l m
    change (r'.getI (l, m)).map _ = (r.getI (l, m)).map _
    by_cases hk : (l, m) ∈ winList (dmo.getD s.degreeMax) om
    · rw [g6 _ hk, h6 _ hk, List.map_map, List.map_map, List.map_map]
      refine List.map_congr_left fun z hz => ?_
      have hf := hfin l m ((mem_winList _ _ _ _).1 hk) z hz
      obtain ⟨a, b⟩ := z
      obtain ⟨s1, q1, rfl, hq1⟩ := isFinite_cases hf.1
      obtain ⟨s2, q2, rfl, hq2⟩ := isFinite_cases hf.2
      have key : ∀ (s1 s2 : Bool) (q1 q2 : ℚ), IsDouble q1 → IsDouble q2 →
          ∃ t1 t2, backOf E (.fin s1 q1, .fin s2 q2) = (.fin t1 (fl0 (decVal (dec7 q1))), .fin t2 (fl0 (decVal (dec7 q2))))
            ∧ (t1 = s1 ∨ fl0 (decVal (dec7 q1)) = 0) ∧ (t2 = s2 ∨ fl0 (decVal (dec7 q2)) = 0) := by
        intro s1 s2 q1 q2 hq1 hq2
        obtain ⟨n1', n2', e, z1, z2⟩ := complexOf_fin E.mixed s1 s2 (fl0 (decVal (dec7 q1))) (fl0 (decVal (dec7 q2)))
        exact ⟨n1', n2', by simp only [backOf, reread_fin hq1, reread_fin hq2, e], z1, z2⟩
      obtain ⟨t1, t2, e1, y1, y2⟩ := key s1 s2 q1 q2 hq1 hq2
      obtain ⟨u1, u2, e2, x1, x2⟩ := key t1 t2 _ _ (fl0_dec7_isDouble hq1) (fl0_dec7_isDouble hq2)
      simp only [Function.comp, e1, e2, dec7_fl0_dec7 hq1, dec7_fl0_dec7 hq2]
      rw [dec7_fl0_dec7 hq1] at x1
      rw [dec7_fl0_dec7 hq2] at x2
      have hv : ∀ (a b : Bool) (q : ℚ), (a = b ∨ q = 0) → value (.fin a q) = value (.fin b q) := by
        rintro a b q (rfl | rfl)
        · rfl
        · rw [value_fin, value_fin]; simp
      rw [hv _ _ _ x1, hv _ _ _ x2]
    · rw [getI_of_not_mem _ _ (fun h => hk ((g5 _).1 h)), getI_of_not_mem _ _ (fun h => hk ((h5 _).1 h)), g4, h4,
        List.length_replicate]

/-! ## C22 -/

/-- **C22.** Writing raises exactly when the window is empty (ValueError) or the set has no columns (ZeroDivisionError). -/
theorem C22_write_raises_iff (src fn : Text) (s : Coefs PyComplex) (dmo : Option ℤ) (om : ℤ) (swmf : Bool)
    (hs : WellFormed s) :
    ((∃ e, writeMagnetogram src fn s dmo om swmf = .error e) ↔
      (s.dflt = [] ∨ ¬ ∃ l m, InWindow (dmo.getD s.degreeMax) om l m)) ∧
    ∀ e, writeMagnetogram src fn s dmo om swmf = .error e → e = if s.dflt = [] then .zeroDiv else .value := by
  have hwf := WF_of_wellFormed hs
  have hwin : winList (dmo.getD s.degreeMax) om = [] ↔ ¬ ∃ l m, InWindow (dmo.getD s.degreeMax) om l m := by
    rw [List.eq_nil_iff_forall_not_mem]
    constructor
    · rintro h ⟨l, m, h1⟩; exact h (l, m) ((mem_winList _ _ _ _).2 h1)
    · rintro h ⟨l, m⟩ h1; exact h ⟨l, m, (mem_winList _ _ _ _).1 h1⟩
  rw [← hwin]
  by_cases h : s.dflt = [] ∨ winList (dmo.getD s.degreeMax) om = []
  · have := write_error hwf src fn dmo om swmf h
    refine ⟨⟨fun _ => h, fun _ => ⟨_, this⟩⟩, ?_⟩
    intro e he; rw [this] at he; cases he; rfl
  · rw [not_or] at h
    have := write_ok hwf h.1 src fn dmo om swmf h.2
    refine ⟨⟨?_, fun h' => absurd h' (by rw [not_or]; exact h)⟩, ?_⟩
    · rintro ⟨e, he⟩; rw [this] at he; cases he
    · intro e he; rw [this] at he; cases he

/-- **C22.** Otherwise the file is the header followed, column after column, by one line for every pair of the
window in lexicographic order, stored or not, printed as `%3d  %3d  %13e  %13e`. Pairs outside the window are
dropped. -/
theorem C22_text (src fn : Text) (s : Coefs PyComplex) (dmo : Option ℤ) (om : ℤ) (swmf : Bool)
    (hs : WellFormed s) (hcol : s.dflt ≠ []) (win : List (ℤ × ℤ)) (hne : win ≠ []) (hsorted : win.Pairwise LexLt)
    (hwin : ∀ l m, (l, m) ∈ win ↔ InWindow (dmo.getD s.degreeMax) om l m) :
    ∃ header, writeMagnetogram src fn s dmo om swmf = .ok (header ++
      (List.range s.dflt.length).flatMap fun i => win.flatMap fun k =>
        dataLine k.1 k.2 ((valueAt s k.1 k.2).getD i zeroJ) ++ ['\n']) ∧
      header = if swmf then
          fn ++ "\n0  0.0  -2  3  2\n1  1\n".toList ++ intText (dmo.getD s.degreeMax)
            ++ "  0  0.0\nn  m  g  h  nOrder  CR  dLon\n".toList
        else "Output of ".toList ++ src ++ "\nOrder:".toList ++ intText (dmo.getD s.degreeMax) ++ "\n".toList := by
  have hwf := WF_of_wellFormed hs
  have hw : win = winList (dmo.getD s.degreeMax) om := sorted_unique hsorted (winList_sorted _ _)
    (fun x => (hwin x.1 x.2).trans (mem_winList _ _ _ _).symm)
  subst hw
  exact ⟨_, write_ok hwf hcol src fn dmo om swmf hne, rfl⟩

/-- **C22.** The records found in the file are, column after column, one for every pair of the window in
lexicographic order, with the rounded values of `get`, which for unset pairs are those of the default. -/
theorem C22_records (U : Digits) (src fn : Text) (s : Coefs PyComplex) (dmo : Option ℤ) (om : ℤ) (swmf : Bool)
    (hs : WellFormed s) (hcol : s.dflt ≠ []) (win : List (ℤ × ℤ)) (hne : win ≠ []) (hsorted : win.Pairwise LexLt)
    (hwin : ∀ l m, (l, m) ∈ win ↔ InWindow (dmo.getD s.degreeMax) om l m)
    (hfin : ∀ l m, InWindow (dmo.getD s.degreeMax) om l m → ∀ z ∈ valueAt s l m, IsFinite z.1 ∧ IsFinite z.2)
    (hhead : HeaderHarmless U src fn swmf) :
    ∃ text rs, writeMagnetogram src fn s dmo om swmf = .ok text ∧ FileRecords U text rs ∧
      List.Forall₂ (fun (ik : ℕ × (ℤ × ℤ)) (r : Rec) => (r.1, r.2.1) = ik.2 ∧
        Rounded7 ((valueAt s ik.2.1 ik.2.2).getD ik.1 zeroJ).1 r.2.2.1 ∧
        Rounded7 ((valueAt s ik.2.1 ik.2.2).getD ik.1 zeroJ).2 r.2.2.2)
      ((List.range s.dflt.length).flatMap fun i => win.map fun k => (i, k)) rs := by
  have hwf := WF_of_wellFormed hs
  have hw : win = winList (dmo.getD s.degreeMax) om := sorted_unique hsorted (winList_sorted _ _)
    (fun x => (hwin x.1 x.2).trans (mem_winList _ _ _ _).symm)
  subst hw
  have hf : ∀ i < s.dflt.length, ∀ k ∈ winList (dmo.getD s.degreeMax) om,
      IsFinite (comp s i k).1 ∧ IsFinite (comp s i k).2 := by
    intro i hi k hk
    have hmem : comp s i k ∈ valueAt s k.1 k.2 := by
      change (s.getI k).getD i zeroJ ∈ s.getI k
      rw [List.getD_eq_getElem _ _ (by rw [hwf.getI_length]; exact hi)]
      exact List.getElem_mem _
    exact hfin k.1 k.2 ((mem_winList _ _ _ _).1 hk) _ hmem
  refine ⟨_, (bodyBlocks s (dmo.getD s.degreeMax) om).flatten, write_ok hwf hcol src fn dmo om swmf hne, ?_, ?_⟩
  · rw [fileRecords_iff, recs_written src fn swmf hhead, recs_body]
    intro i hi k hk
    exact ⟨isFinite_mag (hf i hi k hk).1, isFinite_mag (hf i hi k hk).2⟩
  · rw [List.flatMap_def, bodyBlocks]
    have hrr : ∀ {x : PyFloat}, IsFinite x → Rounded7 x (reread x) := by
      intro x hx
      obtain ⟨neg, q, rfl, hq⟩ := isFinite_cases hx
      rw [reread_fin hq]; exact rounded7_of hq (Or.inl rfl)
    have hf' : ∀ i ∈ List.range s.dflt.length, i < s.dflt.length := fun i hi => List.mem_range.1 hi
    generalize List.range s.dflt.length = is at hf'
    induction is with
    | nil => exact .nil
    | cons i is ih =>
      rw [List.map_cons, List.map_cons, List.flatten_cons, List.flatten_cons]
      refine List.rel_append ?_ (ih fun j hj => hf' j (List.mem_cons_of_mem _ hj))
      rw [List.forall₂_map_left_iff, List.forall₂_map_right_iff, List.forall₂_same]
      intro k hk
      have := hf i (hf' i List.mem_cons_self) k hk
      exact ⟨rfl, hrr this.1, hrr this.2⟩

/-! ## C23 -/

/-- Number of data lines of a file with SWMF header, as announced on its third line. -/
def AnnouncedCount (text : Text) (n : ℕ) : Prop :=
  ∃ l1 l2 rest, NoBreak l1 ∧ NoBreak l2 ∧ text = l1 ++ '\n' :: l2 ++ '\n' :: natText n ++ "  1\n".toList ++ rest

/-- **C23** (violated). The SWMF header of every file written announces one data line. -/
theorem C23_header_always_one (fn : Text) (hfn : NoBreak fn) (src : Text) (s : Coefs PyComplex) (dmo : Option ℤ) (om : ℤ)
    (hs : WellFormed s) (text : Text) (h : writeMagnetogram src fn s dmo om true = .ok text) :
    AnnouncedCount text 1 := by
  have hwf := WF_of_wellFormed hs
  by_cases hc : s.dflt = [] ∨ winList (dmo.getD s.degreeMax) om = []
  · rw [write_error hwf src fn dmo om true hc] at h; cases h
  · rw [not_or] at hc
    rw [write_ok hwf hc.1 src fn dmo om true hc.2] at h
    cases h
    refine ⟨fn, "0  0.0  -2  3  2".toList, intText (dmo.getD s.degreeMax) ++
      "  0  0.0\nn  m  g  h  nOrder  CR  dLon\n".toList ++ bodyText s (dmo.getD s.degreeMax) om, hfn,
      (by have : ∀ c ∈ "0  0.0  -2  3  2".toList, c ≠ '\n' ∧ c ≠ '\r' := by decide
          exact this), ?_⟩
    rw [show natText 1 = ['1'] by decide +kernel]
    simp [headerText]

/-- **C23** (violated). So the announced number is wrong as soon as more than one data line is written: the file
written for two columns, or for a window of two pairs, holds more records than announced. -/
theorem C23_header_wrong (U : Digits) (fn : Text) (hfn : NoBreak fn) (hfn' : FileRecords U fn []) (src : Text)
    (s : Coefs PyComplex) (dmo : Option ℤ) (om : ℤ) (hs : WellFormed s) (hcol : s.dflt ≠ [])
    (hfin : ∀ l m, ∀ z ∈ valueAt s l m, IsFinite z.1 ∧ IsFinite z.2)
    (l m l' m' : ℤ) (hne : (l, m) ≠ (l', m')) (h : InWindow (dmo.getD s.degreeMax) om l m)
    (h' : InWindow (dmo.getD s.degreeMax) om l' m') :
    ∃ text rs, writeMagnetogram src fn s dmo om true = .ok text ∧ FileRecords U text rs ∧
      AnnouncedCount text 1 ∧ 1 < rs.length := by
  obtain ⟨text, rs, h1, h2, h3⟩ := C22_records U src fn s dmo om true hs hcol (winList (dmo.getD s.degreeMax) om)
    (List.ne_nil_of_mem ((mem_winList _ _ _ _).2 h)) (winList_sorted _ _) (fun l m => mem_winList _ _ _ _)
    (fun l m _ => hfin l m) hfn'
  refine ⟨text, rs, h1, h2, C23_header_always_one fn hfn src s dmo om hs text h1, ?_⟩
  rw [← h3.length_eq]
  obtain ⟨n, hn⟩ : ∃ n, s.dflt.length = n + 1 := by
    cases h : s.dflt with
    | nil => exact absurd h hcol
    | cons a l => exact ⟨l.length, by simp⟩
  rw [hn, List.range_succ_eq_map, List.flatMap_cons, List.length_append, List.length_map]
  have h2' : 2 ≤ (winList (dmo.getD s.degreeMax) om).length := by
    have ha := (mem_winList _ _ _ _).2 h
    have hb := (mem_winList _ _ _ _).2 h'
    by_contra hlt
    match hL : winList (dmo.getD s.degreeMax) om with
    | [] => rw [hL] at ha; cases ha
    | [x] =>
      rw [hL] at ha hb
      simp only [List.mem_singleton] at ha hb
      exact hne (ha.trans hb.symm)
    | x :: y :: t => rw [hL] at hlt; simp at hlt
  omega

/-- **C23**, what does hold: the announced number is right when one column and one pair are written. (The full
statement, `AnnouncedCount text rs.length` for every written file, fails: `C23_header_wrong`.) -/
theorem C23_header_count_partial (U : Digits) (fn : Text) (hfn : NoBreak fn) (hfn' : FileRecords U fn []) (src : Text)
    (s : Coefs PyComplex) (dmo : Option ℤ) (om : ℤ) (hs : WellFormed s) (hcol : s.dflt.length = 1)
    (hfin : ∀ l m, ∀ z ∈ valueAt s l m, IsFinite z.1 ∧ IsFinite z.2)
    (l m : ℤ) (h : ∀ l' m', InWindow (dmo.getD s.degreeMax) om l' m' ↔ (l', m') = (l, m)) :
    ∃ text rs, writeMagnetogram src fn s dmo om true = .ok text ∧ FileRecords U text rs ∧
      AnnouncedCount text rs.length := by
  obtain ⟨text, rs, h1, h2, h3⟩ := C22_records U src fn s dmo om true hs (by intro h; rw [h] at hcol; cases hcol)
    [(l, m)] (by simp) (by simp) (by intro l' m'; rw [h, List.mem_singleton]) (fun l m _ => hfin l m) hfn'
  refine ⟨text, rs, h1, h2, ?_⟩
  rw [← h3.length_eq, hcol]
  exact C23_header_always_one fn hfn src s dmo om hs text h1

private theorem cut_at {c : Char} {a b a' b' : Text} (h : a ++ c :: b = a' ++ c :: b') (ha : c ∉ a) (ha' : c ∉ a') :
    a = a' ∧ b = b' := by
  induction a generalizing a' with
  | nil =>
    cases a' with
    | nil => simpa using h
    | cons x a' => simp only [List.nil_append, List.cons_append, List.cons.injEq] at h; exact absurd (by simp [h.1]) ha'
  | cons x a ih =>
    cases a' with
    | nil => simp only [List.nil_append, List.cons_append, List.cons.injEq] at h; exact absurd (by simp [h.1]) ha
    | cons y a' =>
      simp only [List.cons_append, List.cons.injEq] at h
      obtain ⟨e1, e2⟩ := ih h.2 (fun h => ha (List.mem_cons_of_mem _ h)) (fun h => ha' (List.mem_cons_of_mem _ h))
      exact ⟨by rw [h.1, e1], e2⟩

private theorem announced_unique {text : Text} {n m : ℕ} (h : AnnouncedCount text n) (h' : AnnouncedCount text m) : n = m := by
  obtain ⟨l1, l2, r, a1, a2, rfl⟩ := h
  obtain ⟨k1, k2, r', b1, b2, e⟩ := h'
  simp only [List.append_assoc, List.cons_append] at e
  have e1 := cut_at e (fun h => (a1 _ h).1 rfl) (fun h => (b1 _ h).1 rfl)
  have e2 := cut_at e1.2 (fun h => (a2 _ h).1 rfl) (fun h => (b2 _ h).1 rfl)
  have hsp : ∀ k : ℕ, ' ' ∉ natText k := by
    intro k hk
    obtain ⟨ds, e, -, h2, -⟩ := natText_spec k
    have := noSpace_digits ds h2
    rw [← e] at this
    exact absurd (this _ hk) (by decide)
  have e3 := (cut_at (c := ' ') e2.2 (hsp n) (hsp m)).1
  have := congrArg (parseInt Digits.asciiOnly) e3
  rw [parseInt_natText, parseInt_natText] at this
  simpa using this

/-- **C23** (violated), exactly: the announced number is right if and only if the set has one column and one pair is
written. In general there is a line for every column and every pair of the window. -/
theorem C23_header_iff (U : Digits) (fn : Text) (hfn : NoBreak fn) (hfn' : FileRecords U fn []) (src : Text)
    (s : Coefs PyComplex) (dmo : Option ℤ) (om : ℤ) (hs : WellFormed s) (hcol : s.dflt ≠ [])
    (hfin : ∀ l m, InWindow (dmo.getD s.degreeMax) om l m → ∀ z ∈ valueAt s l m, IsFinite z.1 ∧ IsFinite z.2)
    (win : Finset (ℤ × ℤ)) (hwin : ∀ l m, (l, m) ∈ win ↔ InWindow (dmo.getD s.degreeMax) om l m) (hne : win.Nonempty) :
    ∃ text rs, writeMagnetogram src fn s dmo om true = .ok text ∧ FileRecords U text rs ∧
      rs.length = s.dflt.length * win.card ∧ (AnnouncedCount text rs.length ↔ s.dflt.length = 1 ∧ win.card = 1) := by
  have hw : (winList (dmo.getD s.degreeMax) om).toFinset = win := by
    ext ⟨l, m⟩; rw [List.mem_toFinset, mem_winList, hwin]
  have hcard : (winList (dmo.getD s.degreeMax) om).length = win.card := by
    rw [← hw, List.toFinset_card_of_nodup]
    exact (winList_sorted _ _).imp fun h e => by subst e; exact absurd h (by simp [LexLt])
  obtain ⟨⟨l, m⟩, hlm⟩ := hne
  obtain ⟨text, rs, h1, h2, h3⟩ := C22_records U src fn s dmo om true hs hcol (winList (dmo.getD s.degreeMax) om)
    (List.ne_nil_of_mem ((mem_winList _ _ _ _).2 ((hwin l m).1 hlm))) (winList_sorted _ _) (fun l m => mem_winList _ _ _ _)
    hfin hfn'
  have hlen : rs.length = s.dflt.length * win.card := by
    rw [← h3.length_eq, List.length_flatMap]
    simp [hcard]
  refine ⟨text, rs, h1, h2, hlen, ?_⟩
  have h4 := C23_header_always_one fn hfn src s dmo om hs text h1
  constructor
  · intro h
    have := announced_unique h h4
    rw [hlen] at this
    simpa using this
  · rintro ⟨a, b⟩
    rw [hlen, a, b]; exact h4

/-! ## C24 -/

/-- **C24.** No header line is taken for data: the records of a written file are exactly those of its data part
(same file without header), provided `__file__` is a single line and, with SWMF header, no line of the file name
is a data line. -/
theorem C24_header_not_data (U : Digits) (src fn : Text) (s : Coefs PyComplex) (dmo : Option ℤ) (om : ℤ) (swmf : Bool)
    (hs : WellFormed s) (hhead : HeaderHarmless U src fn swmf) (text : Text)
    (h : writeMagnetogram src fn s dmo om swmf = .ok text) :
    ∃ header body, text = header ++ body ∧ AtLineStart header ∧ FileRecords U header [] ∧
      ∀ rs, FileRecords U text rs ↔ FileRecords U body rs := by
  have hwf := WF_of_wellFormed hs
  by_cases hc : s.dflt = [] ∨ winList (dmo.getD s.degreeMax) om = []
  · rw [write_error hwf src fn dmo om swmf hc] at h; cases h
  · rw [not_or] at hc
    rw [write_ok hwf hc.1 src fn dmo om swmf hc.2] at h
    cases h
    refine ⟨_, _, rfl, ?_, ?_, ?_⟩
    · right
      cases swmf with
      | false => exact ⟨"Output of ".toList ++ src ++ "\nOrder:".toList ++ intText (dmo.getD s.degreeMax), '\n', rfl, Or.inl rfl⟩
      | true => exact ⟨fn ++ "\n0  0.0  -2  3  2\n1  1\n".toList ++ intText (dmo.getD s.degreeMax)
            ++ "  0  0.0\nn  m  g  h  nOrder  CR  dLon".toList, '\n', by simp [headerText], Or.inl rfl⟩
    · rw [fileRecords_iff]
      have := recs_written src fn swmf hhead (dmo.getD s.degreeMax) []
      rwa [List.append_nil, recs_nil] at this
    · intro rs
      rw [fileRecords_iff, fileRecords_iff, recs_written src fn swmf hhead]

/-- **C24.** The proviso is needed: the SWMF header repeats the file name, and a file called `1 0 2 3` is read
back with its name as first coefficient. -/
theorem C24_file_name_is_data :
    ∃ text r, writeMagnetogram [] "1 0 2 3".toList (Coefs.new [zeroJ] .cplx) none 0 true = .ok text ∧
      readMagnetogram demoEnv text = .ok r ∧ valueAt r 1 0 = [(.fin false 2, .fin false 3)] := by
  refine ⟨"1 0 2 3\n0  0.0  -2  3  2\n1  1\n0  0  0.0\nn  m  g  h  nOrder  CR  dLon\n  0    0   0.000000e+00   0.000000e+00\n".toList,
    ⟨[zeroJ], .cplx, [((1, 0), [(.fin false 2, .fin false 3)]), ((0, 0), [zeroJ])], 1, 0⟩, by decide +kernel,
    by decide +kernel, by decide +kernel⟩

end

/-! ### Non-vacuity -/

/-- A two-column set used below. -/
def demoSet : Coefs PyComplex :=
  ⟨[zeroJ, zeroJ], .cplx, [((1, 0), [(.fin false 1, .fin true (1 / 2)), zeroJ]),
    ((1, -1), [zeroJ, (.fin false (3 / 4), .fin false 2)])], 1, -1⟩

theorem demoSet_WF : demoSet.WF := by
  have h : demoSet = ((Coefs.new [zeroJ, zeroJ] .cplx).stored 1 0 [(.fin false 1, .fin true (1 / 2)), zeroJ]).stored 1 (-1)
      [zeroJ, (.fin false (3 / 4), .fin false 2)] := by decide +kernel
  rw [h]
  have h0 : (Coefs.new [zeroJ, zeroJ] .cplx).WF := new_WF _ _ (fun _ _ => rfl)
  exact (h0.stored (by norm_num) (by rfl)).stored (by norm_num) (by rfl)

example : writeMagnetogram "rw.py".toList [] demoSet = .ok
    ("Output of rw.py\nOrder:1\n  0    0   0.000000e+00   0.000000e+00\n  1    0   1.000000e+00  -5.000000e-01\n" ++
     "  1    1   0.000000e+00   0.000000e+00\n  0    0   0.000000e+00   0.000000e+00\n" ++
     "  1    0   0.000000e+00   0.000000e+00\n  1    1   0.000000e+00   0.000000e+00\n").toList := by 
  rw [write_ok demoSet_WF (by decide) _ _ none 0 false (by decide +kernel)]
  decide +kernel

example : HeaderHarmless Digits.asciiOnly "rw.py".toList [] false := by
  have : ∀ c ∈ "rw.py".toList, c ≠ '\n' ∧ c ≠ '\r' := by decide
  exact this

example : HeaderHarmless Digits.asciiOnly [] "map.dat".toList true :=
  (fileRecords_iff _ _).2 (by decide +kernel)

/-- Non-vacuity of C20 and C21. -/
example := C20_write_read demoEnv [] [] negZeroSet none 0 false negZeroSet_wellFormed (by simp [negZeroSet])
  ⟨0, 0, by simp [InWindow, negZeroSet]⟩ (fun l m _ => negZeroSet_finite l m) (by show NoBreak []; simp [NoBreak])

/-- Signs that are lost, and one that is kept. -/
example : ¬ SignsKept true (.fin true 0, .fin false 1) ∧ SignsKept false (.fin true 0, .fin true 1) ∧
    SignsKept true (.fin true 0, .fin true 0) ∧ ¬ SignsKept false (.fin false 1, .fin true 0) := by simp [SignsKept]

example : ∃ text r, writeMagnetogram [] [] (Coefs.new [zeroJ] .cplx) none 0 false = .ok text ∧
    readMagnetogram demoEnv text = .ok r ∧ writeMagnetogram [] [] r none 0 false = .ok text ∧
    writeMagnetogram [] [] r none 0 false = .ok text :=
  C21_second_write demoEnv [] [] _ none 0 false (wellFormed_of_WF Col.new.wf) (by simp [Coefs.new])
    ⟨0, 0, by simp [InWindow, Coefs.new]⟩
    (by intro l m _ z hz
        simp [valueAt, Coefs.get, Coefs.new, Idx.isPlainInt] at hz
        subst hz
        exact ⟨⟨false, 0, 0, by norm_num, by norm_num, by norm_num, by simp [zeroJ]⟩,
          ⟨false, 0, 0, by norm_num, by norm_num, by norm_num, by simp [zeroJ]⟩⟩)
    (by intro l m _ z hz
        simp [valueAt, Coefs.get, Coefs.new, Idx.isPlainInt] at hz
        subst hz
        exact ⟨by simp [NotNegZero, zeroJ], by simp [NotNegZero, zeroJ]⟩)
    (by show NoBreak []; simp [NoBreak])

end Verif
