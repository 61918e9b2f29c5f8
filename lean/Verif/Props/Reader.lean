import Verif.Lemmas.Reader

/-!
# Properties C17 - C19 (and C03 for files): reading magnetogram files
-/

namespace Verif
open Spec Coefs

/-! ## C17 -/

private theorem read_cases (E : PyEnv) (text : Text) :
    (∃ r, readMagnetogram E text = .ok r ∧ r.WF ∧ ∀ x ∈ recs E.digits text, |x.2.1| ≤ x.1) ∨
    (readMagnetogram E text = .error .assertion ∧ ∃ x ∈ recs E.digits text, ¬ |x.2.1| ≤ x.1) := by
  rw [readMagnetogram_eq]
  rcases recLoop_invariant E (recs E.digits text) [] _ (by simp) Col.new with
    ⟨sets, h1, h2, h3, h4⟩ | ⟨h1, h2⟩
  · obtain ⟨r, e, w, _⟩ := stack_ok E sets h2 h3
    left
    exact ⟨r, by rw [h1]; exact e, w, h4⟩
  · right
    exact ⟨by rw [h1]; rfl, h2⟩

/-- **C17.** Reading any text returns a coefficient set or raises AssertionError. -/
theorem C17_reader_total (E : PyEnv) (text : Text) :
    (∃ r, readMagnetogram E text = .ok r) ∨ readMagnetogram E text = .error .assertion := by
  rcases read_cases E text with ⟨r, h, _⟩ | ⟨h, _⟩
  · exact Or.inl ⟨r, h⟩
  · exact Or.inr h

/-- **C17.** It raises exactly when some data line has |m| > l, however the text is cut into lines. -/
theorem C17_reader_raises_iff (E : PyEnv) (text : Text) (ls : List Text) (hls : Lines text ls) :
    readMagnetogram E text = .error .assertion ↔
      ∃ line ∈ ls, ∃ r : Rec, DataLine E.digits line r ∧ r.1 < |r.2.1| := by
  have hrec := recs_of_lines (U := E.digits) hls
  constructor
  · intro h
    rcases read_cases E text with ⟨r, h', _⟩ | ⟨_, x, hx, hv⟩
    · rw [h] at h'; cases h'
    · rw [hrec, List.mem_filterMap] at hx
      obtain ⟨line, hl, hx⟩ := hx
      exact ⟨line, hl, x, (lineRec_iff line x).1 hx, not_le.1 hv⟩
  · rintro ⟨line, hl, r, hr, hlt⟩
    rcases read_cases E text with ⟨_, _, _, hall⟩ | ⟨h', _⟩
    · have : r ∈ recs E.digits text := by
        rw [hrec]; exact List.mem_filterMap.2 ⟨line, hl, (lineRec_iff line r).2 hr⟩
      exact absurd (hall r this) (not_le.2 hlt)
    · exact h'

/-- **C17.** Every text can be cut into lines, so the criterion always applies. -/
theorem C17_lines_exist (text : Text) : ∃ ls, Lines text ls := ⟨_, lines_chunks text⟩

/-- **C03** (file reading). Whatever is read is well-formed. -/
theorem C03_read_wellFormed (E : PyEnv) (text : Text) (r : Coefs PyComplex)
    (h : readMagnetogram E text = .ok r) : WellFormed r := by
  rcases read_cases E text with ⟨r', h', w, _⟩ | ⟨h', _⟩
  · rw [h] at h'; cases h'; exact wellFormed_of_WF w
  · rw [h] at h'; cases h'

/-- An executable python environment for examples: ASCII digits, sets iterated in order of first occurrence. -/
def demoEnv : PyEnv where
  digits := .asciiOnly
  mixed := false
  iter ks := ks.dedup
  iter_ok ks := ⟨List.nodup_dedup ks, fun _ => List.mem_dedup⟩

deriving instance DecidableEq for Except
deriving instance DecidableEq for Coefs

/-- Non-vacuity of C17: both outcomes occur. -/
example : readMagnetogram demoEnv "header\n 1 0 2.5 -1 extra\n".toList
    = .ok ⟨[zeroJ], .cplx, [((1, 0), [(.fin false (5/2), .fin true 1)])], 1, 0⟩ := by decide +kernel
example : readMagnetogram demoEnv "1 2 0 0".toList = .error .assertion := by decide +kernel

/-! ## C18 -/

private theorem recs_atStart {U : Digits} {a : Text} (ha : AtLineStart a) (x : Text) :
    recs U (a ++ x) = recs U a ++ recs U x := by
  rcases ha with rfl | ⟨a', c, rfl, hc⟩
  · rw [recs_nil]; rfl
  · rw [List.append_assoc, List.singleton_append, recs_append a' hc, recs_append a' hc, recs_nil, List.append_nil]

private theorem recs_atEnd {U : Digits} {b : Text} (hb : AtLineEnd b) (x : Text) :
    recs U (x ++ b) = recs U x ++ recs U b := by
  rcases hb with rfl | ⟨c, b', rfl, hc⟩
  · rw [recs_nil, List.append_nil, List.append_nil]
  · rw [recs_append x hc, show c :: b' = [] ++ c :: b' by rfl, recs_append [] hc, recs_nil]; rfl

private theorem recs_junk {U : Digits} {line : Text} (h : NoBreak line) (hn : ∀ r, ¬ DataLine U line r) :
    recs U line = [] := by
  rw [recs_line h, (lineRec_none_iff line).2 hn]; rfl

private theorem recs_sameFile {U : Digits} {t t' : Text} (h : SameFile U t t') : recs U t = recs U t' := by
  induction h with
  | refl => rfl
  | symm _ ih => exact ih.symm
  | trans _ _ ih1 ih2 => exact ih1.trans ih2
  | junk ha hl hn hnl => rw [recs_atStart ha, recs_newline hnl, recs_junk hl hn, recs_atStart ha]; rfl
  | junkLast ha hl hn => rw [recs_atStart ha, recs_junk hl hn, List.append_nil]
  | newline h h' => rw [recs_newline h, recs_newline h']
  | @newlineLast a nl h =>
    have := recs_newline (U := U) h a []
    rw [List.append_nil, recs_nil, List.append_nil] at this
    exact this
  | layout ha hb hl hl' h4 h4' =>
    obtain ⟨r, hr⟩ := pySplit_fourTokens h4
    obtain ⟨r', hr'⟩ := pySplit_fourTokens h4'
    have e : lineRec U _ = lineRec U _ := (lineRec_of_tokens hr).trans (lineRec_of_tokens hr').symm
    rw [List.append_assoc, List.append_assoc, recs_atStart ha, recs_atStart ha, recs_atEnd hb, recs_atEnd hb,
      recs_line hl, recs_line hl', e]

/-- **C18.** Extra lines that are not data lines, white space, text after the fourth token and the style of line
ends do not influence what is read (nor whether reading raises). -/
theorem C18_irrelevant_text (E : PyEnv) (text text' : Text) (h : SameFile E.digits text text') :
    readMagnetogram E text = readMagnetogram E text' := by
  rw [readMagnetogram_eq, readMagnetogram_eq, recs_sameFile h]

/-- **C18.** More generally the outcome depends only on the sequence of records in the file. -/
theorem C18_only_records_matter (E : PyEnv) (text text' : Text) (rs : List Rec)
    (h : FileRecords E.digits text rs) (h' : FileRecords E.digits text' rs) :
    readMagnetogram E text = readMagnetogram E text' := by
  rw [readMagnetogram_eq, readMagnetogram_eq, (fileRecords_iff _ _).1 h, (fileRecords_iff _ _).1 h']

/-- **C18.** Every file has exactly one sequence of records. -/
theorem C18_records_unique (U : Digits) (text : Text) : ∃! rs, FileRecords U text rs :=
  ⟨recs U text, (fileRecords_iff _ _).2 rfl, fun _ h => ((fileRecords_iff _ _).1 h).symm⟩

/-- Non-vacuity of C18: two visibly different files that are the same for the reader. -/
example : readMagnetogram demoEnv "# comment\r\n\t1  0 2.5 -1.0 # note\r1 1 0 1e-3".toList
    = readMagnetogram demoEnv "1 0 2.5 -1.0\n1 1 0 1e-3\n".toList := by decide +kernel
example : SameFile Digits.asciiOnly "x\r\n1 0 2 3".toList "1 0 2 3".toList :=
  SameFile.junk (a := []) (line := ['x']) (nl := ['\r', '\n']) (Or.inl rfl) (by simp [NoBreak])
    (by
      intro r h
      have := (lineRec_iff (U := Digits.asciiOnly) _ _).2 h
      have h0 : lineRec Digits.asciiOnly ['x'] = none := by decide +kernel
      rw [h0] at this; cases this)
    (Or.inr (Or.inr rfl))

/-! ## C19 -/

/-- **C19.** A file made of blocks of data lines, no pair twice in a block, every block after the first starting
with a pair of the block before it, is read as one column per block: the value at (l, m) in a column is the
number on the line for (l, m) in that block, zero if there is none. -/
theorem C19_blocks (E : PyEnv) (text : Text) (blocks : List (List Rec)) (hne : blocks ≠ [])
    (hfile : FileRecords E.digits text blocks.flatten)
    (hvalid : ∀ b ∈ blocks, ∀ r ∈ b, |r.2.1| ≤ r.1)
    (hnodup : ∀ b ∈ blocks, (b.map recKey).Nodup)
    (hlinked : Linked blocks) :
    ∃ r, readMagnetogram E text = .ok r ∧ r.dtype = .cplx ∧ r.dflt = List.replicate blocks.length zeroJ ∧
      (∀ l m : ℤ, r.has (.int l) (.int m) = true ↔ ∃ b ∈ blocks, (l, m) ∈ b.map recKey) ∧
      ∀ l m : ℤ, List.Forall₂ (fun b z =>
        (∀ re im, (l, m, re, im) ∈ b → z = PyFloat.complexOf E.mixed re im) ∧
        ((l, m) ∉ b.map recKey → z = zeroJ)) blocks (valueAt r l m) := by
  obtain ⟨b0, bs, rfl⟩ := List.exists_cons_of_ne_nil hne
  have hloop : recLoop E [] (Coefs.new [zeroJ] .cplx) (recs E.digits text)
      = .ok ((b0 :: bs).map (blockCol E)) := by
    rw [(fileRecords_iff _ _).1 hfile, List.flatten_cons]
    obtain ⟨_, _, _, _, h5⟩ := blockCol_ok E b0 (hnodup _ List.mem_cons_self) (hvalid _ List.mem_cons_self)
    rw [h5, recLoop_blocks E b0 bs [] hnodup hvalid hlinked]; rfl
  have hcol : ∀ s ∈ (b0 :: bs).map (blockCol E), Col s := by
    intro s hs
    obtain ⟨b, hb, rfl⟩ := List.mem_map.1 hs
    exact (blockCol_ok E b (hnodup b hb) (hvalid b hb)).1
  obtain ⟨r, h1, h2, h3, h4, h5, h6⟩ := stack_ok E _ hcol (by simp)
  refine ⟨r, ?_, h3, by rw [h4, List.length_map], ?_, ?_⟩
  · rw [readMagnetogram_eq, hloop]; exact h1
  · intro l m
    rw [has_int, h5]
    constructor
    · rintro ⟨s, hs, hk⟩
      obtain ⟨b, hb, rfl⟩ := List.mem_map.1 hs
      rw [(blockCol_ok E b (hnodup b hb) (hvalid b hb)).2.1] at hk
      exact ⟨b, hb, hk⟩
    · rintro ⟨b, hb, hk⟩
      exact ⟨_, List.mem_map_of_mem hb, by rwa [(blockCol_ok E b (hnodup b hb) (hvalid b hb)).2.1]⟩
  · intro l m
    have hv : valueAt r l m = ((b0 :: bs).map (blockCol E)).flatMap fun s => s.getI (l, m) := by
      rw [← h6]; rfl
    rw [hv]
    have key : ∀ bl : List (List Rec), (∀ b ∈ bl, b ∈ b0 :: bs) →
        List.Forall₂ (fun b z => (∀ re im, (l, m, re, im) ∈ b → z = PyFloat.complexOf E.mixed re im) ∧
        ((l, m) ∉ b.map recKey → z = zeroJ)) bl ((bl.map (blockCol E)).flatMap fun s => s.getI (l, m)) := by
      intro bl
      induction bl with
      | nil => intro _; exact .nil
      | cons b bl ih =>
        intro hb
        have hb0 := hb b List.mem_cons_self
        obtain ⟨_, _, k3, k4, _⟩ := blockCol_ok E b (hnodup b hb0) (hvalid b hb0)
        rw [List.map_cons, List.flatMap_cons]
        have ih := ih (fun b h => hb b (List.mem_cons_of_mem _ h))
        by_cases hm : (l, m) ∈ b.map recKey
        · obtain ⟨x, hx, hxk⟩ := List.mem_map.1 hm
          obtain ⟨l', m', re, im⟩ := x
          cases hxk
          have hg := k4 _ hx
          simp only at ih hg hm ⊢
          rw [hg]
          refine .cons ⟨?_, fun h => absurd hm h⟩ ih
          intro re' im' hx'
          have := List.inj_on_of_nodup_map (hnodup b hb0) hx hx' rfl
          cases this; rfl
        · rw [k3 _ hm]
          refine .cons ⟨?_, fun _ => rfl⟩ ih
          intro re im hx
          exact absurd (List.mem_map_of_mem (f := recKey) hx) hm
    exact key _ (fun b h => h)

/-- **C19.** The complex number stored for a line has the real and imaginary parts on the line (a zero may lose
its sign), provided the imaginary part is finite. -/
theorem C19_components (mixed : Bool) (re im : PyFloat) (h : IsFinite im) :
    value (PyFloat.complexOf mixed re im).1 = value re ∧ value (PyFloat.complexOf mixed re im).2 = value im := by
  obtain ⟨neg, n, e, _, _, _, rfl⟩ := h
  have key : ∀ (x : PyFloat) (b : Bool), value (x.addZero b) = value x := by
    intro x b
    cases x with
    | fin neg m =>
      simp only [PyFloat.addZero]
      split_ifs with h0
      · subst h0; simp [value]
      · rfl
    | inf => rfl
    | nan => rfl
  simp only [PyFloat.complexOf]
  refine ⟨key _ _, ?_⟩
  split_ifs
  · rfl
  · rw [key, key]

/-- **C19.** An infinite or nan imaginary part turns the real part into nan: such a line is not recovered. -/
theorem C19_nonfinite_imag (mixed neg : Bool) (re : PyFloat) :
    PyFloat.complexOf mixed re (.inf neg) = (.nan, .inf neg) ∧ PyFloat.complexOf mixed re .nan = (.nan, .nan) := by
  cases mixed <;> exact ⟨rfl, rfl⟩

/-- Non-vacuity of C19: two blocks with different pairs. -/
example : readMagnetogram demoEnv "1 0 1 0\n1 1 2 0\n1 0 3 0\n2 1 4 0\n".toList
    = .ok ⟨[zeroJ, zeroJ], .cplx,
        [((1, 1), [(.fin false 2, .fin false 0), zeroJ]),
         ((1, 0), [(.fin false 1, .fin false 0), (.fin false 3, .fin false 0)]),
         ((2, 1), [zeroJ, (.fin false 4, .fin false 0)])], 2, 0⟩ := by decide +kernel
example : Linked [[(1, 0, .nan, .nan), (1, 1, .nan, .nan)], [(1, 0, .nan, .nan), (2, 1, .nan, .nan)]] :=
  ⟨⟨(1, 0, .nan, .nan), rfl, by decide⟩, trivial⟩

end Verif
