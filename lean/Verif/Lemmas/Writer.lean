import Verif.Props.Reader
import Verif.Props.ContainerArrays

/-!
# Lemmas about writing magnetogram files
-/

namespace Verif
open Spec Coefs

/-! ### Well-formedness, back and forth -/

theorem WF_of_wellFormed {α : Type} [Elem α] {s : Coefs α} (h : WellFormed s) : s.WF := by
  have hmem : ∀ k : Key, k ∈ s.keys ↔ s.has (.int k.1) (.int k.2) = true := fun k => (has_int s k.1 k.2).symm
  have hset : {k : ℤ × ℤ | s.has (.int k.1) (.int k.2) = true} = (s.keys.toFinset : Set Key) := by
    ext k
    simp only [Set.mem_ofPred_eq, Finset.mem_coe, List.mem_toFinset]
    exact (hmem k).symm
  have hnodup : s.keys.Nodup := by
    have h1 := h.size
    rw [hset, Set.ncard_coe_finset, List.card_toFinset] at h1
    have h2 : s.keys.dedup.length = s.keys.length := by
      rw [← h1]; simp [Coefs.size, Coefs.keys]
    rw [← (List.dedup_sublist s.keys).eq_of_length h2]
    exact List.nodup_dedup _
  have hget : ∀ kv ∈ s.dict, s.getI kv.1 = kv.2 := by
    intro kv hkv
    rw [getI, dictGet_of_mem _ hnodup _ hkv]; rfl
  refine ⟨hnodup, ?_, ?_, ?_, ?_, ?_, ?_, ?_, ?_, h.ordMinNonpos⟩
  · intro k hk; exact h.pairs k.1 k.2 ((hmem k).1 hk)
  · intro kv hkv
    have := (h.values kv.1.1 kv.1.2 (s.getI kv.1) rfl).1
    rwa [hget kv hkv] at this
  · intro kv hkv
    have := (h.values kv.1.1 kv.1.2 (s.getI kv.1) rfl).2
    rwa [hget kv hkv] at this
  · have hn : ((-1, 0) : Key) ∉ s.keys := by
      intro hk
      have := h.pairs (-1) 0 ((hmem _).1 hk)
      simp at this
    have := (h.values (-1) 0 (s.getI (-1, 0)) rfl).2
    rwa [getI_of_not_mem s _ hn] at this
  · intro k hk; exact h.degMaxUpper k.1 k.2 ((hmem k).1 hk)
  · rcases h.degMaxAttained with ⟨h1, h2⟩ | ⟨m, hm⟩
    · left
      refine ⟨?_, h2⟩
      have : s.dict = [] := List.length_eq_zero_iff.1 h1
      simp [Coefs.keys, this]
    · exact Or.inr ⟨(s.degreeMax, m), (hmem _).2 hm, rfl⟩
  · intro k hk; exact h.ordMinLower k.1 k.2 ((hmem k).1 hk)
  · rcases h.ordMinAttained with h1 | ⟨l, hl⟩
    · exact Or.inl h1
    · exact Or.inr ⟨(l, s.orderMin), (hmem _).2 hl, rfl⟩

/-! ### The written window -/

/-- The pairs written for given limits. -/
def winList (degreeMax orderMin : ℤ) : List Key :=
  (Coefs.new ([] : List ℚ) .real).requested none (some degreeMax) (some orderMin) none

theorem requested_win {α : Type} (s : Coefs α) (dm om : ℤ) :
    s.requested none (some dm) (some om) none = winList dm om := rfl

theorem mem_winList (dm om l m : ℤ) : (l, m) ∈ winList dm om ↔ InWindow dm om l m := by
  rw [winList, mem_requested]
  simp only [Option.getD_none, Option.getD_some, InWindow, abs_le]
  omega

theorem winList_sorted (dm om : ℤ) : (winList dm om).Pairwise LexLt := requested_sorted _ _ _ _ _

theorem sorted_unique {a b : List (ℤ × ℤ)} (ha : a.Pairwise LexLt) (hb : b.Pairwise LexLt)
    (h : ∀ x, x ∈ a ↔ x ∈ b) : a = b := by
  have hirr : ∀ {l : List (ℤ × ℤ)}, l.Pairwise LexLt → l.Nodup := by
    intro l hl
    refine hl.imp ?_
    rintro x y (h | ⟨_, h⟩) rfl <;> exact absurd h (lt_irrefl _)
  have hp : a.Perm b := (List.perm_ext_iff_of_nodup (hirr ha) (hirr hb)).2 h
  refine hp.eq_of_pairwise (le := LexLt) ?_ ha hb
  intro x y _ _ h1 h2
  rcases h1 with h1 | ⟨h1, h1'⟩ <;> rcases h2 with h2 | ⟨h2, h2'⟩ <;> omega

theorem winList_nodup (dm om : ℤ) : (winList dm om).Nodup := by
  refine (winList_sorted dm om).imp ?_
  rintro x y (h | ⟨_, h⟩) rfl <;> exact absurd h (lt_irrefl _)

/-! ### The text written -/

/-- Component `i` of the value at a pair. -/
def comp (s : Coefs PyComplex) (i : ℕ) (k : Key) : PyComplex := (s.getI k).getD i zeroJ

theorem sect_one {xs : List PyComplex} {n i : ℕ} (hn : xs.length = n) (hi : i < n) :
    sect xs n i = [xs.getD i zeroJ] := by
  subst hn
  have h0 : xs.length / xs.length = 1 := Nat.div_self (by omega)
  simp only [sect, h0, Nat.mul_one]
  rw [List.drop_eq_getElem_cons hi, List.take_succ_cons, List.take_zero]
  simp [List.getD_eq_getElem?_getD, hi]

theorem mapM_ok {β γ : Type} (f : β → Res γ) (g : β → γ) (l : List β) (h : ∀ x ∈ l, f x = .ok (g x)) :
    l.mapM f = (.ok (l.map g) : Res (List γ)) := by
  induction l with
  | nil => rfl
  | cons a l ih =>
    rw [List.mapM_cons, h a List.mem_cons_self, ih (fun x hx => h x (List.mem_cons_of_mem _ hx))]; rfl

theorem mapM_error {β γ : Type} (f : β → Res γ) (e : Err) (l : List β) (hne : l ≠ []) (h : ∀ x ∈ l, f x = .error e) :
    l.mapM f = (.error e : Res (List γ)) := by
  cases l with
  | nil => exact absurd rfl hne
  | cons a l => rw [List.mapM_cons, h a List.mem_cons_self]; rfl

theorem dataBlocks_ok {s : Coefs PyComplex} (hs : s.WF) (hc : s.dflt ≠ []) (dm om : ℤ) (hw : winList dm om ≠ []) :
    dataBlocks s dm om = .ok ((List.range s.dflt.length).flatMap fun i =>
      (winList dm om).map fun k => [dataLine k.1 k.2 (comp s i k)]) := by
  have hn : s.dflt.length ≠ 0 := fun h => hc (List.length_eq_zero_iff.1 h)
  obtain ⟨T, h1, h2⟩ := hsplit_spec hs s.dflt.length hn (Nat.mod_self _)
  have h1' : s.hsplit = .ok ((List.range s.dflt.length).map T) := h1
  rw [dataBlocks, h1']
  change (((List.range s.dflt.length).map T).mapM (fun c => columnLines c dm om) >>= fun parts => pure parts.flatten) = _
  rw [List.mapM_map, mapM_ok _ (fun i => (winList dm om).map fun k => [dataLine k.1 k.2 (comp s i k)])]
  · rw [List.flatMap_def]; rfl
  · intro i hi
    have hi := List.mem_range.1 hi
    obtain ⟨_, _, _, _, hg⟩ := h2 i hi
    have hg' : ∀ k, (T i).getI k = [comp s i k] := fun k => by
      rw [hg k, sect_one (hs.getI_length k) hi]; rfl
    simp only [Function.comp]
    rw [columnLines, asArrays]
    simp only [requested_win, if_neg hw, Bool.true_or, List.filter_true]
    change List.mapM _ _ = _
    have hz : ((winList dm om).map Prod.fst).zip (((winList dm om).map Prod.snd).zip ((winList dm om).map (T i).getI))
        = (winList dm om).map fun k => (k.1, k.2, (T i).getI k) := by
      rw [List.zip_map', List.zip_map']
    rw [hz, List.mapM_map, mapM_ok _ (fun k => [dataLine k.1 k.2 (comp s i k)])]
    intro k _
    simp only [Function.comp, hg', dataRow]

theorem dataBlocks_error {s : Coefs PyComplex} (hs : s.WF) (dm om : ℤ) (h : s.dflt = [] ∨ winList dm om = []) :
    dataBlocks s dm om = .error (if s.dflt = [] then .zeroDiv else .value) := by
  by_cases hc : s.dflt = []
  · have : s.hsplit = .error .zeroDiv := by simp [hsplit, hc, npSplit]; rfl
    rw [dataBlocks, this, if_pos hc]; rfl
  · rw [if_neg hc]
    have hw := h.resolve_left hc
    have hn : s.dflt.length ≠ 0 := fun h => hc (List.length_eq_zero_iff.1 h)
    obtain ⟨T, h1, h2⟩ := hsplit_spec hs s.dflt.length hn (Nat.mod_self _)
    have h1' : s.hsplit = .ok ((List.range s.dflt.length).map T) := h1
    rw [dataBlocks, h1']
    change (((List.range s.dflt.length).map T).mapM (fun c => columnLines c dm om) >>= fun parts => pure parts.flatten) = _
    rw [mapM_error _ .value]
    · rfl
    · simpa using hn
    · intro c _
      rw [columnLines, asArrays]
      simp only [requested_win, hw, if_true]; rfl

/-- The header of a file. -/
def headerText (srcPath fileName : Text) (dm : ℤ) (swmf : Bool) : Text :=
  if swmf then
    fileName ++ "\n0  0.0  -2  3  2\n1  1\n".toList ++ intText dm ++ "  0  0.0\nn  m  g  h  nOrder  CR  dLon\n".toList
  else "Output of ".toList ++ srcPath ++ "\nOrder:".toList ++ intText dm ++ "\n".toList

/-- The data part of a file. -/
def bodyText (s : Coefs PyComplex) (dm om : ℤ) : Text :=
  (List.range s.dflt.length).flatMap fun i => (winList dm om).flatMap fun k => dataLine k.1 k.2 (comp s i k) ++ ['\n']

theorem write_ok {s : Coefs PyComplex} (hs : s.WF) (hc : s.dflt ≠ []) (src fn : Text) (dmo : Option ℤ) (om : ℤ)
    (swmf : Bool) (hw : winList (dmo.getD s.degreeMax) om ≠ []) :
    writeMagnetogram src fn s dmo om swmf
      = .ok (headerText src fn (dmo.getD s.degreeMax) swmf ++ bodyText s (dmo.getD s.degreeMax) om) := by
  rw [writeMagnetogram]
  simp only [dataBlocks_ok hs hc _ _ hw]
  have hbody : ((List.range s.dflt.length).flatMap fun i =>
      (winList (dmo.getD s.degreeMax) om).map fun k => [dataLine k.1 k.2 (comp s i k)]).flatMap
        (fun b => joinText ['\n'] b ++ ['\n']) = bodyText s (dmo.getD s.degreeMax) om := by
    rw [bodyText, List.flatMap_assoc]
    congr 1
    funext i
    rw [List.flatMap_map]; rfl
  cases swmf with
  | false =>
    change Except.ok _ = Except.ok _
    rw [hbody]
    simp [headerText, joinText]
  | true =>
    obtain ⟨n, hn⟩ : ∃ n, s.dflt.length = n + 1 := by
      cases h : s.dflt with
      | nil => exact absurd h hc
      | cons a l => exact ⟨l.length, by simp⟩
    obtain ⟨k, ks, hk⟩ := List.exists_cons_of_ne_nil hw
    have hcons : ∃ rest, ((List.range s.dflt.length).flatMap fun i =>
      (winList (dmo.getD s.degreeMax) om).map fun k => [dataLine k.1 k.2 (comp s i k)])
        = [dataLine k.1 k.2 (comp s 0 k)] :: rest := by
      rw [hn, List.range_succ_eq_map, List.flatMap_cons, hk, List.map_cons]
      exact ⟨_, rfl⟩
    obtain ⟨rest, hrest⟩ := hcons
    rw [hrest] at hbody ⊢
    change Except.ok _ = Except.ok _
    rw [hbody]
    have h1 : natText 1 = ['1'] := by decide +kernel
    have h0 : intText 0 = ['0'] := by decide +kernel
    simp [headerText, swmfHeader, joinText, h1, h0]

theorem write_error {s : Coefs PyComplex} (hs : s.WF) (src fn : Text) (dmo : Option ℤ) (om : ℤ)
    (swmf : Bool) (h : s.dflt = [] ∨ winList (dmo.getD s.degreeMax) om = []) :
    writeMagnetogram src fn s dmo om swmf = .error (if s.dflt = [] then .zeroDiv else .value) := by
  rw [writeMagnetogram]
  simp only [dataBlocks_error hs _ _ h]; rfl

/-! ### Data lines, as the reader sees them -/

variable {U : Digits}

theorem noBreak_dataLine (d m : ℤ) (z : PyComplex) : NoBreak (dataLine d m z) := by
  have hp : ∀ w t, NoSpace t → NoBreak (padLeft w t) := by
    intro w t ht c hc
    rcases List.mem_append.1 hc with h | h
    · rw [List.eq_of_mem_replicate h]; decide
    · exact noSpace_noBreak ht c h
  have h2 : NoBreak [' ', ' '] := by simp [NoBreak]
  have happ : ∀ {a b : Text}, NoBreak a → NoBreak b → NoBreak (a ++ b) := by
    intro a b ha hb c hc
    rcases List.mem_append.1 hc with h | h
    · exact ha c h
    · exact hb c h
  unfold dataLine
  exact happ (happ (happ (happ (happ (happ (hp _ _ (noSpace_intText _)) h2) (hp _ _ (noSpace_intText _))) h2)
    (hp _ _ (noSpace_fmtE _))) h2) (hp _ _ (noSpace_fmtE _))

theorem fourTokens_dataLine (d m : ℤ) (z : PyComplex) :
    FourTokens (dataLine d m z) (intText d) (intText m) (fmtE z.1) (fmtE z.2) := by
  have hb : ∀ n, Blank (List.replicate n ' ') := allSpace_replicate
  have hb2 : ∀ n, Blank ([' ', ' '] ++ List.replicate n ' ') := by
    intro n c hc
    rcases List.mem_append.1 hc with h | h
    · simp at h; subst h; decide
    · exact hb n c h
  refine ⟨List.replicate (3 - (intText d).length) ' ', [' ', ' '] ++ List.replicate (3 - (intText m).length) ' ',
    [' ', ' '] ++ List.replicate (13 - (fmtE z.1).length) ' ', [' ', ' '] ++ List.replicate (13 - (fmtE z.2).length) ' ',
    [], hb _, hb2 _, hb2 _, hb2 _, by simp, by simp, by simp, ⟨intText_ne_nil _, noSpace_intText _⟩,
    ⟨intText_ne_nil _, noSpace_intText _⟩, ⟨fmtE_ne_nil _, noSpace_fmtE _⟩, ⟨fmtE_ne_nil _, noSpace_fmtE _⟩,
    Or.inl rfl, ?_⟩
  simp only [dataLine, padLeft, List.append_assoc, List.append_nil]

/-- The float read back from a printed float. -/
def reread : PyFloat → PyFloat
  | .fin neg q => .ofMag neg (decVal (dec7 q))
  | x => x

/-- A float with a non-negative magnitude (all real floats). -/
def Mag : PyFloat → Prop
  | .fin _ q => 0 ≤ q
  | _ => True

theorem parseFloat_fmtE {x : PyFloat} (h : Mag x) : parseFloat U (fmtE x) = some (reread x) := by
  cases x with
  | fin neg q => exact parseFloat_finite U neg q h
  | inf neg => exact parseFloat_inf U neg
  | nan => exact parseFloat_nan U

theorem lineRec_dataLine (d m : ℤ) {z : PyComplex} (h1 : Mag z.1) (h2 : Mag z.2) :
    lineRec U (dataLine d m z) = some (d, m, reread z.1, reread z.2) := by
  obtain ⟨rest, hr⟩ := pySplit_fourTokens (fourTokens_dataLine d m z)
  rw [lineRec_of_tokens hr, parseInt_intText, parseInt_intText, parseFloat_fmtE h1, parseFloat_fmtE h2]; rfl

theorem recs_dataLines (ks : List Key) (f : Key → PyComplex) (hf : ∀ k ∈ ks, Mag (f k).1 ∧ Mag (f k).2) (rest : Text) :
    recs U (ks.flatMap (fun k => dataLine k.1 k.2 (f k) ++ ['\n']) ++ rest)
      = ks.map (fun k => (k.1, k.2, reread (f k).1, reread (f k).2)) ++ recs U rest := by
  induction ks with
  | nil => rfl
  | cons k ks ih =>
    have hk := hf k List.mem_cons_self
    rw [List.flatMap_cons, List.append_assoc, List.append_assoc, List.singleton_append,
      recs_append _ (Or.inl rfl), recs_line (noBreak_dataLine _ _ _), lineRec_dataLine _ _ hk.1 hk.2,
      ih (fun k h => hf k (List.mem_cons_of_mem _ h))]
    rfl

/-- The records of the data part, column by column. -/
def bodyBlocks (s : Coefs PyComplex) (dm om : ℤ) : List (List Rec) :=
  (List.range s.dflt.length).map fun i =>
    (winList dm om).map fun k => (k.1, k.2, reread (comp s i k).1, reread (comp s i k).2)

theorem recs_body (s : Coefs PyComplex) (dm om : ℤ)
    (hf : ∀ i < s.dflt.length, ∀ k ∈ winList dm om, Mag (comp s i k).1 ∧ Mag (comp s i k).2) :
    recs U (bodyText s dm om) = (bodyBlocks s dm om).flatten := by
  rw [bodyText, bodyBlocks]
  have key : ∀ is : List ℕ, (∀ i ∈ is, i < s.dflt.length) →
      recs U (is.flatMap fun i => (winList dm om).flatMap fun k => dataLine k.1 k.2 (comp s i k) ++ ['\n'])
      = (is.map fun i => (winList dm om).map fun k => (k.1, k.2, reread (comp s i k).1, reread (comp s i k).2)).flatten := by
    intro is
    induction is with
    | nil => intro _; exact recs_nil
    | cons i is ih =>
      intro hi
      rw [List.flatMap_cons, recs_dataLines _ _ (hf i (hi i List.mem_cons_self)),
        ih (fun j hj => hi j (List.mem_cons_of_mem _ hj))]
      rfl
  exact key _ (fun i hi => List.mem_range.1 hi)

/-! ### Headers -/

theorem lineRec_short_word {line : Text} (h : (pySplit line).length < 4) : lineRec U line = none := lineRec_of_short h

theorem parseInt_Output : parseInt U "Output".toList = none := by
  have hv : U.val 'O' = none := by rw [U.ascii _ (by decide)]; rfl
  simp only [parseInt, takeSign, show "Output".toList = ['O', 'u', 't', 'p', 'u', 't'] by rfl]
  simp [digitRun, hv]

theorem parseInt_n : parseInt U ['n'] = none := by
  have hv : U.val 'n' = none := by rw [U.ascii _ (by decide)]; rfl
  simp [parseInt, takeSign, digitRun, hv]

theorem parseInt_00 : parseInt U ['0', '.', '0'] = none := by
  have hv : U.val '.' = none := by rw [U.ascii _ (by decide)]; rfl
  have h0 : U.val '0' = some 0 := by rw [U.ascii _ (by decide)]; rfl
  simp [parseInt, takeSign, digitRun, hv, h0]

theorem pySplit_ge (t : Text) (w : Text) (rest : Text) (hw : AllSpace w) (ht : NoSpace t) (hne : t ≠ [])
    (hr : rest = [] ∨ ∃ c r, rest = c :: r ∧ isSpace c = true) : (pySplit (w ++ (t ++ rest)))[0]? = some t := by
  rw [pySplit_token w t rest hw ht hne hr]; rfl

theorem lineRec_first {line t : Text} {ts : List Text} (h : pySplit line = t :: ts) (hp : parseInt U t = none) :
    lineRec U line = none := by
  rw [lineRec_none_iff]
  rintro r ⟨t0, t1, t2, t3, h4, hi, _⟩
  obtain ⟨rest, hr⟩ := pySplit_fourTokens h4
  rw [h] at hr
  cases hr
  rw [← parseInt_iff, hp] at hi
  cases hi

theorem lineRec_second {line t0 t1 : Text} {ts : List Text} (h : pySplit line = t0 :: t1 :: ts)
    (hp : parseInt U t1 = none) : lineRec U line = none := by
  rw [lineRec_none_iff]
  rintro r ⟨u0, u1, t2, t3, h4, _, hi, _⟩
  obtain ⟨rest, hr⟩ := pySplit_fourTokens h4
  rw [h] at hr
  cases hr
  rw [← parseInt_iff, hp] at hi
  cases hi

theorem recs_line_lf {l : Text} (h : NoBreak l) (rest : Text) :
    recs U (l ++ '\n' :: rest) = (lineRec U l).toList ++ recs U rest := by
  rw [recs_append _ (Or.inl rfl), recs_line h]

theorem recs_header_plain (src fn : Text) (dm : ℤ) (hsrc : NoBreak src) (rest : Text) :
    recs U (headerText src fn dm false ++ rest) = recs U rest := by
  have e : headerText src fn dm false ++ rest
      = ("Output of ".toList ++ src) ++ '\n' :: (("Order:".toList ++ intText dm) ++ '\n' :: rest) := by
    simp [headerText]
  have hb1 : NoBreak ("Output of ".toList ++ src) := by
    intro c hc
    rcases List.mem_append.1 hc with h | h
    · have : ∀ c ∈ "Output of ".toList, c ≠ '\n' ∧ c ≠ '\r' := by decide
      exact this c h
    · exact hsrc c h
  have hns : NoSpace ("Order:".toList ++ intText dm) := by
    refine NoSpace.append ?_ (noSpace_intText dm)
    have : ∀ c ∈ "Order:".toList, isSpace c = false := by decide
    exact this
  have h1 : lineRec U ("Output of ".toList ++ src) = none := by
    refine lineRec_first (t := "Output".toList) (ts := pySplit (" of ".toList ++ src)) ?_ parseInt_Output
    have := pySplit_token [] "Output".toList (" of ".toList ++ src) (by intro c hc; cases hc)
      (by have : ∀ c ∈ "Output".toList, isSpace c = false := by decide
          exact this) (by decide) (Or.inr ⟨' ', "of ".toList ++ src, rfl, by decide⟩)
    exact this
  have h2 : lineRec U ("Order:".toList ++ intText dm) = none := by
    refine lineRec_of_short ?_
    have := pySplit_token [] ("Order:".toList ++ intText dm) [] (by intro c hc; cases hc) hns (by simp) (Or.inl rfl)
    rw [List.nil_append, List.append_nil] at this
    rw [this]
    simp [pySplit, splitGo]
  rw [e, recs_line_lf hb1, recs_line_lf (noSpace_noBreak hns), h1, h2]; rfl

theorem recs_header_swmf (src fn : Text) (dm : ℤ) (rest : Text) :
    recs U (headerText src fn dm true ++ rest) = recs U fn ++ recs U rest := by
  have e : headerText src fn dm true ++ rest
      = fn ++ '\n' :: ("0  0.0  -2  3  2".toList ++ '\n' :: ("1  1".toList ++ '\n' ::
        ((intText dm ++ "  0  0.0".toList) ++ '\n' :: ("n  m  g  h  nOrder  CR  dLon".toList ++ '\n' :: rest)))) := by
    simp [headerText]
  have nb : ∀ t : Text, (∀ c ∈ t, c ≠ '\n' ∧ c ≠ '\r') → NoBreak t := fun _ h => h
  have hb3 : NoBreak (intText dm ++ "  0  0.0".toList) := by
    intro c hc
    rcases List.mem_append.1 hc with h | h
    · exact noSpace_noBreak (noSpace_intText dm) c h
    · have : ∀ c ∈ "  0  0.0".toList, c ≠ '\n' ∧ c ≠ '\r' := by decide
      exact this c h
  have h1 : lineRec U "0  0.0  -2  3  2".toList = none := by
    refine lineRec_second (t0 := ['0']) (t1 := ['0', '.', '0']) (ts := ["-2".toList, "3".toList, "2".toList]) (by decide +kernel)
      parseInt_00
  have h2 : lineRec U "1  1".toList = none := lineRec_of_short (by decide +kernel)
  have h4 : lineRec U "n  m  g  h  nOrder  CR  dLon".toList = none :=
    lineRec_first (t := ['n']) (ts := ["m".toList, "g".toList, "h".toList, "nOrder".toList, "CR".toList, "dLon".toList])
      (by decide +kernel) parseInt_n
  have h3 : lineRec U (intText dm ++ "  0  0.0".toList) = none := by
    refine lineRec_of_short ?_
    have := pySplit_token [] (intText dm) "  0  0.0".toList (by intro c hc; cases hc) (noSpace_intText dm)
      (intText_ne_nil dm) (Or.inr ⟨' ', " 0  0.0".toList, rfl, by decide⟩)
    rw [List.nil_append] at this
    rw [this, show pySplit "  0  0.0".toList = [['0'], ['0', '.', '0']] by decide +kernel]
    simp
  rw [e, recs_append _ (Or.inl rfl), recs_line_lf (nb _ (by decide)), recs_line_lf (nb _ (by decide)),
    recs_line_lf hb3, recs_line_lf (nb _ (by decide)), h1, h2, h3, h4]; rfl

end Verif
