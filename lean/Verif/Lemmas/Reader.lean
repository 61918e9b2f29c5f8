import Verif.Lemmas.Grammar
import Verif.Lemmas.CoefOps
import Verif.Props.Container

/-!
# Lemmas about the reader
-/

namespace Verif
open Spec Coefs

variable {U : Digits}

/-- The record of a line, if it is a data line. -/
def lineRec (U : Digits) (line : Text) : Option Rec :=
  match lineFields U line with
  | .ok r => some r
  | .error _ => none

theorem lineFields_error {line : Text} {e : Err} (h : lineFields U line = .error e) : e = .index ∨ e = .value := by
  have key : ∀ {β γ : Type} (o : Option β) (e1 : Err) (he : e1 = .index ∨ e1 = .value) (k : β → Res γ) (e : Err),
      (∀ b, k b = .error e → e = .index ∨ e = .value) →
      ((o.elim (.error e1) .ok : Res β) >>= k) = .error e → e = .index ∨ e = .value := by
    intro β γ o e1 he k e hk h
    cases o with
    | none => cases h; exact he
    | some b => exact hk b h
  unfold lineFields at h
  simp only at h
  refine key _ _ (Or.inl rfl) _ _ (fun t0 => ?_) h
  refine key _ _ (Or.inr rfl) _ _ (fun l => ?_)
  refine key _ _ (Or.inl rfl) _ _ (fun t1 => ?_)
  refine key _ _ (Or.inr rfl) _ _ (fun m => ?_)
  refine key _ _ (Or.inl rfl) _ _ (fun t2 => ?_)
  refine key _ _ (Or.inr rfl) _ _ (fun re => ?_)
  refine key _ _ (Or.inl rfl) _ _ (fun t3 => ?_)
  refine key _ _ (Or.inr rfl) _ _ (fun im h => ?_)
  cases h

theorem lineRec_of_tokens {line t0 t1 t2 t3 : Text} {rest : List Text}
    (h : pySplit line = t0 :: t1 :: t2 :: t3 :: rest) :
    lineRec U line = (parseInt U t0).bind fun l => (parseInt U t1).bind fun m =>
      (parseFloat U t2).bind fun re => (parseFloat U t3).bind fun im => some (l, m, re, im) := by
  unfold lineRec lineFields
  simp only [h]
  simp only [List.getElem?_cons_zero, List.getElem?_cons_succ, Option.elim, bind, Except.bind, pure, Except.pure]
  rcases parseInt U t0 with _ | l
  · rfl
  rcases parseInt U t1 with _ | m
  · rfl
  rcases parseFloat U t2 with _ | re
  · rfl
  rcases parseFloat U t3 with _ | im
  · rfl
  rfl

theorem lineRec_of_short {line : Text} (h : (pySplit line).length < 4) : lineRec U line = none := by
  unfold lineRec
  rcases hl : lineFields U line with e | r
  · rfl
  · exfalso
    have h3 : (pySplit line)[3]? = none := List.getElem?_eq_none (by omega)
    unfold lineFields at hl
    simp only [h3] at hl
    have key : ∀ {β γ : Type} (o : Res β) (k : β → Res γ) (r : γ), (∀ b, k b ≠ .ok r) → (o >>= k) ≠ .ok r := by
      intro β γ o k r hk
      cases o with
      | error e => intro h; cases h
      | ok b => exact hk b
    refine key _ _ _ (fun t0 => ?_) hl
    refine key _ _ _ (fun l => ?_)
    refine key _ _ _ (fun t1 => ?_)
    refine key _ _ _ (fun m => ?_)
    refine key _ _ _ (fun t2 => ?_)
    refine key _ _ _ (fun re => ?_)
    intro h; cases h

theorem lineRec_congr {a b : Text} (h : pySplit a = pySplit b) : lineRec U a = lineRec U b := by
  unfold lineRec lineFields; rw [h]

theorem lineRec_strip (line : Text) : lineRec U (strip line) = lineRec U line := lineRec_congr (pySplit_strip line)

/-- Tokens of a line described by `FourTokens`. -/
theorem pySplit_fourTokens {line t0 t1 t2 t3 : Text} (h : FourTokens line t0 t1 t2 t3) :
    ∃ rest, pySplit line = t0 :: t1 :: t2 :: t3 :: rest := by
  obtain ⟨w0, w1, w2, w3, rest, b0, b1, b2, b3, n1, n2, n3, k0, k1, k2, k3, hs, rfl⟩ := h
  have sep : ∀ (w x : Text), Blank w → w ≠ [] → (w ++ x) = [] ∨ ∃ c r, w ++ x = c :: r ∧ isSpace c = true := by
    intro w x hw hne
    obtain ⟨c, r, rfl⟩ := List.exists_cons_of_ne_nil hne
    exact Or.inr ⟨c, r ++ x, rfl, hw c List.mem_cons_self⟩
  refine ⟨pySplit rest, ?_⟩
  rw [pySplit_token w0 t0 _ b0 k0.2 k0.1 (sep w1 _ b1 n1), pySplit_token w1 t1 _ b1 k1.2 k1.1 (sep w2 _ b2 n2),
    pySplit_token w2 t2 _ b2 k2.2 k2.1 (sep w3 _ b3 n3), pySplit_token w3 t3 _ b3 k3.2 k3.1 hs]

/-- A line with at least `1` token starts with it. -/
theorem split_cons {line t : Text} {ts : List Text} (h : pySplit line = t :: ts) :
    ∃ w rest, Blank w ∧ Token t ∧ Sep rest ∧ line = w ++ (t ++ rest) ∧ pySplit rest = ts := by
  rcases text_cases line with hb | ⟨w, tok, rest, hw, hk, hne, hs, rfl⟩
  · rw [pySplit_allSpace line hb] at h; cases h
  · rw [pySplit_token w tok rest hw hk hne hs] at h
    cases h
    exact ⟨w, rest, hw, ⟨hne, hk⟩, hs, rfl, rfl⟩

theorem fourTokens_of_split {line t0 t1 t2 t3 : Text} {ts : List Text}
    (h : pySplit line = t0 :: t1 :: t2 :: t3 :: ts) : FourTokens line t0 t1 t2 t3 := by
  obtain ⟨w0, r0, b0, k0, s0, rfl, h1⟩ := split_cons h
  obtain ⟨w1, r1, b1, k1, s1, rfl, h2⟩ := split_cons h1
  obtain ⟨w2, r2, b2, k2, s2, rfl, h3⟩ := split_cons h2
  obtain ⟨w3, r3, b3, k3, s3, rfl, h4⟩ := split_cons h3
  have ne : ∀ (w t r : Text), Token t → Sep (w ++ (t ++ r)) → w ≠ [] := by
    rintro w t r hk hsep rfl
    obtain ⟨c, q, rfl⟩ := List.exists_cons_of_ne_nil hk.1
    rcases hsep with hs | ⟨c', q', hs, hc⟩
    · simp at hs
    · simp only [List.nil_append, List.cons_append, List.cons.injEq] at hs
      obtain ⟨rfl, _⟩ := hs
      rw [hk.2 c List.mem_cons_self] at hc
      cases hc
  exact ⟨w0, w1, w2, w3, r3, b0, b1, b2, b3, ne _ _ _ k1 s0, ne _ _ _ k2 s1, ne _ _ _ k3 s2, k0, k1, k2, k3, s3, rfl⟩

/-- The reader recognises exactly the data lines. -/
theorem lineRec_iff (line : Text) (r : Rec) : lineRec U line = some r ↔ DataLine U line r := by
  constructor
  · intro h
    by_cases hlen : (pySplit line).length < 4
    · rw [lineRec_of_short hlen] at h; cases h
    · obtain ⟨t0, t1, t2, t3, ts, hts⟩ : ∃ t0 t1 t2 t3 ts, pySplit line = t0 :: t1 :: t2 :: t3 :: ts := by
        match hp : pySplit line with
        | [] => rw [hp] at hlen; simp at hlen
        | [_] => rw [hp] at hlen; simp at hlen
        | [_, _] => rw [hp] at hlen; simp at hlen
        | [_, _, _] => rw [hp] at hlen; simp at hlen
        | a :: b :: c :: d :: e => exact ⟨a, b, c, d, e, rfl⟩
      rw [lineRec_of_tokens hts] at h
      simp only [Option.bind_eq_some_iff] at h
      obtain ⟨l, hl, m, hm, re, hre, im, him, hr⟩ := h
      cases hr
      exact ⟨t0, t1, t2, t3, fourTokens_of_split hts, (parseInt_iff _ _).1 hl, (parseInt_iff _ _).1 hm,
        (parseFloat_iff _ _).1 hre, (parseFloat_iff _ _).1 him⟩
  · rintro ⟨t0, t1, t2, t3, h4, h0, h1, h2, h3⟩
    obtain ⟨rest, hts⟩ := pySplit_fourTokens h4
    rw [lineRec_of_tokens hts, (parseInt_iff _ _).2 h0, (parseInt_iff _ _).2 h1, (parseFloat_iff _ _).2 h2,
      (parseFloat_iff _ _).2 h3]
    rfl

theorem lineRec_none_iff (line : Text) : lineRec U line = none ↔ ∀ r, ¬ DataLine U line r := by
  rw [Option.eq_none_iff_forall_ne_some]
  exact forall_congr' fun r => not_congr (lineRec_iff line r)

theorem lineRec_nil : lineRec U [] = none := lineRec_of_short (by simp [pySplit, splitGo])

theorem lineRec_append_lf (l : Text) : lineRec U (l ++ ['\n']) = lineRec U l := by
  apply lineRec_congr
  exact splitGo_space_right _ _ (by intro c hc; simp at hc; subst hc; decide) _

/-- The records of a text. -/
def recs (U : Digits) (text : Text) : List Rec := (chunks text).filterMap (lineRec U)

theorem recs_eq (text : Text) : (lines (univNewlines text)).filterMap (lineRec U) = recs U text :=
  lines_filterMap _ lineRec_append_lf lineRec_nil text

/-! ### Line structure -/

theorem chunks_append (a : Text) {c : Char} (hc : c = '\n' ∨ c = '\r') (b : Text) :
    chunks (a ++ c :: b) = chunks a ++ chunks b := by
  induction a with
  | nil => rw [List.nil_append, chunks_break hc]; rfl
  | cons x a ih =>
    by_cases hx : x = '\n' ∨ x = '\r'
    · rw [List.cons_append, chunks_break hx, chunks_break hx, ih]; rfl
    · rw [not_or] at hx
      obtain ⟨l, ls, e⟩ := List.exists_cons_of_ne_nil (chunks_ne_nil a)
      rw [e] at ih
      rw [List.cons_append, chunks_char hx.1 hx.2 ih, chunks_char hx.1 hx.2 e]; rfl

theorem recs_append (a : Text) {c : Char} (hc : c = '\n' ∨ c = '\r') (b : Text) :
    recs U (a ++ c :: b) = recs U a ++ recs U b := by
  rw [recs, chunks_append a hc, List.filterMap_append]; rfl

theorem recs_nil : recs U [] = [] := by simp [recs, chunks, lineRec_nil]

theorem recs_newline {nl : Text} (h : Newline nl) (a b : Text) : recs U (a ++ nl ++ b) = recs U a ++ recs U b := by
  rcases h with rfl | rfl | rfl
  · rw [List.append_assoc]; exact recs_append a (Or.inl rfl) b
  · rw [List.append_assoc]; exact recs_append a (Or.inr rfl) b
  · rw [List.append_assoc]
    change recs U (a ++ '\r' :: '\n' :: b) = _
    rw [recs_append a (Or.inr rfl), show ('\n' :: b : Text) = [] ++ '\n' :: b by rfl,
      recs_append [] (Or.inl rfl), recs_nil]; rfl

theorem recs_line {l : Text} (h : NoBreak l) : recs U l = (lineRec U l).toList := by
  rw [recs, chunks_noBreak l h]
  cases h : lineRec U l <;> simp [h]

theorem recs_of_lines {text : Text} {ls : List Text} (h : Lines text ls) :
    recs U text = ls.filterMap (lineRec U) := by
  induction h with
  | @last l h =>
    rw [recs_line h]; cases hl : lineRec U l <;> simp [hl]
  | @cons l nl t ls h hn _ ih =>
    rw [recs_newline hn, recs_line h, ih]
    cases hl : lineRec U l <;> simp [hl]

theorem records_iff (ls : List Text) (rs : List Rec) : Records U ls rs ↔ ls.filterMap (lineRec U) = rs := by
  constructor
  · intro h
    induction h with
    | nil => rfl
    | skip h _ ih => rw [List.filterMap_cons, (lineRec_none_iff _).2 h, ih]
    | data h _ ih => rw [List.filterMap_cons, (lineRec_iff _ _).2 h, ih]
  · rintro rfl
    induction ls with
    | nil => exact .nil
    | cons l ls ih =>
      rw [List.filterMap_cons]
      cases hl : lineRec U l with
      | none => exact .skip ((lineRec_none_iff l).1 hl) ih
      | some r => exact .data ((lineRec_iff l r).1 hl) ih

theorem lines_chunks (text : Text) : Lines text (chunks text) := by
  induction text with
  | nil => exact .last (by intro c hc; cases hc)
  | cons c t ih =>
    by_cases hc : c = '\n' ∨ c = '\r'
    · rw [chunks_break hc]
      have := Lines.cons (l := []) (nl := [c]) (by intro c hc; cases hc)
        (by rcases hc with rfl | rfl
            · exact Or.inl rfl
            · exact Or.inr (Or.inl rfl)) ih
      simpa using this
    · rw [not_or] at hc
      have key : ∀ {t : Text} {ls : List Text}, Lines t ls → ∀ l ls', ls = l :: ls' → Lines (c :: t) ((c :: l) :: ls') := by
        intro t ls h l ls' e
        cases h with
        | last h =>
          cases e
          exact .last (by intro x hx; rcases List.mem_cons.1 hx with rfl | hx
                          · exact hc
                          · exact h x hx)
        | @cons l nl t ls h hn ht =>
          cases e
          have := Lines.cons (l := c :: l) (nl := nl) (by
            intro x hx; rcases List.mem_cons.1 hx with rfl | hx
            · exact hc
            · exact h x hx) hn ht
          simpa using this
      obtain ⟨l, ls, e⟩ := List.exists_cons_of_ne_nil (chunks_ne_nil t)
      rw [chunks_char hc.1 hc.2 e]
      exact key ih l ls e

theorem fileRecords_iff (text : Text) (rs : List Rec) : FileRecords U text rs ↔ recs U text = rs := by
  constructor
  · rintro ⟨ls, h1, h2⟩
    rw [recs_of_lines h1]; exact (records_iff ls rs).1 h2
  · intro h
    exact ⟨chunks text, lines_chunks text, (records_iff _ _).2 h⟩

/-! ### The loop over records -/

/-- `readLoop` on records. -/
def recLoop (E : PyEnv) (dn : List (Coefs PyComplex)) (cur : Coefs PyComplex) :
    List Rec → Res (List (Coefs PyComplex))
  | [] => .ok (dn ++ [cur])
  | (l, m, re, im) :: rest =>
    let (dn, cur) :=
      if cur.has (.int l) (.int m) then (dn ++ [cur], cur.emptyLike) else (dn, cur)
    match cur.append (.int l) (.int m) [PyFloat.complexOf E.mixed re im] with
    | .ok () cur => recLoop E dn cur rest
    | .error e _ => .error e

theorem readLoop_eq (E : PyEnv) (ls : List Text) (dn : List (Coefs PyComplex)) (cur : Coefs PyComplex) :
    readLoop E dn cur (ls.map strip) = recLoop E dn cur (ls.filterMap (lineRec E.digits)) := by
  induction ls generalizing dn cur with
  | nil => rfl
  | cons line ls ih =>
    rw [List.map_cons, List.filterMap_cons, readLoop]
    have hrec : lineRec E.digits line = lineRec E.digits (strip line) := (lineRec_strip line).symm
    rcases hl : lineFields E.digits (strip line) with e | ⟨l, m, re, im⟩
    · have : lineRec E.digits line = none := by rw [hrec, lineRec, hl]
      rw [this]
      rcases lineFields_error hl with rfl | rfl
      · exact ih dn cur
      · exact ih dn cur
    · have : lineRec E.digits line = some (l, m, re, im) := by rw [hrec, lineRec, hl]
      simp only [this, recLoop]
      split_ifs with hh
      · simp only
        rcases cur.emptyLike.append (.int l) (.int m) [PyFloat.complexOf E.mixed re im] with ⟨⟨⟩, cur'⟩ | ⟨e, _⟩
        · exact ih _ _
        · rfl
      · simp only
        rcases cur.append (.int l) (.int m) [PyFloat.complexOf E.mixed re im] with ⟨⟨⟩, cur'⟩ | ⟨e, _⟩
        · exact ih _ _
        · rfl

theorem readMagnetogram_eq (E : PyEnv) (text : Text) :
    readMagnetogram E text = (recLoop E [] (Coefs.new [zeroJ] .cplx) (recs E.digits text) >>= fun sets =>
      Coefs.hstack (E.iter (sets.flatMap Coefs.keys)) sets) := by
  unfold readMagnetogram
  simp only [readLoop_eq, recs_eq]

/-- Invariant of the loop: every set is well-formed with one complex column of default zero. -/
structure Col (s : Coefs PyComplex) : Prop where
  wf : s.WF
  dflt : s.dflt = [zeroJ]
  dtype : s.dtype = .cplx

theorem Col.new : Col (Coefs.new [zeroJ] .cplx) := ⟨new_WF _ _ (fun _ _ => rfl), rfl, rfl⟩

theorem Col.emptyLike {s : Coefs PyComplex} (h : Col s) : Col s.emptyLike :=
  ⟨new_WF _ _ (fun _ _ => rfl), h.dflt, h.dtype⟩

theorem Col.append_ok {s : Coefs PyComplex} (h : Col s) {l m : ℤ} (hk : (l, m) ∉ s.keys) (hv : |m| ≤ l) (z : PyComplex) :
    s.append (.int l) (.int m) [z] = .ok () (s.stored l m [z]) ∧ Col (s.stored l m [z]) := by
  have h1 : ¬ s.keyIn (.int l) (.int m) = true := by rwa [keyIn_int]
  have hv' : |((m : ℤ) : ℚ)| ≤ ((l : ℤ) : ℚ) := by exact_mod_cast hv
  refine ⟨?_, h.wf.stored hv (by simp [h.dflt]), h.dflt, h.dtype⟩
  rw [append_run, if_neg h1, set_run, if_pos ⟨by simpa using hv', by simp [h.dflt]⟩]
  rfl

theorem append_invalid {s : Coefs PyComplex} {l m : ℤ} (hk : (l, m) ∉ s.keys) (hv : ¬ |m| ≤ l) (z : PyComplex) :
    s.append (.int l) (.int m) [z] = .error .assertion s := by
  have h1 : ¬ s.keyIn (.int l) (.int m) = true := by rwa [keyIn_int]
  have hv' : ¬ |((m : ℤ) : ℚ)| ≤ ((l : ℤ) : ℚ) := by exact_mod_cast hv
  rw [append_run, if_neg h1, set_run, if_neg (fun h => hv' (by simpa using h.1))]

/-- One step of the loop, split into its cases. -/
theorem recLoop_cons (E : PyEnv) (dn : List (Coefs PyComplex)) (cur : Coefs PyComplex) (hc : Col cur)
    (l m : ℤ) (re im : PyFloat) (rest : List Rec) :
    recLoop E dn cur ((l, m, re, im) :: rest) =
      if |m| ≤ l then
        if (l, m) ∈ cur.keys then
          recLoop E (dn ++ [cur]) (cur.emptyLike.stored l m [PyFloat.complexOf E.mixed re im]) rest
        else recLoop E dn (cur.stored l m [PyFloat.complexOf E.mixed re im]) rest
      else .error .assertion := by
  rw [recLoop]
  have hempty : (l, m) ∉ cur.emptyLike.keys := by simp [Coefs.emptyLike, Coefs.new, Coefs.keys]
  by_cases hk : (l, m) ∈ cur.keys
  · rw [if_pos ((has_int cur l m).2 hk)]
    by_cases hv : |m| ≤ l
    · rw [if_pos hv, if_pos hk]
      simp only [(hc.emptyLike.append_ok hempty hv _).1]
    · rw [if_neg hv]
      simp only [append_invalid hempty hv]
  · rw [if_neg (by rw [has_int]; exact hk)]
    by_cases hv : |m| ≤ l
    · rw [if_pos hv, if_neg hk]
      simp only [(hc.append_ok hk hv _).1]
    · rw [if_neg hv]
      simp only [append_invalid hk hv]

theorem recLoop_invariant (E : PyEnv) (rs : List Rec) (dn : List (Coefs PyComplex)) (cur : Coefs PyComplex)
    (hd : ∀ s ∈ dn, Col s) (hc : Col cur) :
    (∃ sets, recLoop E dn cur rs = .ok sets ∧ (∀ s ∈ sets, Col s) ∧ sets ≠ [] ∧ ∀ r ∈ rs, |r.2.1| ≤ r.1) ∨
    (recLoop E dn cur rs = .error .assertion ∧ ∃ r ∈ rs, ¬ |r.2.1| ≤ r.1) := by
  induction rs generalizing dn cur with
  | nil =>
    left
    refine ⟨dn ++ [cur], rfl, ?_, by simp, by simp⟩
    intro s hs; rcases List.mem_append.1 hs with h | h
    · exact hd s h
    · simp at h; subst h; exact hc
  | cons r rs ih =>
    obtain ⟨l, m, re, im⟩ := r
    rw [recLoop_cons E dn cur hc]
    by_cases hv : |m| ≤ l
    · rw [if_pos hv]
      have hempty : (l, m) ∉ cur.emptyLike.keys := by simp [Coefs.emptyLike, Coefs.new, Coefs.keys]
      have fin : ∀ X : Res (List (Coefs PyComplex)),
          ((∃ sets, X = .ok sets ∧ (∀ s ∈ sets, Col s) ∧ sets ≠ [] ∧ ∀ r ∈ rs, |r.2.1| ≤ r.1) ∨
            (X = .error .assertion ∧ ∃ r ∈ rs, ¬ |r.2.1| ≤ r.1)) →
          ((∃ sets, X = .ok sets ∧ (∀ s ∈ sets, Col s) ∧ sets ≠ [] ∧
              ∀ r ∈ (l, m, re, im) :: rs, |r.2.1| ≤ r.1) ∨
            (X = .error .assertion ∧ ∃ r ∈ (l, m, re, im) :: rs, ¬ |r.2.1| ≤ r.1)) := by
        rintro X (⟨sets, h1, h2, h3, h4⟩ | ⟨h1, r, h2, h3⟩)
        · left
          refine ⟨sets, h1, h2, h3, fun r hr => ?_⟩
          rcases List.mem_cons.1 hr with rfl | hr
          · exact hv
          · exact h4 r hr
        · right; exact ⟨h1, r, List.mem_cons_of_mem _ h2, h3⟩
      split_ifs with hk
      · refine fin _ (ih _ _ ?_ (hc.emptyLike.append_ok hempty hv _).2)
        intro s hs; rcases List.mem_append.1 hs with h | h
        · exact hd s h
        · simp at h; subst h; exact hc
      · exact fin _ (ih _ _ hd (hc.append_ok hk hv _).2)
    · rw [if_neg hv]
      right; exact ⟨rfl, (l, m, re, im), List.mem_cons_self, hv⟩

theorem foldl_promote_cplx (ss : List (Coefs PyComplex)) (h : ∀ s ∈ ss, s.dtype = .cplx) :
    ss.foldl (fun d s => d.promote s.dtype) DType.cplx = .cplx := by
  induction ss with
  | nil => rfl
  | cons s ss ih =>
    rw [List.foldl_cons, h s List.mem_cons_self]
    exact ih (fun s hs => h s (List.mem_cons_of_mem _ hs))

/-- Stacking the columns. -/
theorem stack_ok (E : PyEnv) (sets : List (Coefs PyComplex)) (h : ∀ s ∈ sets, Col s) (hne : sets ≠ []) :
    ∃ r, Coefs.hstack (E.iter (sets.flatMap Coefs.keys)) sets = .ok r ∧ r.WF ∧ r.dtype = .cplx ∧
      r.dflt = List.replicate sets.length zeroJ ∧ (∀ k, k ∈ r.keys ↔ ∃ s ∈ sets, k ∈ s.keys) ∧
      ∀ k, r.getI k = sets.flatMap fun s => s.getI k := by
  obtain ⟨s0, rest, rfl⟩ := List.exists_cons_of_ne_nil hne
  have hit := E.iter_ok ((s0 :: rest).flatMap Coefs.keys)
  obtain ⟨r, h1, h2, h3, h4, h5, h6⟩ := hstack_spec (s0 := s0) (rest := rest) (fun s hs => (h s hs).wf) hit
  refine ⟨r, h1, h2, ?_, ?_, ?_, h6⟩
  · rw [h5, (h s0 List.mem_cons_self).dtype]
    exact foldl_promote_cplx rest (fun s hs => (h s (List.mem_cons_of_mem _ hs)).dtype)
  · rw [h4]
    have key : ∀ (l : List (Coefs PyComplex)), (∀ s ∈ l, Col s) →
        l.flatMap (fun s => s.dflt) = List.replicate l.length zeroJ := by
      intro l
      induction l with
      | nil => intro _; rfl
      | cons s l ih =>
        intro hl
        rw [List.flatMap_cons, ih (fun s hs => hl s (List.mem_cons_of_mem _ hs)), (hl s List.mem_cons_self).dflt,
          List.length_cons, List.replicate_succ]; rfl
    exact key _ h
  · intro k
    rw [h3, hit.2, List.mem_flatMap]

end Verif

namespace Verif
open Spec Coefs

/-! ### Blocks -/

/-- Store the records of a block. -/
def addRecs (E : PyEnv) (cur : Coefs PyComplex) : List Rec → Coefs PyComplex
  | [] => cur
  | r :: rs => addRecs E (cur.stored r.1 r.2.1 [PyFloat.complexOf E.mixed r.2.2.1 r.2.2.2]) rs

theorem getI_stored (s : Coefs PyComplex) (l m : ℤ) (v : List PyComplex) (k : Key) :
    (s.stored l m v).getI k = if k = (l, m) then v else s.getI k := by
  have hc : v.map (Elem.cast s.dtype) = v := by
    conv_rhs => rw [← List.map_id v]
    rfl
  simp only [getI, stored, dictGet_dictSet, hc]
  by_cases h : (l, m) = k
  · rw [if_pos h, if_pos h.symm]; rfl
  · rw [if_neg h, if_neg (fun h' => h h'.symm)]

theorem addRecs_ok (E : PyEnv) (b : List Rec) (cur : Coefs PyComplex) (hc : Col cur)
    (hk : ∀ r ∈ b, recKey r ∉ cur.keys) (hn : (b.map recKey).Nodup) (hv : ∀ r ∈ b, |r.2.1| ≤ r.1) :
    Col (addRecs E cur b) ∧ (addRecs E cur b).keys = cur.keys ++ b.map recKey ∧
    (∀ k, k ∉ b.map recKey → (addRecs E cur b).getI k = cur.getI k) ∧
    (∀ r ∈ b, (addRecs E cur b).getI (recKey r) = [PyFloat.complexOf E.mixed r.2.2.1 r.2.2.2]) ∧
    ∀ dn rest, recLoop E dn cur (b ++ rest) = recLoop E dn (addRecs E cur b) rest := by
  induction b generalizing cur with
  | nil => exact ⟨hc, by simp [addRecs], by simp [addRecs], by simp, fun _ _ => rfl⟩
  | cons r b ih =>
    obtain ⟨l, m, re, im⟩ := r
    have hk0 : (l, m) ∉ cur.keys := hk (l, m, re, im) List.mem_cons_self
    have hv0 : |m| ≤ l := hv (l, m, re, im) List.mem_cons_self
    rw [List.map_cons, List.nodup_cons] at hn
    obtain ⟨e1, c1⟩ := hc.append_ok hk0 hv0 (PyFloat.complexOf E.mixed re im)
    have hkeys : (cur.stored l m [PyFloat.complexOf E.mixed re im]).keys = cur.keys ++ [(l, m)] := by
      rw [keys_stored, if_neg hk0]
    obtain ⟨i1, i2, i3, i4, i5⟩ := ih _ c1 (by
      intro r hr
      rw [hkeys, List.mem_append, not_or]
      refine ⟨hk r (List.mem_cons_of_mem _ hr), ?_⟩
      intro h
      simp only [List.mem_singleton] at h
      exact hn.1 (List.mem_map.2 ⟨r, hr, h⟩)) hn.2 (fun r hr => hv r (List.mem_cons_of_mem _ hr))
    refine ⟨i1, ?_, ?_, ?_, ?_⟩
    · rw [addRecs, i2, hkeys]; simp [recKey]
    · intro k hk'
      rw [List.map_cons, List.mem_cons, not_or] at hk'
      rw [addRecs, i3 k hk'.2, getI_stored]; exact if_neg hk'.1
    · intro r hr
      rcases List.mem_cons.1 hr with rfl | hr
      · rw [addRecs, i3 _ hn.1, getI_stored]; exact if_pos rfl
      · rw [addRecs]; exact i4 r hr
    · intro dn rest
      rw [List.cons_append, recLoop_cons E dn cur hc, if_pos hv0, if_neg hk0, i5]; rfl

/-- The column of a block. -/
def blockCol (E : PyEnv) (b : List Rec) : Coefs PyComplex := addRecs E (Coefs.new [zeroJ] .cplx) b

theorem blockCol_ok (E : PyEnv) (b : List Rec) (hn : (b.map recKey).Nodup) (hv : ∀ r ∈ b, |r.2.1| ≤ r.1) :
    Col (blockCol E b) ∧ (blockCol E b).keys = b.map recKey ∧
    (∀ k, k ∉ b.map recKey → (blockCol E b).getI k = [zeroJ]) ∧
    (∀ r ∈ b, (blockCol E b).getI (recKey r) = [PyFloat.complexOf E.mixed r.2.2.1 r.2.2.2]) ∧
    ∀ dn rest, recLoop E dn (Coefs.new [zeroJ] .cplx) (b ++ rest) = recLoop E dn (blockCol E b) rest := by
  obtain ⟨h1, h2, h3, h4, h5⟩ := addRecs_ok E b (Coefs.new [zeroJ] .cplx) Col.new
    (by simp [Coefs.new, Coefs.keys]) hn hv
  exact ⟨h1, by rw [blockCol, h2]; simp [Coefs.new, Coefs.keys], fun k hk => by rw [blockCol, h3 k hk]; rfl, h4, h5⟩

theorem recLoop_blocks (E : PyEnv) (b0 : List Rec) (bs : List (List Rec)) (dn : List (Coefs PyComplex))
    (hn : ∀ b ∈ b0 :: bs, (b.map recKey).Nodup) (hv : ∀ b ∈ b0 :: bs, ∀ r ∈ b, |r.2.1| ≤ r.1)
    (hl : Linked (b0 :: bs)) :
    recLoop E dn (blockCol E b0) bs.flatten = .ok (dn ++ (b0 :: bs).map (blockCol E)) := by
  induction bs generalizing b0 dn with
  | nil => rfl
  | cons b bs ih =>
    obtain ⟨⟨r, hr, hk⟩, hl'⟩ := hl
    obtain ⟨rs, rfl⟩ : ∃ rs, b = r :: rs := by
      cases b with
      | nil => cases hr
      | cons a rs => simp at hr; subst hr; exact ⟨rs, rfl⟩
    obtain ⟨c1, c2, _, _, _⟩ := blockCol_ok E b0 (hn _ List.mem_cons_self) (hv _ List.mem_cons_self)
    have hmem : r :: rs ∈ b0 :: (r :: rs) :: bs := by simp
    obtain ⟨d1, d2, _, _, d5⟩ := blockCol_ok E (r :: rs) (hn _ hmem) (hv _ hmem)
    have hvr := hv _ hmem r List.mem_cons_self
    have e0 : (blockCol E b0).emptyLike = Coefs.new [zeroJ] .cplx := by
      rw [Coefs.emptyLike, c1.dflt, c1.dtype]
    -- the first record starts a new set, exactly as on an empty one
    have e1 : recLoop E dn (blockCol E b0) ((r :: rs) ++ bs.flatten)
        = recLoop E (dn ++ [blockCol E b0]) (Coefs.new [zeroJ] .cplx) ((r :: rs) ++ bs.flatten) := by
      obtain ⟨l, m, re, im⟩ := r
      rw [List.cons_append, recLoop_cons E dn _ c1, recLoop_cons E _ _ Col.new, if_pos hvr, if_pos hvr,
        if_pos (by rw [c2]; exact hk), if_neg (by simp [Coefs.new, Coefs.keys]), e0]
    rw [List.flatten_cons, e1, d5, ih (r :: rs) _ (fun b hb => hn b (List.mem_cons_of_mem _ hb))
      (fun b hb => hv b (List.mem_cons_of_mem _ hb)) hl']
    simp

end Verif
