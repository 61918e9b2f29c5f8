import Verif.Model.Cli
import Verif.Props.Writer
import Verif.Lemmas.CoefOps

/-!
# Lemmas for the command line program
-/

namespace Verif
open Spec Coefs

/-! ### The characters of a written file -/

/-- ASCII only. -/
def Ascii (t : Text) : Prop := ∀ c ∈ t, c.toNat < 128

theorem Ascii.append {a b : Text} (ha : Ascii a) (hb : Ascii b) : Ascii (a ++ b) := by
  intro c hc; rcases List.mem_append.1 hc with h | h; exacts [ha c h, hb c h]

theorem Ascii.cons {c : Char} {b : Text} (hc : c.toNat < 128) (hb : Ascii b) : Ascii (c :: b) := by
  intro x hx; rcases List.mem_cons.1 hx with rfl | h; exacts [hc, hb x h]

theorem ascii_nil : Ascii [] := by simp [Ascii]

theorem ascii_digit {d : ℕ} (h : d < 10) : (digitChar d).toNat < 128 := by
  interval_cases d <;> decide

theorem ascii_natText (n : ℕ) : Ascii (natText n) := by
  obtain ⟨ds, e, _, h, _⟩ := natText_spec n
  rw [e]
  intro c hc
  obtain ⟨d, hd, rfl⟩ := List.mem_map.1 hc
  exact ascii_digit (h d hd)

theorem ascii_intText (z : ℤ) : Ascii (intText z) := by
  unfold intText; split_ifs
  · exact .cons (by decide) (ascii_natText _)
  · exact ascii_natText _

theorem ascii_fixedDigits (w n : ℕ) : Ascii (fixedDigits w n) := by
  induction w generalizing n with
  | zero => exact ascii_nil
  | succ w ih => exact (ih _).append (.cons (ascii_digit (Nat.mod_lt _ (by norm_num))) ascii_nil)

theorem ascii_fmtE (x : PyFloat) : Ascii (fmtE x) := by
  have hs : ∀ b, Ascii (signText b) := by
    intro b; cases b
    · exact ascii_nil
    · exact .cons (by decide) ascii_nil
  have he : ∀ k, Ascii (expText k) := by
    intro k
    unfold expText
    refine .cons ?_ ?_
    · split_ifs <;> decide
    · split_ifs
      · exact .cons (by decide) (ascii_natText _)
      · exact ascii_natText _
  cases x with
  | fin neg q =>
    exact (((((hs _).append (ascii_fixedDigits _ _)).append (.cons (by decide) ascii_nil)).append
      (ascii_fixedDigits _ _)).append (.cons (by decide) ascii_nil)).append (he _)
  | inf neg => exact (hs _).append (.cons (by decide) (.cons (by decide) (.cons (by decide) ascii_nil)))
  | nan => exact .cons (by decide) (.cons (by decide) (.cons (by decide) ascii_nil))

theorem ascii_padLeft (w : ℕ) {t : Text} (h : Ascii t) : Ascii (padLeft w t) := by
  refine Ascii.append ?_ h
  intro c hc
  rw [List.eq_of_mem_replicate hc]; decide

theorem ascii_dataLine (d m : ℤ) (z : PyComplex) : Ascii (dataLine d m z) := by
  have sp : Ascii [' ', ' '] := .cons (by decide) (.cons (by decide) ascii_nil)
  exact ((((((ascii_padLeft _ (ascii_intText _)).append sp).append (ascii_padLeft _ (ascii_intText _))).append sp).append
    (ascii_padLeft _ (ascii_fmtE _))).append sp).append (ascii_padLeft _ (ascii_fmtE _))

/-- Every character of a written file is ASCII or comes from the name in the header. -/
theorem written_chars {s : Coefs PyComplex} (hs : s.WF) (src fn : Text) (dmo : Option ℤ) (om : ℤ) (swmf : Bool)
    {text : Text} (h : writeMagnetogram src fn s dmo om swmf = .ok text) (c : Char) (hc : c ∈ text) :
    c.toNat < 128 ∨ c ∈ (if swmf then fn else src) := by
  have lit : ∀ t : Text, (t.all fun c => decide (c.toNat < 128)) = true → Ascii t := by
    intro t ht c hc; simpa using List.all_eq_true.1 ht c hc
  by_cases hw : s.dflt = [] ∨ winList (dmo.getD s.degreeMax) om = []
  · rw [write_error hs src fn dmo om swmf hw] at h; cases h
  · rw [not_or] at hw
    rw [write_ok hs hw.1 src fn dmo om swmf hw.2] at h
    cases h
    rcases List.mem_append.1 hc with h | h
    · cases swmf
      · simp only [headerText, Bool.false_eq_true, if_false] at h ⊢
        rcases List.mem_append.1 h with h | h
        · rcases List.mem_append.1 h with h | h
          · rcases List.mem_append.1 h with h | h
            · rcases List.mem_append.1 h with h | h
              · exact Or.inl (lit _ (by decide) c h)
              · exact Or.inr h
            · exact Or.inl (lit _ (by decide) c h)
          · exact Or.inl (ascii_intText _ c h)
        · exact Or.inl (lit _ (by decide) c h)
      · simp only [headerText, if_true] at h ⊢
        rcases List.mem_append.1 h with h | h
        · rcases List.mem_append.1 h with h | h
          · rcases List.mem_append.1 h with h | h
            · exact Or.inr h
            · exact Or.inl (lit _ (by decide) c h)
          · exact Or.inl (ascii_intText _ c h)
        · exact Or.inl (lit _ (by decide) c h)
    · left
      rw [bodyText] at h
      obtain ⟨i, _, h⟩ := List.mem_flatMap.1 h
      obtain ⟨k, _, h⟩ := List.mem_flatMap.1 h
      exact ((ascii_dataLine _ _ _).append (.cons (by decide) ascii_nil)) c h

/-! ### What the reader returns -/

theorem read_column (E : PyEnv) {text : Text} {s : Coefs PyComplex} (h : readMagnetogram E text = .ok s) :
    s.WF ∧ s.dtype = .cplx ∧ ∃ n, s.dflt = List.replicate (n + 1) zeroJ := by
  rw [readMagnetogram_eq] at h
  rcases recLoop_invariant E (recs E.digits text) [] _ (by simp) Col.new with ⟨sets, h1, h2, h3, _⟩ | ⟨h1, _⟩
  · obtain ⟨r, e, w, t, d, _⟩ := stack_ok E sets h2 h3
    rw [h1] at h
    have : r = s := by rw [← Except.ok.injEq (ε := Err), ← e, ← h]; rfl
    subst this
    obtain ⟨s0, rest, rfl⟩ := List.exists_cons_of_ne_nil h3
    exact ⟨w, t, rest.length, d⟩
  · rw [h1] at h; cases h

/-! ### Scaling with floats -/

namespace Cli

/-- The product that `scale` stores. -/
def times (x : PyFloat) (z : PyComplex) : PyComplex := PyFloat.cmul z (x, .fin false 0)

theorem scaleF_fold (f : ℤ → ℤ → Res PyFloat) (g : Key → PyFloat) (ks : List Key) (hf : ∀ k ∈ ks, f k.1 k.2 = .ok (g k))
    (hn : ks.Nodup) {o : Coefs PyComplex} (ho : o.WF) (hsub : ∀ k ∈ ks, k ∈ o.keys) :
    ∃ s', ks.foldlM (fun o k => (do
        let x ← f k.1 k.2
        @Coefs.imulAt _ _ ⟨PyFloat.cmul⟩ o k (x, .fin false 0) : Res (Coefs PyComplex))) o = .ok s' ∧ s'.WF ∧
      s'.keys = o.keys ∧ s'.dflt = o.dflt ∧ s'.dtype = o.dtype ∧
      ∀ k, s'.getI k = if k ∈ ks then (o.getI k).map (times (g k)) else o.getI k := by
  induction ks generalizing o with
  | nil => exact ⟨o, rfl, ho, rfl, rfl, rfl, by simp⟩
  | cons k ks ih =>
    obtain ⟨o1, e1, w1, k1, d1, t1, g1⟩ := @imulAt_ok _ _ ⟨PyFloat.cmul⟩ o ho k (hsub k List.mem_cons_self)
      (g k, .fin false 0)
    rw [List.nodup_cons] at hn
    obtain ⟨s', e2, w2, k2, d2, t2, g2⟩ := ih (fun k' h => hf k' (List.mem_cons_of_mem _ h)) hn.2 w1
      (fun k' h => by rw [k1]; exact hsub k' (List.mem_cons_of_mem _ h))
    refine ⟨s', ?_, w2, k2.trans k1, d2.trans d1, t2.trans t1, fun k' => ?_⟩
    · rw [List.foldlM_cons, hf k List.mem_cons_self]
      show (do let o ← @Coefs.imulAt _ _ ⟨PyFloat.cmul⟩ o k (g k, .fin false 0); _) = _
      rw [e1]; exact e2
    · rw [g2, g1]
      by_cases h1 : k' = k
      · subst h1
        rw [if_neg hn.1, if_pos rfl, if_pos List.mem_cons_self]
        rfl
      · simp [h1]

theorem scaleF_spec {s : Coefs PyComplex} (hs : s.WF) (f : ℤ → ℤ → Res PyFloat) (g : Key → PyFloat)
    (hf : ∀ k ∈ s.keys, f k.1 k.2 = .ok (g k)) :
    ∃ s', scaleF s f = .ok s' ∧ s'.WF ∧ s'.keys = sortKeys s.keys ∧ s'.dflt = s.dflt ∧ s'.dtype = s.dtype ∧
      ∀ k, s'.getI k = if k ∈ s.keys then (s.getI k).map (times (g k)) else s.dflt := by
  obtain ⟨o, e1, w1, k1, d1, t1, g1⟩ := copy_spec hs
  obtain ⟨s', e2, w2, k2, d2, t2, g2⟩ := scaleF_fold f g s.keys hf hs.nodup w1
    (fun k h => by rw [k1]; simpa using h)
  refine ⟨s', by rw [scaleF, e1]; exact e2, w2, k2.trans k1, d2.trans d1, t2.trans t1, fun k => ?_⟩
  rw [g2, g1]
  split_ifs with h
  · rfl
  · exact getI_of_not_mem s k h

theorem scaleF_error {s : Coefs PyComplex} (hs : s.WF) (f : ℤ → ℤ → Res PyFloat) {k : Key} (hk : k ∈ s.keys) {e : Err}
    (he : f k.1 k.2 = .error e) : ∃ e', scaleF s f = .error e' := by
  obtain ⟨o, e1, _⟩ := copy_spec hs
  have key : ∀ (ks : List Key) (o : Coefs PyComplex), k ∈ ks → ∃ e', ks.foldlM (fun o k => (do
        let x ← f k.1 k.2
        @Coefs.imulAt _ _ ⟨PyFloat.cmul⟩ o k (x, .fin false 0) : Res (Coefs PyComplex))) o = .error e' := by
    intro ks
    induction ks with
    | nil => intro o h; cases h
    | cons k0 ks ih =>
      intro o h
      rw [List.foldlM_cons]
      rcases List.mem_cons.1 h with rfl | h
      · exact ⟨e, by rw [he]; rfl⟩
      · rcases hx : (do
            let x ← f k0.1 k0.2
            @Coefs.imulAt _ _ ⟨PyFloat.cmul⟩ o k0 (x, .fin false 0) : Res (Coefs PyComplex)) with e' | o'
        · exact ⟨e', rfl⟩
        · exact ih o' h
  rw [scaleF, e1]
  exact key s.keys o hk

theorem scaleF_inv {s t : Coefs PyComplex} (hs : s.WF) {f : ℤ → ℤ → Res PyFloat} (h : scaleF s f = .ok t) :
    ∃ g : Key → PyFloat, ∀ k ∈ s.keys, f k.1 k.2 = .ok (g k) := by
  refine ⟨fun k => match f k.1 k.2 with | .ok x => x | .error _ => .nan, fun k hk => ?_⟩
  rcases hx : f k.1 k.2 with e | x
  · obtain ⟨e', he⟩ := scaleF_error hs f hk hx
    rw [he] at h; cases h
  · simp only [hx]

/-- Two well-formed sets that list the same pairs in the same order with the same values are equal. -/
theorem coefs_ext {s t : Coefs PyComplex} (hs : s.WF) (ht : t.WF) (hk : s.keys = t.keys) (hd : s.dflt = t.dflt)
    (hty : s.dtype = t.dtype) (hv : ∀ k ∈ s.keys, s.getI k = t.getI k) : s = t := by
  have hdict : s.dict = t.dict := by
    have rep : ∀ {u : Coefs PyComplex}, u.WF → u.dict = u.keys.map fun k => (k, u.getI k) := by
      intro u hu
      rw [keys, List.map_map]
      conv_lhs => rw [← List.map_id u.dict]
      refine List.map_congr_left fun kv hkv => ?_
      have : dictGet u.dict kv.1 = some kv.2 := dictGet_of_mem _ hu.nodup kv hkv
      simp only [id, Function.comp, getI, this, Option.getD_some]
    rw [rep hs, rep ht, ← hk]
    exact List.map_congr_left fun k h => by rw [hv k h]
  have hdeg : s.degreeMax = t.degreeMax := by
    rcases hs.degAttained with ⟨h1, h2⟩ | ⟨k, h1, h2⟩ <;> rcases ht.degAttained with ⟨h3, h4⟩ | ⟨k', h3, h4⟩
    · rw [h2, h4]
    · rw [← hk, h1] at h3; cases h3
    · rw [hk, h3] at h1; cases h1
    · have := ht.degUpper k (hk ▸ h1)
      have := hs.degUpper k' (hk ▸ h3)
      omega
  have hord : s.orderMin = t.orderMin := by
    have a1 := hs.ordNonpos
    have a2 := ht.ordNonpos
    rcases hs.ordAttained with h1 | ⟨k, h1, h2⟩ <;> rcases ht.ordAttained with h3 | ⟨k', h3, h4⟩
    · rw [h1, h3]
    · have := hs.ordLower k' (hk ▸ h3); omega
    · have := ht.ordLower k (hk ▸ h1); omega
    · have := ht.ordLower k (hk ▸ h1)
      have := hs.ordLower k' (hk ▸ h3)
      omega
  cases s; cases t
  simp only at hdict hdeg hord hd hty
  rw [hdict, hdeg, hord, hd, hty]

/-! ### Running the program -/

theorem lift_ok {α β : Type} (a : α) (f : α → Meth Disk β) (d : Disk) : (lift (.ok a) >>= f) d = f a d := rfl
theorem lift_error {α β : Type} (e : Err) (f : α → Meth Disk β) (d : Disk) :
    (lift (.error e) >>= f) d = .error e d := rfl

theorem save_run (src : Text) (o : Options) (pf : Text) (s : Coefs PyComplex) (swmf : Bool) (d : Disk) :
    (∃ e, save src o pf s swmf d = .error e d) ∨
    ∃ name text, outputName d o.input o.output pf = .ok name ∧ writeMagnetogram src name s o.degreeMax 0 swmf = .ok text ∧
      (save src o pf s swmf d = .ok () (d.put (d.place name) text) ∨
        text.all d.encodes = false ∧ save src o pf s swmf d = .error .value (d.put (d.place name) [])) := by
  have e0 : save src o pf s swmf d = (lift (outputName d o.input o.output pf) >>= fun name =>
      lift (writeMagnetogram src name s o.degreeMax 0 swmf) >>= fun text => Disk.write name text) d := rfl
  rcases h1 : outputName d o.input o.output pf with e | name
  · exact Or.inl ⟨e, by rw [e0, h1]; rfl⟩
  · rcases h2 : writeMagnetogram src name s o.degreeMax 0 swmf with e | text
    · refine Or.inl ⟨e, ?_⟩
      rw [e0, h1, lift_ok, h2]; rfl
    · have e1 : save src o pf s swmf d = Disk.write name text d := by rw [e0, h1, lift_ok, h2, lift_ok]
      rw [e1]
      unfold Disk.write
      by_cases hw : d.writable (d.place name) = false
      · exact Or.inl ⟨.noFile, by rw [if_pos hw]⟩
      · refine Or.inr ⟨name, text, rfl, h2, ?_⟩
        rw [if_neg hw]
        by_cases ha : text.all d.encodes = false
        · exact Or.inr ⟨ha, by rw [if_pos ha]⟩
        · exact Or.inl (by rw [if_neg ha])

end Cli
end Verif
