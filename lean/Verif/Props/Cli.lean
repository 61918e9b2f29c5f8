import Verif.Lemmas.Cli

/-!
# C58 and C59: the program `sw-convert-magnetogram`
-/

namespace Verif
open Spec Coefs Cli

namespace Spec

/-- The same file system, except for the node at one place. -/
def SameElsewhere (d d' : Disk) (i : ℕ) : Prop :=
  d'.place = d.place ∧ d'.writable = d.writable ∧ d'.encodes = d.encodes ∧ ∀ j ≠ i, d'.node j = d.node j

/-- The conversion back to the ZDI convention is asked for, and not switched off by `--no-conversion`. -/
def backwards (o : Options) : Prop := o.noConversion = false ∧ o.pfssToZdi = true

instance (o : Options) : Decidable (backwards o) := inferInstanceAs (Decidable (_ ∧ _))

/-- The ending of a made-up name. -/
def ending (o : Options) : Text := if backwards o then "zdi".toList else "wso".toList

/-- Whether the output starts with the SWMF header. -/
def header (o : Options) : Bool := if backwards o then false else o.swmfHeader

/-- The name of the output file: the one given or the one made up. -/
def target (o : Options) : Text := o.output.getD (madeName o.input (ending o))

/-- The number zero; the parts may be signed. -/
def ZeroNumber (z : PyComplex) : Prop := ∃ a b, z = (.fin a 0, .fin b 0)

end Spec

namespace Cli

theorem put_same (d : Disk) (i : ℕ) (t : Text) : SameElsewhere d (d.put i t) i :=
  ⟨rfl, rfl, rfl, fun j hj => by simp [Disk.put, hj]⟩

theorem read_put (d : Disk) (name : Text) (t : Text) : (d.put (d.place name) t).read name = .ok t := by
  simp [Disk.read, Disk.put]

/-! ### Names -/

theorem basename_append {dir base : Text} (hd : dir = [] ∨ ∃ p, dir = p ++ ['/']) (hb : '/' ∉ base) :
    basename (dir ++ base) = base := by
  have h1 : ∀ (b r : Text), '/' ∉ b → (r = [] ∨ ∃ r', r = '/' :: r') →
      (b ++ r).takeWhile (fun c => decide (c ≠ '/')) = b := by
    intro b r hb hr
    induction b with
    | nil => rcases hr with rfl | ⟨r', rfl⟩ <;> simp
    | cons c b ih =>
      have hc : c ≠ '/' := fun h => hb (by simp [h])
      rw [List.cons_append, List.takeWhile_cons_of_pos (by simpa using hc), ih fun h => hb (by simp [h])]
  rw [basename, List.reverse_append, h1 _ _ (by simpa using hb), List.reverse_reverse]
  rcases hd with rfl | ⟨p, rfl⟩
  · exact Or.inl rfl
  · exact Or.inr ⟨p.reverse, by simp⟩

theorem basename_split (t : Text) : ∃ dir, t = dir ++ basename t ∧ (dir = [] ∨ ∃ p, dir = p ++ ['/']) ∧ '/' ∉ basename t := by
  have h1 : ∀ r : Text, ∃ d, r = r.takeWhile (fun c => decide (c ≠ '/')) ++ d ∧ (d = [] ∨ ∃ p, d = '/' :: p) ∧
      '/' ∉ r.takeWhile (fun c => decide (c ≠ '/')) := by
    intro r
    induction r with
    | nil => exact ⟨[], rfl, Or.inl rfl, by simp⟩
    | cons c r ih =>
      by_cases hc : c = '/'
      · exact ⟨c :: r, by simp [hc], Or.inr ⟨r, by rw [hc]⟩, by simp [hc]⟩
      · obtain ⟨d, e, h, n⟩ := ih
        refine ⟨d, ?_, h, ?_⟩
        · rw [List.takeWhile_cons_of_pos (by simpa using hc), List.cons_append, ← e]
        · rw [List.takeWhile_cons_of_pos (by simpa using hc)]
          simp only [List.mem_cons, not_or]
          exact ⟨fun h => hc h.symm, n⟩
  obtain ⟨d, e, h, n⟩ := h1 t.reverse
  refine ⟨d.reverse, ?_, ?_, by rw [basename, List.mem_reverse]; exact n⟩
  · rw [basename, ← List.reverse_append, ← e, List.reverse_reverse]
  · rcases h with rfl | ⟨p, rfl⟩
    · exact Or.inl rfl
    · exact Or.inr ⟨p.reverse, by simp⟩

theorem takeWhile_dot {e : Text} (he : '.' ∉ e) (r : Text) :
    ((e.reverse ++ '.' :: r).takeWhile fun c => decide (c ≠ '.')) = e.reverse := by
  have : ∀ b : Text, '.' ∉ b → ((b ++ '.' :: r).takeWhile fun c => decide (c ≠ '.')) = b := by
    intro b hb
    induction b with
    | nil => simp
    | cons c b ih =>
      have hc : c ≠ '.' := fun h => hb (by simp [h])
      rw [List.cons_append, List.takeWhile_cons_of_pos (by simpa using hc), ih fun h => hb (by simp [h])]
  exact this _ (by simpa using he)

theorem splitext_ext {stem e : Text} (hs : '/' ∉ stem ++ '.' :: e) (he : '.' ∉ e) (hn : ∃ c ∈ stem, c ≠ '.') :
    splitext (stem ++ '.' :: e) = (stem, '.' :: e) := by
  have hb : basename (stem ++ '.' :: e) = stem ++ '.' :: e := by simpa using basename_append (dir := []) (Or.inl rfl) hs
  have ht : ((stem ++ '.' :: e).reverse.takeWhile fun c => decide (c ≠ '.')).reverse = e := by
    rw [List.reverse_append, List.reverse_cons, List.append_assoc, List.singleton_append, takeWhile_dot he,
      List.reverse_reverse]
  have hl : (stem ++ '.' :: e).take ((stem ++ '.' :: e).length - e.length - 1) = stem := by
    have : (stem ++ '.' :: e).length - e.length - 1 = stem.length := by simp; omega
    rw [this, List.take_left']; rfl
  rw [splitext]
  simp only [hb, ht, hl]
  rw [if_pos]
  obtain ⟨c, hc, hc'⟩ := hn
  simp only [Bool.and_eq_true]
  exact ⟨by simp, List.any_eq_true.2 ⟨c, hc, by simpa using hc'⟩⟩

theorem splitext_dots {n : ℕ} {e : Text} (hs : '/' ∉ e) (he : '.' ∉ e) :
    splitext (List.replicate n '.' ++ e) = (List.replicate n '.' ++ e, []) := by
  have hb : basename (List.replicate n '.' ++ e) = List.replicate n '.' ++ e := by
    have hn : '/' ∉ List.replicate n '.' ++ e := by
      intro h
      rcases List.mem_append.1 h with h | h
      · exact absurd (List.eq_of_mem_replicate h) (by decide)
      · exact hs h
    exact basename_append (dir := []) (Or.inl rfl) hn
  rw [splitext]
  simp only [hb]
  rw [if_neg]
  cases n with
  | zero =>
    simp only [List.replicate_zero, List.nil_append, Bool.and_eq_true, not_and]
    intro h
    exact absurd (by simpa using h) he
  | succ n =>
    have ht : ((List.replicate (n + 1) '.' ++ e).reverse.takeWhile fun c => decide (c ≠ '.')).reverse = e := by
      rw [List.reverse_append, List.reverse_replicate, List.replicate_succ, takeWhile_dot he, List.reverse_reverse]
    have hl : (List.replicate (n + 1) '.' ++ e).take ((List.replicate (n + 1) '.' ++ e).length - e.length - 1)
        = List.replicate n '.' := by
      have : (List.replicate (n + 1) '.' ++ e).length - e.length - 1 = n := by simp
      rw [this, List.replicate_succ', List.append_assoc]; exact List.take_left' (by simp)
    rw [ht, hl]
    simp only [Bool.and_eq_true, not_and]
    intro _ h
    obtain ⟨c, hc, h'⟩ := List.any_eq_true.1 h
    rw [List.eq_of_mem_replicate hc] at h'
    simp at h'

/-- Every base name is of one of the forms above. -/
theorem splitext_join (t : Text) (ht : '/' ∉ t) : (splitext t).1 ++ (splitext t).2 = t := by
  have hb : basename t = t := by simpa using basename_append (dir := []) (Or.inl rfl) ht
  rw [splitext]
  simp only [hb]
  split_ifs with h
  · simp only [Bool.and_eq_true] at h
    have hm : '.' ∈ t := by simpa using h.1
    obtain ⟨a, e, rfl, he⟩ : ∃ a e, t = a ++ '.' :: e ∧ '.' ∉ e := by
      clear h hb ht
      induction t with
      | nil => cases hm
      | cons c t ih =>
        by_cases h : '.' ∈ t
        · obtain ⟨a, e, rfl, he⟩ := ih h
          exact ⟨c :: a, e, rfl, he⟩
        · rcases List.mem_cons.1 hm with rfl | h'
          · exact ⟨[], t, rfl, h⟩
          · exact absurd h' h
    have ht' : ((a ++ '.' :: e).reverse.takeWhile fun c => decide (c ≠ '.')).reverse = e := by
      rw [List.reverse_append, List.reverse_cons, List.append_assoc, List.singleton_append, takeWhile_dot he,
        List.reverse_reverse]
    have : (a ++ '.' :: e).length - e.length - 1 = a.length := by simp; omega
    simp only [ht', this]
    rw [List.take_left' rfl]
  · simp

theorem madeName_length (input ending : Text) : (madeName input ending).length = (basename input).length + ending.length + 1 := by
  obtain ⟨_, _, _, h⟩ := basename_split input
  have := congrArg List.length (splitext_join _ h)
  simp only [madeName, List.length_append, List.length_cons] at this ⊢
  omega

theorem madeName_noSlash (input ending : Text) (he : '/' ∉ ending) : '/' ∉ madeName input ending := by
  obtain ⟨_, _, _, h⟩ := basename_split input
  rw [← splitext_join _ h] at h
  simp only [List.mem_append, not_or] at h
  simp only [madeName, List.mem_append, List.mem_cons, not_or]
  exact ⟨⟨h.1, by decide, he⟩, h.2⟩

theorem madeName_ne (input ending : Text) (he : '/' ∉ ending) : input ≠ madeName input ending := by
  intro h
  have hn : '/' ∉ input := h ▸ madeName_noSlash input ending he
  have hb : basename input = input := by simpa using basename_append (dir := []) (Or.inl rfl) hn
  have := madeName_length input ending
  rw [hb, ← h] at this
  omega

theorem ending_noSlash (o : Options) : '/' ∉ ending o := by unfold ending; split_ifs <;> decide

theorem outputName_ok {d : Disk} {o : Options} {name : Text} (h : outputName d o.input o.output (ending o) = .ok name) :
    name = target o ∧ name ≠ o.input ∧ (o.output = none → d.node (d.place name) = none ∧ '/' ∉ name) := by
  unfold outputName at h
  unfold target
  rcases ho : o.output with _ | n
  · rw [ho] at h
    simp only at h
    split_ifs at h with h1 h2
    cases h
    refine ⟨rfl, Ne.symm h2, fun _ => ⟨?_, madeName_noSlash _ _ (ending_noSlash o)⟩⟩
    simpa [Disk.pathExists] using h1
  · rw [ho] at h
    simp only at h
    split_ifs at h with h1
    cases h
    exact ⟨rfl, Ne.symm h1, fun h => by cases h⟩

/-! ### The three modes -/

theorem load_run (E : PyEnv) (name : Text) (d : Disk) {β : Type} (f : Coefs PyComplex → Meth Disk β) :
    (load E name >>= f) d = match d.read name with
      | .error e => .error e d
      | .ok text => match readMagnetogram E text with
        | .error e => .error e d
        | .ok s => f s d := by
  have e1 : load E name d = (lift (d.read name) >>= fun text => lift (readMagnetogram E text)) d := rfl
  show EStateM.bind (load E name) f d = _
  unfold EStateM.bind
  rw [e1]
  rcases d.read name with e | text
  · rfl
  · rw [lift_ok]
    simp only
    rcases readMagnetogram E text with e | s
    · rfl
    · rfl

/-- The set that is written, if there is one. -/
def converted (E : PyEnv) (F : Factors) (o : Options) (s : Coefs PyComplex) : Res (Coefs PyComplex) :=
  if o.noConversion then (if s.dflt.length ≠ 1 then .error .index else .ok s)
  else if o.pfssToZdi then (if s.dflt.length ≠ 1 then .error .index else pfssToZdi E F s)
  else do
    let cols ← s.hsplit
    let radial ← cols.head?.elim (.error .value) .ok
    zdiToPfss F radial

theorem main_run (E : PyEnv) (F : Factors) (src : Text) (o : Options) (d : Disk) :
    main E F src o d = match d.read o.input with
      | .error e => .error e d
      | .ok text => match readMagnetogram E text with
        | .error e => .error e d
        | .ok s => match converted E F o s with
          | .error e => .error e d
          | .ok u => save src o (ending o) u (header o) d := by
  unfold main converted
  rcases h1 : o.noConversion <;> rcases h2 : o.pfssToZdi
  all_goals simp only [ending, header, backwards, h1, h2, Bool.false_eq_true, if_false, if_true, and_true, and_false,
    Bool.true_eq_false, reduceCtorEq]
  · rw [convertZdiToPfss, load_run]
    rcases d.read o.input with e | text
    · rfl
    · simp only
      rcases readMagnetogram E text with e | s
      · rfl
      · simp only
        rcases s.hsplit with e | cols
        · rfl
        · rcases cols with _ | ⟨c, cols⟩
          · rfl
          · show (lift (zdiToPfss F c) >>= _) d = match zdiToPfss F c with | .error e => _ | .ok u => _
            rcases zdiToPfss F c with e | u
            · rfl
            · rfl
  · rw [convertPfssToZdi, load_run]
    rcases d.read o.input with e | text
    · rfl
    · simp only
      rcases readMagnetogram E text with e | s
      · rfl
      · simp only
        by_cases hd : s.dflt.length ≠ 1
        · rw [if_pos hd, if_pos hd]; rfl
        · rw [if_neg hd, if_neg hd]
          show (lift (pfssToZdi E F s) >>= _) d = _
          rcases pfssToZdi E F s with e | u
          · rfl
          · rfl
  all_goals
    rw [noConversion, load_run]
    rcases d.read o.input with e | text
    · rfl
    · simp only
      rcases readMagnetogram E text with e | s
      · rfl
      · simp only
        by_cases hd : s.dflt.length ≠ 1
        · rw [if_pos hd, if_pos hd]; try rfl
        · rw [if_neg hd, if_neg hd]; try rfl

theorem degreeMax_congr {s u : Coefs PyComplex} (hs : s.WF) (hu : u.WF) (h : ∀ k, k ∈ u.keys ↔ k ∈ s.keys) :
    u.degreeMax = s.degreeMax := by
  rcases hs.degAttained with ⟨h1, h2⟩ | ⟨k, h1, h2⟩ <;> rcases hu.degAttained with ⟨h3, h4⟩ | ⟨k', h3, h4⟩
  · rw [h2, h4]
  · rw [h, h1] at h3; cases h3
  · rw [← h, h3] at h1; cases h1
  · have := hu.degUpper k ((h k).2 h1)
    have := hs.degUpper k' ((h k').1 h3)
    omega

/-- The first column of a set as `hsplit` returns it. -/
theorem first_column {s : Coefs PyComplex} {n : ℕ} (hs : s.WF) (hn : s.dflt = List.replicate (n + 1) zeroJ) :
    ∃ (c : Coefs PyComplex) (rest : List (Coefs PyComplex)), s.hsplit = .ok (c :: rest) ∧ c.WF ∧ c.keys = sortKeys s.keys ∧ c.dflt = [zeroJ] ∧
      c.dtype = s.dtype ∧ ∀ k, c.getI k = [(s.getI k).headD zeroJ] := by
  have hl : s.dflt.length = n + 1 := by rw [hn, List.length_replicate]
  obtain ⟨T, e, h⟩ := hsplit_spec hs (n + 1) (by omega) (by rw [hl, Nat.mod_self])
  obtain ⟨w, k, dd, t, g⟩ := h 0 (by omega)
  have e' : s.hsplit = s.hsplit (some (n + 1)) := by simp only [hsplit, Option.getD_none, Option.getD_some, hl]
  refine ⟨T 0, (List.range' 1 n).map T, ?_, w, k, ?_, t, fun q => ?_⟩
  · rw [e', e, List.range_eq_range', List.range'_succ, List.map_cons]
  · rw [dd, sect_one hl (by omega), hn]; simp
  · rw [g, sect_one ((hs.getI_length q).trans hl) (by omega), List.headD_eq_head?_getD, List.getD_eq_getElem?_getD,
      List.head?_eq_getElem?]

theorem converted_none {E : PyEnv} {F : Factors} {o : Options} (ho : o.noConversion = true) {s u : Coefs PyComplex}
    (h : converted E F o s = .ok u) : u = s ∧ s.dflt.length = 1 := by
  rw [converted, if_pos ho] at h
  split_ifs at h with hl
  cases h
  exact ⟨rfl, not_not.1 hl⟩

theorem converted_zdi {E : PyEnv} {F : Factors} {o : Options} (h1 : o.noConversion = false) (h2 : o.pfssToZdi = false)
    {s u : Coefs PyComplex} {n : ℕ} (hs : s.WF) (hn : s.dflt = List.replicate (n + 1) zeroJ)
    (h : converted E F o s = .ok u) :
    ∃ g : Key → PyFloat, (∀ k ∈ s.keys, F.fwd k.1 k.2 = .ok (g k)) ∧ u.WF ∧ u.keys = sortKeys s.keys ∧ u.dflt = [zeroJ] ∧
      u.dtype = s.dtype ∧
      ∀ k, u.getI k = [if k ∈ s.keys then times (g k) ((s.getI k).headD zeroJ) else zeroJ] := by
  obtain ⟨c, rest, e, w, ck, cd, ct, cg⟩ := first_column hs hn
  rw [converted, if_neg (by simp [h1]), if_neg (by simp [h2]), e] at h
  replace h : zdiToPfss F c = .ok u := h
  obtain ⟨g, hg⟩ := scaleF_inv w h
  obtain ⟨u', e', w', k', d', t', g'⟩ := scaleF_spec w F.fwd g hg
  rw [zdiToPfss, e'] at h
  cases h
  have hm : ∀ k, k ∈ c.keys ↔ k ∈ s.keys := fun k => by rw [ck, mem_sortKeys]
  refine ⟨g, fun k hk => hg k ((hm k).2 hk), w', ?_, d'.trans cd, t'.trans ct, fun k => ?_⟩
  · rw [k', ck]
    exact sortKeys_congr (sortKeys_perm _)
  · rw [g', cg, cd]
    by_cases hk : k ∈ s.keys
    · rw [if_pos ((hm k).2 hk), if_pos hk]; rfl
    · rw [if_neg (fun h => hk ((hm k).1 h)), if_neg hk]

theorem converted_pfss {E : PyEnv} {F : Factors} {o : Options} (h1 : o.noConversion = false) (h2 : o.pfssToZdi = true)
    {s u : Coefs PyComplex} {n : ℕ} (hs : s.WF) (hn : s.dflt = List.replicate (n + 1) zeroJ)
    (h : converted E F o s = .ok u) :
    s.dflt.length = 1 ∧ ∃ g b : Key → PyFloat, (∀ k ∈ s.keys, F.inv k.1 k.2 = .ok (g k) ∧ F.beta k.1 k.2 = .ok (b k)) ∧
      u.WF ∧ (∀ k, k ∈ u.keys ↔ k ∈ s.keys) ∧ u.dflt = [zeroJ, zeroJ, zeroJ] ∧
      ∀ k, u.getI k = if k ∈ s.keys then
        [times (g k) ((s.getI k).headD zeroJ), times (b k) (times (g k) ((s.getI k).headD zeroJ)), zeroJ]
        else [zeroJ, zeroJ, zeroJ] := by
  rw [converted, if_neg (by simp [h1]), if_pos h2] at h
  split_ifs at h with hl
  rw [not_not] at hl
  refine ⟨hl, ?_⟩
  have hd : s.dflt = [zeroJ] := by
    rw [hn, List.length_replicate] at hl
    rw [hn, hl]; rfl
  rcases ea : scaleF s F.inv with e | alpha
  · rw [pfssToZdi, ea] at h; cases h
  obtain ⟨g, hg⟩ := scaleF_inv hs ea
  obtain ⟨a', ea', wa, ka, da, ta, ga⟩ := scaleF_spec hs F.inv g hg
  rw [ea] at ea'; cases ea'
  rcases eb : scaleF alpha F.beta with e | beta
  · rw [pfssToZdi, ea] at h
    replace h : (scaleF alpha F.beta >>= _ : Res (Coefs PyComplex)) = .ok u := h
    rw [eb] at h; cases h
  obtain ⟨b, hb⟩ := scaleF_inv wa eb
  obtain ⟨b', eb', wb, kb, db, tb, gb⟩ := scaleF_spec wa F.beta b hb
  rw [eb] at eb'; cases eb'
  obtain ⟨gamma, ec, wc, kc, dc, tc, gc⟩ := zerosLike_spec wa
  have ma : ∀ k, k ∈ alpha.keys ↔ k ∈ s.keys := fun k => by rw [ka, mem_sortKeys]
  have mb : ∀ k, k ∈ beta.keys ↔ k ∈ s.keys := fun k => by rw [kb, mem_sortKeys, ma]
  have mc : ∀ k, k ∈ gamma.keys ↔ k ∈ s.keys := fun k => by rw [kc, mem_sortKeys, ma]
  have hw : ∀ x ∈ [alpha, beta, gamma], x.WF := by
    intro x hx
    simp only [List.mem_cons, List.not_mem_nil, or_false] at hx
    rcases hx with rfl | rfl | rfl
    exacts [wa, wb, wc]
  have hit := E.iter_ok ([alpha, beta, gamma].flatMap Coefs.keys)
  obtain ⟨r, er, wr, kr, dr, _, gr⟩ := hstack_spec hw hit
  have : r = u := by
    have h' : hstack (E.iter ([alpha, beta, gamma].flatMap Coefs.keys)) [alpha, beta, gamma] = .ok u := by
      rw [← h, pfssToZdi, ea]
      show _ = (scaleF alpha F.beta >>= _ : Res (Coefs PyComplex))
      rw [eb]
      show _ = (alpha.zerosLike >>= _ : Res (Coefs PyComplex))
      rw [ec]; rfl
    rw [er] at h'
    exact Except.ok.inj h'
  subst this
  have hlen : ∀ k, s.getI k = [(s.getI k).headD zeroJ] := by
    intro k
    have hk := (hs.getI_length k).trans hl
    obtain ⟨x, hx⟩ := List.length_eq_one_iff.1 hk
    rw [hx]; rfl
  refine ⟨g, b, fun k hk => ⟨hg k hk, hb k ((ma k).2 hk)⟩, wr, fun k => ?_, ?_, fun k => ?_⟩
  · rw [kr, hit.2]
    simp [ma, mb, mc]
  · rw [dr]
    simp [da, db, dc, hd]
  · rw [gr]
    simp only [List.flatMap_cons, List.flatMap_nil, gb, gc, ga, ma, da, hd]
    by_cases hk : k ∈ s.keys
    · simp only [if_pos hk]
      rw [hlen k]; rfl
    · simp only [if_neg hk]; rfl

theorem converted_spec (E : PyEnv) (F : Factors) (o : Options) {s u : Coefs PyComplex} {n : ℕ} (hs : s.WF)
    (hn : s.dflt = List.replicate (n + 1) zeroJ) (h : converted E F o s = .ok u) :
    u.WF ∧ u.degreeMax = s.degreeMax ∧ u.dflt ≠ [] := by
  rcases h1 : o.noConversion
  · rcases h2 : o.pfssToZdi
    · obtain ⟨g, _, w, k, d, _⟩ := converted_zdi h1 h2 hs hn h
      exact ⟨w, degreeMax_congr hs w (fun q => by rw [k, mem_sortKeys]), by rw [d]; simp⟩
    · obtain ⟨_, g, b, _, w, k, d, _⟩ := converted_pfss h1 h2 hs hn h
      exact ⟨w, degreeMax_congr hs w k, by rw [d]; simp⟩
  · obtain ⟨rfl, hl⟩ := converted_none h1 h
    exact ⟨hs, rfl, by intro h0; rw [h0] at hl; cases hl⟩

/-- A successful run. -/
theorem run_ok {E : PyEnv} {F : Factors} {src : Text} {o : Options} {d d' : Disk} (h : main E F src o d = .ok () d') :
    ∃ t s u text, d.read o.input = .ok t ∧ readMagnetogram E t = .ok s ∧ converted E F o s = .ok u ∧
      outputName d o.input o.output (ending o) = .ok (target o) ∧
      writeMagnetogram src (target o) u o.degreeMax 0 (header o) = .ok text ∧ d' = d.put (d.place (target o)) text := by
  rw [main_run] at h
  rcases h1 : d.read o.input with e | t
  · rw [h1] at h; cases h
  rw [h1] at h
  simp only at h
  rcases h2 : readMagnetogram E t with e | s
  · rw [h2] at h; cases h
  rw [h2] at h
  simp only at h
  rcases h3 : converted E F o s with e | u
  · rw [h3] at h; cases h
  rw [h3] at h
  simp only at h
  rcases save_run src o (ending o) u (header o) d with ⟨e, h4⟩ | ⟨name, text, h4, h5, h6 | ⟨_, h6⟩⟩
  · rw [h4] at h; cases h
  · obtain ⟨rfl, _⟩ := outputName_ok h4
    rw [h6] at h
    cases h
    exact ⟨t, s, u, text, rfl, h2, h3, h4, h5, rfl⟩
  · rw [h6] at h; cases h

/-- A failing run. -/
theorem run_error {E : PyEnv} {F : Factors} {src : Text} {o : Options} {d d' : Disk} {e : Err}
    (h : main E F src o d = .error e d') :
    d' = d ∨ e = .value ∧ (∃ c ∈ (if header o then target o else src), d.encodes c = false) ∧
      outputName d o.input o.output (ending o) = .ok (target o) ∧ d' = d.put (d.place (target o)) [] := by
  rw [main_run] at h
  rcases h1 : d.read o.input with e | t
  · rw [h1] at h; cases h; exact Or.inl rfl
  rw [h1] at h
  simp only at h
  rcases h2 : readMagnetogram E t with e | s
  · rw [h2] at h; cases h; exact Or.inl rfl
  rw [h2] at h
  simp only at h
  rcases h3 : converted E F o s with e | u
  · rw [h3] at h; cases h; exact Or.inl rfl
  rw [h3] at h
  simp only at h
  rcases save_run src o (ending o) u (header o) d with ⟨e, h4⟩ | ⟨name, text, h4, h5, h6 | ⟨h7, h6⟩⟩
  · rw [h4] at h; cases h; exact Or.inl rfl
  · rw [h6] at h; cases h
  · obtain ⟨rfl, _⟩ := outputName_ok h4
    rw [h6] at h
    cases h
    obtain ⟨w, _, n, hn⟩ := read_column E h2
    have wu := (converted_spec E F o w hn h3).1
    refine Or.inr ⟨rfl, ?_, h4, rfl⟩
    rw [List.all_eq_false] at h7
    obtain ⟨c, hc, hc'⟩ := h7
    rw [Bool.not_eq_true] at hc'
    rcases written_chars wu src (target o) o.degreeMax 0 (header o) h5 c hc with h8 | h8
    · rw [d.ascii c h8] at hc'; cases hc'
    · exact ⟨c, h8, hc'⟩

theorem valueAt_eq' (s : Coefs PyComplex) (l m : ℤ) : valueAt s l m = s.getI (l, m) := rfl

theorem head_some {s : Coefs PyComplex} {n : ℕ} (hs : s.WF) (hn : s.dflt = List.replicate (n + 1) zeroJ) (k : Key) :
    (s.getI k).head? = some ((s.getI k).headD zeroJ) := by
  have := hs.getI_length k
  rw [hn, List.length_replicate] at this
  rcases hx : s.getI k with _ | ⟨a, as⟩
  · rw [hx] at this; cases this
  · rfl

theorem zero_finite : IsFinite (.fin false 0) := ⟨false, 0, 0, by norm_num, by norm_num, by norm_num, by norm_num⟩
theorem zeroJ_finite : IsFinite zeroJ.1 ∧ IsFinite zeroJ.2 := ⟨zero_finite, zero_finite⟩

theorem rounded7_zero {y : PyComplex} (h : Rounded7 zeroJ.1 y.1 ∧ Rounded7 zeroJ.2 y.2) : ZeroNumber y := by
  have key : ∀ {x : PyFloat}, Rounded7 (.fin false 0) x → ∃ a, x = .fin a 0 := by
    intro x h
    obtain ⟨_, ⟨a, n, e, _, _, _, rfl⟩, d, _, _, _, _, h⟩ := h
    refine ⟨a, ?_⟩
    have h0 : value (.fin a (n * 2 ^ e)) = 0 := by simpa [value] using h
    congr 1
    cases a
    · simpa only [value, Bool.false_eq_true, if_false] using h0
    · simpa only [value, if_true, neg_eq_zero] using h0
  obtain ⟨a, ha⟩ := key h.1
  obtain ⟨b, hb⟩ := key h.2
  exact ⟨a, b, by rw [← ha, ← hb]⟩

theorem forall₂_single {R : PyComplex → PyComplex → Prop} {a : PyComplex} {l : List PyComplex} (h : List.Forall₂ R [a] l) :
    ∃ y, l = [y] ∧ R a y := by
  rcases h with _ | ⟨h, h0⟩
  cases h0
  exact ⟨_, rfl, h⟩

theorem forall₂_triple {R : PyComplex → PyComplex → Prop} {a b c : PyComplex} {l : List PyComplex}
    (h : List.Forall₂ R [a, b, c] l) : ∃ x y z, l = [x, y, z] ∧ R a x ∧ R b y ∧ R c z := by
  rcases h with _ | ⟨h1, h⟩
  rcases h with _ | ⟨h2, h⟩
  rcases h with _ | ⟨h3, h⟩
  cases h
  exact ⟨_, _, _, rfl, h1, h2, h3⟩

end Cli

/-! ## C58 -/

/-- **C58.** When the program succeeds, it has written one file, whose name is the given one or, when none is given, the
made-up one. That name is not the input name; when it is made up, nothing existed under it and it lies in the current
directory. No other file is touched. -/
theorem C58_success (E : PyEnv) (F : Factors) (src : Text) (o : Options) (d d' : Disk) (h : main E F src o d = .ok () d') :
    target o ≠ o.input ∧ (o.output = none → d.node (d.place (target o)) = none ∧ '/' ∉ target o) ∧
      SameElsewhere d d' (d.place (target o)) ∧ ∃ text, d'.read (target o) = .ok text := by
  obtain ⟨t, s, u, text, _, _, _, h4, _, rfl⟩ := run_ok h
  obtain ⟨_, h5, h6⟩ := outputName_ok h4
  exact ⟨h5, h6, put_same _ _ _, text, read_put _ _ _⟩

/-- **C58.** When the program fails, either nothing has changed, or the name in the header has a character which the
locale cannot encode; then the output file has been created or emptied, and no other file is touched. -/
theorem C58_error (E : PyEnv) (F : Factors) (src : Text) (o : Options) (d d' : Disk) (e : Err)
    (h : main E F src o d = .error e d') :
    d' = d ∨ (e = .value ∧ (∃ c ∈ (if header o then target o else src), d.encodes c = false) ∧ target o ≠ o.input ∧
      SameElsewhere d d' (d.place (target o)) ∧ d'.read (target o) = .ok []) := by
  rcases run_error h with h | ⟨h1, h2, h3, rfl⟩
  · exact Or.inl h
  · exact Or.inr ⟨h1, h2, (outputName_ok h3).2.1, put_same _ _ _, read_put _ _ _⟩

/-- **C58.** Without an output name nothing that exists is changed, whether the program succeeds or fails. -/
theorem C58_existing_safe (E : PyEnv) (F : Factors) (src : Text) (o : Options) (d : Disk) (ho : o.output = none) :
    ∀ d', (main E F src o d = .ok () d' ∨ ∃ e, main E F src o d = .error e d') →
      ∀ i, d.node i ≠ none → d'.node i = d.node i := by
  rintro d' h i hi
  have key : ∀ text, outputName d o.input o.output (ending o) = .ok (target o) →
      (d.put (d.place (target o)) text).node i = d.node i := by
    intro text h4
    refine (put_same d _ text).2.2.2 i ?_
    rintro rfl
    exact hi ((outputName_ok h4).2.2 ho).1
  rcases h with h | ⟨e, h⟩
  · obtain ⟨t, s, u, text, _, _, _, h4, _, rfl⟩ := run_ok h
    exact key _ h4
  · rcases run_error h with rfl | ⟨_, _, h4, rfl⟩
    · rfl
    · exact key _ h4

/-- **C58.** With an output name that denotes another place than the input, the input file is not changed. -/
theorem C58_input_safe (E : PyEnv) (F : Factors) (src : Text) (o : Options) (d : Disk)
    (ho : d.place (target o) ≠ d.place o.input) :
    ∀ d', (main E F src o d = .ok () d' ∨ ∃ e, main E F src o d = .error e d') → d'.read o.input = d.read o.input := by
  rintro d' h
  have key : ∀ text, (d.put (d.place (target o)) text).read o.input = d.read o.input := by
    intro text
    simp only [Disk.read, Disk.put]
    rw [if_neg (Ne.symm ho)]
  rcases h with h | ⟨e, h⟩
  · obtain ⟨t, s, u, text, _, _, _, h4, _, rfl⟩ := run_ok h
    exact key _
  · rcases run_error h with rfl | ⟨_, _, h4, rfl⟩
    · rfl
    · exact key _

/-- **C58.** Equal names are refused and nothing is written. -/
theorem C58_same_name (E : PyEnv) (F : Factors) (src : Text) (o : Options) (d : Disk) (ho : o.output = some o.input) :
    ∃ e, main E F src o d = .error e d := by
  have ht : target o = o.input := by rw [target, ho]; rfl
  rcases h : main E F src o d with ⟨⟨⟩, d'⟩ | ⟨e, d'⟩
  · exact absurd ht (C58_success E F src o d d' h).1
  · rcases C58_error E F src o d d' e h with rfl | ⟨_, _, h1, _⟩
    · exact ⟨e, rfl⟩
    · exact absurd ht h1

/-- **C58.** An existing file under the made-up name is refused and nothing is written. -/
theorem C58_existing (E : PyEnv) (F : Factors) (src : Text) (o : Options) (d : Disk) (ho : o.output = none)
    (he : d.node (d.place (madeName o.input (ending o))) ≠ none) : ∃ e, main E F src o d = .error e d := by
  have ht : target o = madeName o.input (ending o) := by rw [target, ho]; rfl
  rcases h : main E F src o d with ⟨⟨⟩, d'⟩ | ⟨e, d'⟩
  · exact absurd ((C58_success E F src o d d' h).2.1 ho).1 (ht ▸ he)
  · rcases run_error h with rfl | ⟨_, _, h4, _⟩
    · exact ⟨e, rfl⟩
    · exact absurd ((outputName_ok h4).2.2 ho).1 (ht ▸ he)

/-- **C58** (violated for links and the like). If the output name denotes the place of the input under another name, the
input is overwritten: after success both names read the output. -/
theorem C58_alias (E : PyEnv) (F : Factors) (src : Text) (o : Options) (d d' : Disk)
    (ho : d.place (target o) = d.place o.input) (h : main E F src o d = .ok () d') :
    d'.read o.input = d'.read (target o) := by
  obtain ⟨t, s, u, text, _, _, _, h4, _, rfl⟩ := run_ok h
  simp only [Disk.read, Disk.put, ho]

/-- **C58.** The made-up name: the directory is dropped, the ending goes before the extension. -/
theorem C58_made_name (dir stem e ending : Text) (hd : dir = [] ∨ ∃ p, dir = p ++ ['/']) (hs : '/' ∉ stem ++ '.' :: e)
    (he : '.' ∉ e) (hn : ∃ c ∈ stem, c ≠ '.') :
    madeName (dir ++ (stem ++ '.' :: e)) ending = stem ++ '_' :: ending ++ '.' :: e := by
  rw [madeName, basename_append hd hs, splitext_ext hs he hn]

/-- **C58.** The made-up name of a file without extension (no dot, or only leading dots). -/
theorem C58_made_name_plain (dir e ending : Text) (n : ℕ) (hd : dir = [] ∨ ∃ p, dir = p ++ ['/'])
    (hs : '/' ∉ e) (he : '.' ∉ e) :
    madeName (dir ++ (List.replicate n '.' ++ e)) ending = List.replicate n '.' ++ e ++ '_' :: ending := by
  have hs' : '/' ∉ List.replicate n '.' ++ e := by
    intro h
    rcases List.mem_append.1 h with h | h
    · exact absurd (List.eq_of_mem_replicate h) (by decide)
    · exact hs h
  rw [madeName, basename_append hd hs', splitext_dots hs he]
  simp

/-- **C58.** The made-up name is never the input name. -/
theorem C58_made_name_ne (input ending : Text) (he : '/' ∉ ending) : madeName input ending ≠ input :=
  Ne.symm (madeName_ne input ending he)

/-- A disk with two names for one file. -/
private def demoDisk (t : Text) : Disk where
  place := fun n => if n = "in.dat".toList ∨ n = "./in.dat".toList then 0 else n.length + 1
  node := fun i => if i = 0 then some (some t) else none
  writable := fun _ => true
  encodes := fun c => decide (c.toNat < 128)
  ascii := by intro c h; simpa using h

private def demoFactors : Factors := ⟨fun _ _ => .ok (.fin false 2), fun _ _ => .ok (.fin false (1 / 2)), fun _ _ => .ok (.fin false 1)⟩

private def demoText : Text := "1 0 1.5 0\n".toList

/-- What a run leaves under a name, and whether it succeeded. -/
private def after (o : Options) (name : Text) : Bool × Res Text :=
  match main demoEnv demoFactors [] o (demoDisk demoText) with
  | .ok _ d => (true, d.read name)
  | .error _ d => (false, d.read name)

/-- The input survives when no name is given. -/
example : after { input := "in.dat".toList, swmfHeader := false } "in.dat".toList = (true, .ok demoText) := by decide +kernel
example : after { input := "in.dat".toList, swmfHeader := false } "in_wso.dat".toList
    = (true, .ok ("Output of \nOrder:1\n".toList ++ "  0    0   0.000000e+00   0.000000e+00\n".toList
        ++ "  1    0   3.000000e+00   0.000000e+00\n".toList ++ "  1    1   0.000000e+00   0.000000e+00\n".toList)) := by
  decide +kernel

/-- **C58** (disagreement). `in.dat` and `./in.dat` are the same file, and the input is lost. -/
theorem C58_alias_witness : (after { input := "in.dat".toList, output := some "./in.dat".toList, swmfHeader := false } "in.dat".toList).1
    = true ∧ (after { input := "in.dat".toList, output := some "./in.dat".toList, swmfHeader := false } "in.dat".toList).2 ≠ .ok demoText := by
  decide +kernel

/-- **C58** (disagreement). An output name that the locale cannot encode: the program fails and leaves an empty file. -/
theorem C58_unencodable_witness : after { input := "in.dat".toList, output := some "é".toList } "é".toList = (false, .ok []) := by
  decide +kernel

example : madeName "data/mag.v2.dat".toList "wso".toList = "mag.v2_wso.dat".toList := by decide
example := C58_made_name "data/".toList "mag.v2".toList "dat".toList "wso".toList (Or.inr ⟨"data".toList, rfl⟩) (by decide)
  (by decide) ⟨'m', by decide, by decide⟩
example : madeName "/tmp/.mag".toList "zdi".toList = ".mag_zdi".toList := by decide

/-! ## C59 -/

/-- **C59.** `--no-conversion` wins: `--pfss-to-zdi` and the factors then make no difference. -/
theorem C59_no_conversion_wins (E : PyEnv) (F F' : Factors) (src : Text) (o : Options) (b : Bool) (ho : o.noConversion = true) :
    main E F src o = main E F' src { o with pfssToZdi := b } := by
  simp only [main, ho, if_true]
  rfl

/-- **C59.** A missing or unreadable input file raises and nothing is written. -/
theorem C59_missing (E : PyEnv) (F : Factors) (src : Text) (o : Options) (d : Disk) (e : Err) (h : d.read o.input = .error e) :
    main E F src o d = .error e d := by
  rw [main_run, h]

/-- **C59.** Whatever the reader raises is raised, and nothing is written. -/
theorem C59_malformed (E : PyEnv) (F : Factors) (src : Text) (o : Options) (d : Disk) (t : Text) (e : Err)
    (h : d.read o.input = .ok t) (hr : readMagnetogram E t = .error e) : main E F src o d = .error e d := by
  rw [main_run, h]
  simp only [hr]

/-- **C59.** A PFSS input (both for `--no-conversion` and `--pfss-to-zdi`) with more than one column raises IndexError
and nothing is written. -/
theorem C59_columns (E : PyEnv) (F : Factors) (src : Text) (o : Options) (d : Disk) (t : Text) (s : Coefs PyComplex)
    (h : d.read o.input = .ok t) (hr : readMagnetogram E t = .ok s) (ho : o.noConversion = true ∨ o.pfssToZdi = true)
    (hc : s.dflt.length ≠ 1) : main E F src o d = .error .index d := by
  rw [main_run, h]
  simp only [hr]
  have : converted E F o s = .error .index := by
    rw [converted]
    by_cases h1 : o.noConversion = true
    · rw [if_pos h1, if_pos hc]
    · rw [if_neg h1, if_pos (ho.resolve_left h1), if_pos hc]
  rw [this]

/-- **C59.** A ZDI input counts only by its first column: replacing the input by one with the same pairs and the same
first column gives the same output file. -/
theorem C59_first_column (E : PyEnv) (F : Factors) (src : Text) (o : Options) (d d' : Disk) (t t' : Text)
    (s s' : Coefs PyComplex) (h1 : o.noConversion = false) (h2 : o.pfssToZdi = false)
    (h : d.read o.input = .ok t) (hr : readMagnetogram E t = .ok s) (hr' : readMagnetogram E t' = .ok s')
    (hk : ∀ l m : ℤ, stores s l m ↔ stores s' l m) (hv : ∀ l m, (valueAt s l m).head? = (valueAt s' l m).head?)
    (hm : main E F src o d = .ok () d') :
    ∃ d'', main E F src o (d.put (d.place o.input) t') = .ok () d'' ∧ d''.read (target o) = d'.read (target o) := by
  obtain ⟨w, ty, n, hn⟩ := read_column E hr
  obtain ⟨w', ty', n', hn'⟩ := read_column E hr'
  obtain ⟨c, rest, e, cw, ck, cd, ct, cg⟩ := first_column w hn
  obtain ⟨c', rest', e', cw', ck', cd', ct', cg'⟩ := first_column w' hn'
  have hmem : ∀ k, k ∈ s.keys ↔ k ∈ s'.keys := fun k => by rw [← has_int, ← has_int]; exact hk k.1 k.2
  have hcc : c = c' := by
    refine coefs_ext cw cw' ?_ (cd.trans cd'.symm) (by rw [ct, ct', ty, ty']) fun k _ => ?_
    · rw [ck, ck']
      exact sortKeys_congr ((List.perm_ext_iff_of_nodup w.nodup w'.nodup).2 hmem)
    · rw [cg, cg', List.headD_eq_head?_getD, List.headD_eq_head?_getD]
      have := hv k.1 k.2
      rw [valueAt_eq', valueAt_eq'] at this
      rw [this]
  have hconv : converted E F o s = converted E F o s' := by
    rw [converted, converted, if_neg (by simp [h1]), if_neg (by simp [h2]), if_neg (by simp [h1]), if_neg (by simp [h2]), e, e', hcc]
    rfl
  have hsome : (d.node (d.place o.input)).isSome = true := by
    unfold Disk.read at h
    split at h
    · rename_i h0; rw [h0]; rfl
    · cases h
  have hex : ∀ name, (d.put (d.place o.input) t').pathExists name = d.pathExists name := by
    intro name
    simp only [Disk.pathExists, Disk.put]
    by_cases hp : d.place name = d.place o.input
    · rw [if_pos hp, hp, hsome]; rfl
    · rw [if_neg hp]
  have hon : outputName (d.put (d.place o.input) t') o.input o.output (ending o) = outputName d o.input o.output (ending o) := by
    unfold outputName
    simp only [hex]
  rw [main_run, h] at hm
  simp only [hr, hconv] at hm
  rcases hu : converted E F o s' with e | u
  · rw [hu] at hm; cases hm
  rw [hu] at hm
  simp only at hm
  have hsave : ∀ d0 : Disk, save src o (ending o) u (header o) d0 = (lift (outputName d0 o.input o.output (ending o)) >>= fun name =>
      lift (writeMagnetogram src name u o.degreeMax 0 (header o)) >>= fun text => Disk.write name text) d0 := fun _ => rfl
  have hrun : main E F src o (d.put (d.place o.input) t') = save src o (ending o) u (header o) (d.put (d.place o.input) t') := by
    rw [main_run, read_put]
    simp only [hr', hu]
  rw [hrun, hsave, hon]
  rw [hsave] at hm
  rcases h4 : outputName d o.input o.output (ending o) with e | name
  · rw [h4] at hm; cases hm
  obtain ⟨rfl, _⟩ := outputName_ok h4
  rw [h4, lift_ok] at hm
  rw [lift_ok]
  rcases h5 : writeMagnetogram src (target o) u o.degreeMax 0 (header o) with e | text
  · rw [h5] at hm; cases hm
  rw [h5, lift_ok] at hm
  rw [lift_ok]
  unfold Disk.write at hm ⊢
  have hw : (d.put (d.place o.input) t').writable = d.writable := rfl
  have he : (d.put (d.place o.input) t').encodes = d.encodes := rfl
  have hp : (d.put (d.place o.input) t').place = d.place := rfl
  rw [hw, he, hp]
  split_ifs at hm ⊢
  cases hm
  exact ⟨_, rfl, by rw [read_put d (target o) text]; simp [Disk.read, Disk.put]⟩

/-- The output of a run, read back, in terms of the converted set. -/
private theorem output {E : PyEnv} {F : Factors} {src : Text} {o : Options} {d d' : Disk} {t : Text} {s : Coefs PyComplex}
    (h : d.read o.input = .ok t) (hr : readMagnetogram E t = .ok s) (hm : main E F src o d = .ok () d')
    (hh : HeaderHarmless E.digits src (target o) (header o)) :
    ∃ u, converted E F o s = .ok u ∧ (∃ l m, InWindow (o.degreeMax.getD s.degreeMax) 0 l m) ∧
      ((∀ l m, InWindow (o.degreeMax.getD s.degreeMax) 0 l m → ∀ z ∈ valueAt u l m, IsFinite z.1 ∧ IsFinite z.2) →
      ∃ text r, d'.read (target o) = .ok text ∧ readMagnetogram E text = .ok r ∧
        r.dflt = List.replicate u.dflt.length zeroJ ∧
        (∀ l m : ℤ, stores r l m ↔ InWindow (o.degreeMax.getD s.degreeMax) 0 l m) ∧
        ∀ l m, InWindow (o.degreeMax.getD s.degreeMax) 0 l m →
          List.Forall₂ (fun z z' => Rounded7 z.1 z'.1 ∧ Rounded7 z.2 z'.2) (valueAt u l m) (valueAt r l m)) := by
  obtain ⟨t', s', u, text, h1, h2, h3, h4, h5, rfl⟩ := run_ok hm
  rw [h] at h1; cases h1
  rw [hr] at h2; cases h2
  obtain ⟨w, ty, n, hn⟩ := read_column E hr
  obtain ⟨wu, du, nu⟩ := converted_spec E F o w hn h3
  have hwin : ∃ l m, InWindow (o.degreeMax.getD u.degreeMax) 0 l m := by
    by_contra hc
    obtain ⟨e, he⟩ := ((C22_write_raises_iff src (target o) u o.degreeMax 0 (header o) (wellFormed_of_WF wu)).1).2 (Or.inr hc)
    rw [h5] at he; cases he
  refine ⟨u, h3, du ▸ hwin, fun hfin => ?_⟩
  obtain ⟨text', r, e1, e2, _, e4, e5, e6⟩ := C20_write_read E src (target o) u o.degreeMax 0 (header o) (wellFormed_of_WF wu) nu hwin
    (by rw [du]; exact hfin) hh
  rw [h5] at e1; cases e1
  rw [du] at e5 e6
  exact ⟨text, r, read_put _ _ _, e2, e4, e5, e6⟩

/-- **C59.** `--no-conversion`: read back, the output file has the input's coefficients to seven digits, on the pairs
with 0 ≤ m ≤ l up to the asked degree. -/
theorem C59_no_conversion (E : PyEnv) (F : Factors) (src : Text) (o : Options) (d d' : Disk) (t : Text) (s : Coefs PyComplex)
    (ho : o.noConversion = true) (h : d.read o.input = .ok t) (hr : readMagnetogram E t = .ok s)
    (hm : main E F src o d = .ok () d') (hh : HeaderHarmless E.digits src (target o) o.swmfHeader)
    (hfin : ∀ l m, InWindow (o.degreeMax.getD s.degreeMax) 0 l m → ∀ z ∈ valueAt s l m, IsFinite z.1 ∧ IsFinite z.2) :
    ∃ text r, d'.read (target o) = .ok text ∧ readMagnetogram E text = .ok r ∧ r.dflt = [zeroJ] ∧
      (∀ l m : ℤ, stores r l m ↔ InWindow (o.degreeMax.getD s.degreeMax) 0 l m) ∧
      ∀ l m, InWindow (o.degreeMax.getD s.degreeMax) 0 l m →
        List.Forall₂ (fun z z' => Rounded7 z.1 z'.1 ∧ Rounded7 z.2 z'.2) (valueAt s l m) (valueAt r l m) := by
  have hhd : header o = o.swmfHeader := by simp [header, backwards, ho]
  obtain ⟨u, hu, _, hf⟩ := output h hr hm (by rw [hhd]; exact hh)
  obtain ⟨rfl, hl⟩ := converted_none ho hu
  obtain ⟨text, r, a, b, c, e⟩ := hf hfin
  rw [hl] at c
  exact ⟨text, r, a, b, c, e⟩

/-- **C59.** ZDI to PFSS: read back, the output file has one column with the products of the forward factor and the first
column of the input, to seven digits; pairs that the input does not have are zero. -/
theorem C59_zdi_to_pfss (E : PyEnv) (F : Factors) (src : Text) (o : Options) (d d' : Disk) (t : Text) (s : Coefs PyComplex)
    (h1 : o.noConversion = false) (h2 : o.pfssToZdi = false) (h : d.read o.input = .ok t) (hr : readMagnetogram E t = .ok s)
    (hm : main E F src o d = .ok () d') (hh : HeaderHarmless E.digits src (target o) o.swmfHeader)
    (hfin : ∀ l m x, stores s l m → F.fwd l m = .ok x → ∀ z ∈ (valueAt s l m).head?, IsFinite (times x z).1 ∧ IsFinite (times x z).2) :
    ∃ text r, d'.read (target o) = .ok text ∧ readMagnetogram E text = .ok r ∧ r.dflt = [zeroJ] ∧
      (∀ l m : ℤ, stores r l m ↔ InWindow (o.degreeMax.getD s.degreeMax) 0 l m) ∧
      ∀ l m, InWindow (o.degreeMax.getD s.degreeMax) 0 l m → ∃ y, valueAt r l m = [y] ∧
        (stores s l m → ∃ x z, F.fwd l m = .ok x ∧ (valueAt s l m).head? = some z ∧
          Rounded7 (times x z).1 y.1 ∧ Rounded7 (times x z).2 y.2) ∧
        (¬ stores s l m → ZeroNumber y) := by
  have hhd : header o = o.swmfHeader := by simp [header, backwards, h2]
  obtain ⟨u, hu, _, hf⟩ := output h hr hm (by rw [hhd]; exact hh)
  obtain ⟨w, ty, n, hn⟩ := read_column E hr
  obtain ⟨g, hg, wu, ku, du, tu, vu⟩ := converted_zdi h1 h2 w hn hu
  have hd : ∀ k, (s.getI k).head? = some ((s.getI k).headD zeroJ) := fun k => head_some w hn k
  obtain ⟨text, r, a, b, c, e, f⟩ := hf (by
    intro l m _ z hz
    rw [valueAt_eq', vu, List.mem_singleton] at hz
    subst hz
    split_ifs with hk
    · exact hfin l m _ ((has_int s l m).2 hk) (hg _ hk) _ (by rw [valueAt_eq']; exact hd _)
    · exact zeroJ_finite)
  rw [du] at c
  refine ⟨text, r, a, b, c, e, fun l m hlm => ?_⟩
  have hf' := f l m hlm
  rw [valueAt_eq' u, vu] at hf'
  obtain ⟨y, hy, hrest⟩ := forall₂_single hf'
  refine ⟨y, hy, fun hs => ?_, fun hs => ?_⟩
  · have hk := (has_int s l m).1 hs
    rw [if_pos hk] at hrest
    exact ⟨_, _, hg _ hk, hd _, hrest⟩
  · rw [if_neg (fun hk => hs ((has_int s l m).2 hk))] at hrest
    exact rounded7_zero hrest

/-- **C59.** PFSS to ZDI: read back, the output file has three columns: the products of the inverse factor and the input,
the products of the beta factor and those, and zeros, to seven digits; pairs that the input does not have are zero. -/
theorem C59_pfss_to_zdi (E : PyEnv) (F : Factors) (src : Text) (o : Options) (d d' : Disk) (t : Text) (s : Coefs PyComplex)
    (h1 : o.noConversion = false) (h2 : o.pfssToZdi = true) (h : d.read o.input = .ok t) (hr : readMagnetogram E t = .ok s)
    (hm : main E F src o d = .ok () d') (hh : HeaderHarmless E.digits src (target o) false)
    (hfin : ∀ l m x b, stores s l m → F.inv l m = .ok x → F.beta l m = .ok b → ∀ z ∈ (valueAt s l m).head?,
      (IsFinite (times x z).1 ∧ IsFinite (times x z).2) ∧ IsFinite (times b (times x z)).1 ∧ IsFinite (times b (times x z)).2) :
    ∃ text r, d'.read (target o) = .ok text ∧ readMagnetogram E text = .ok r ∧ r.dflt = [zeroJ, zeroJ, zeroJ] ∧
      (∀ l m : ℤ, stores r l m ↔ InWindow (o.degreeMax.getD s.degreeMax) 0 l m) ∧
      ∀ l m, InWindow (o.degreeMax.getD s.degreeMax) 0 l m → ∃ y1 y2 y3, valueAt r l m = [y1, y2, y3] ∧
        (stores s l m → ∃ x b z, F.inv l m = .ok x ∧ F.beta l m = .ok b ∧ valueAt s l m = [z] ∧
          (Rounded7 (times x z).1 y1.1 ∧ Rounded7 (times x z).2 y1.2) ∧
          (Rounded7 (times b (times x z)).1 y2.1 ∧ Rounded7 (times b (times x z)).2 y2.2)) ∧
        (¬ stores s l m → ZeroNumber y1 ∧ ZeroNumber y2) ∧ ZeroNumber y3 := by
  have hhd : header o = false := by simp [header, backwards, h1, h2]
  obtain ⟨u, hu, _, hf⟩ := output h hr hm (by rw [hhd]; exact hh)
  obtain ⟨w, ty, n, hn⟩ := read_column E hr
  obtain ⟨hl, g, b, hg, wu, ku, du, vu⟩ := converted_pfss h1 h2 w hn hu
  have hd : ∀ k, (s.getI k).head? = some ((s.getI k).headD zeroJ) := fun k => head_some w hn k
  obtain ⟨text, r, a, bb, c, e, f⟩ := hf (by
    intro l m _ z hz
    rw [valueAt_eq', vu] at hz
    split_ifs at hz with hk
    · have := hfin l m _ _ ((has_int s l m).2 hk) (hg _ hk).1 (hg _ hk).2 _ (by rw [valueAt_eq']; exact hd _)
      simp only [List.mem_cons, List.not_mem_nil, or_false] at hz
      rcases hz with rfl | rfl | rfl
      exacts [this.1, this.2, zeroJ_finite]
    · simp only [List.mem_cons, List.not_mem_nil, or_false, or_self] at hz
      subst hz; exact zeroJ_finite)
  rw [du] at c
  refine ⟨text, r, a, bb, c, e, fun l m hlm => ?_⟩
  have hf' := f l m hlm
  rw [valueAt_eq' u, vu] at hf'
  by_cases hk : (l, m) ∈ s.keys
  · rw [if_pos hk] at hf'
    obtain ⟨y1, y2, y3, hy, r1, r2, r3⟩ := forall₂_triple hf'
    refine ⟨y1, y2, y3, hy, fun _ => ⟨_, _, _, (hg _ hk).1, (hg _ hk).2, ?_, r1, r2⟩, fun hs => absurd ((has_int s l m).2 hk) hs,
      rounded7_zero r3⟩
    rw [valueAt_eq']
    have hk' := (w.getI_length (l, m)).trans hl
    obtain ⟨x, hx⟩ := List.length_eq_one_iff.1 hk'
    rw [hx]; rfl
  · rw [if_neg hk] at hf'
    obtain ⟨y1, y2, y3, hy, r1, r2, r3⟩ := forall₂_triple hf'
    exact ⟨y1, y2, y3, hy, fun hs => absurd ((has_int s l m).1 hs) hk, fun _ => ⟨rounded7_zero r1, rounded7_zero r2⟩,
      rounded7_zero r3⟩

/-- **C59** (disagreement). Coefficients of negative order do not reach the output: the set that is read back does not
have them, whatever the mode. -/
theorem C59_negative_orders_witness :
    (match main demoEnv demoFactors [] { input := "in.dat".toList, noConversion := true, swmfHeader := false }
        (demoDisk "1 -1 1.5 0\n".toList) with
      | .ok _ d => match d.read "in_wso.dat".toList with
        | .ok t => match readMagnetogram demoEnv t with
          | .ok r => decide (r.has (.int 1) (.int (-1)) = false ∧ r.has (.int 1) (.int 0) = true)
          | _ => false
        | _ => false
      | _ => false) = true := by decide +kernel

/-! ### The products are correctly rounded -/

private theorem finite_double {x : PyFloat} (h : IsFinite x) : ∃ neg q, x = .fin neg q ∧ IsDouble q := by
  obtain ⟨neg, n, e, h1, h2, h3, rfl⟩ := h
  exact ⟨neg, _, rfl, n, e, h1, h2, h3, rfl⟩

private def sgn (b : Bool) : ℚ := if b then -1 else 1

private theorem value_fin (b : Bool) (q : ℚ) : value (.fin b q) = sgn b * q := by cases b <;> simp [value, sgn]

private theorem num_fin (b : Bool) (q : ℚ) : PyFloat.num (.fin b q) = sgn b * q := by cases b <;> simp [PyFloat.num, sgn]

private theorem sgn_xor (a b : Bool) : sgn (a != b) = sgn a * sgn b := by cases a <;> cases b <;> simp [sgn]

private theorem abs_sgn (b : Bool) : |sgn b| = 1 := by cases b <;> simp [sgn]

private theorem ofMag_zero (b : Bool) : PyFloat.ofMag b 0 = .fin b 0 := by
  rw [ofMag_of_le (le_refl _) maxDouble_isDouble.nonneg, fl0_zero]

/-- A rounded magnitude plus a zero, if the sum is finite. -/
private theorem add_zero_right {b c : Bool} {q : ℚ} (hq : 0 ≤ q) :
    (IsFinite (PyFloat.add (PyFloat.ofMag b q) (.fin c 0)) → value (PyFloat.add (PyFloat.ofMag b q) (.fin c 0)) = sgn b * fl0 q) ∧
    (IsFinite (PyFloat.add (.fin c 0) (PyFloat.ofMag b q)) → value (PyFloat.add (.fin c 0) (PyFloat.ofMag b q)) = sgn b * fl0 q) := by
  unfold PyFloat.ofMag
  split_ifs with h
  · constructor
    · rintro ⟨_, _, _, _, _, _, h⟩; cases h
    · rintro ⟨_, _, _, _, _, _, h⟩; cases h
  · rw [not_le] at h
    have hd := fl0_isDouble q hq h
    have hr : PyFloat.ofMag (decide (sgn b * fl0 q < 0)) |sgn b * fl0 q| = .fin (decide (sgn b * fl0 q < 0)) (fl0 q) := by
      rw [abs_mul, abs_sgn, one_mul, abs_of_nonneg hd.nonneg, ofMag_of_le hd.nonneg hd.le_max, fl0_of_isDouble hd]
    have hv : sgn b * fl0 q ≠ 0 → value (.fin (decide (sgn b * fl0 q < 0)) (fl0 q)) = sgn b * fl0 q := by
      intro hne
      rw [value_fin]
      have hp : 0 < fl0 q := lt_of_le_of_ne hd.nonneg (fun h => hne (by rw [← h, mul_zero]))
      cases b
      · simp [sgn, not_lt.2 hp.le]
      · simp [sgn, hp]
    simp only [PyFloat.add, num_fin, mul_zero, add_zero, zero_add]
    constructor
    · intro _
      split_ifs with h0
      · rw [h0, value_fin, mul_zero]
      · rw [hr]; exact hv h0
    · intro _
      split_ifs with h0
      · rw [h0, value_fin, mul_zero]
      · rw [hr]; exact hv h0

private theorem fl0_rel {q : ℚ} (hq : 2 ^ (-1022 : ℤ) ≤ q) : |fl0 q - q| ≤ 2 ^ (-53 : ℤ) * q := by
  have hpos : 0 < q := lt_of_lt_of_le (by positivity) hq
  have h := grid_abs_le (b := 2) (by norm_num) q (flExp q)
  have h' : |fl0 q - q| ≤ 2 ^ flExp q / 2 := by unfold fl0; exact_mod_cast h
  refine h'.trans ?_
  have hlog : (-1022 : ℤ) ≤ Int.log 2 q := (Int.zpow_le_iff_le_log (b := 2) (by norm_num) hpos).1 (by exact_mod_cast hq)
  have he : flExp q = Int.log 2 q - 52 := by unfold flExp; rw [max_eq_left]; omega
  have hl : (2 : ℚ) ^ Int.log 2 q ≤ q := by exact_mod_cast Int.zpow_log_le_self (b := 2) (by norm_num) hpos
  rw [he]
  have : (2 : ℚ) ^ (Int.log 2 q - 52) / 2 = 2 ^ (-53 : ℤ) * 2 ^ Int.log 2 q := by
    rw [← zpow_add₀ (by norm_num), div_eq_mul_inv, ← zpow_neg_one, ← zpow_add₀ (by norm_num)]
    congr 1; ring
  rw [this]
  exact mul_le_mul_of_nonneg_left hl (by positivity)

/-- A number and the double that an operation should return for it: no finite double is nearer, and in the normal range
the relative error is at most 2⁻⁵³. -/
def Spec.CorrectlyRounded (q : ℚ) (y : PyFloat) : Prop :=
  (∀ y', IsFinite y' → |value y - q| ≤ |value y' - q|) ∧ (q = 0 → value y = 0) ∧
    (2 ^ (-1022 : ℤ) ≤ |q| → |value y - q| ≤ 2 ^ (-53 : ℤ) * |q|)

private theorem correctly {b c : Bool} {p a : ℚ} (hp : 0 ≤ p) (ha : 0 ≤ a) {y : PyFloat} (hy : value y = sgn (b != c) * fl0 (p * a)) :
    CorrectlyRounded (sgn b * p * (sgn c * a)) y := by
  have e : sgn b * p * (sgn c * a) = sgn (b != c) * (p * a) := by rw [sgn_xor]; ring
  have hq : 0 ≤ p * a := mul_nonneg hp ha
  have hd : |value y - sgn (b != c) * (p * a)| = |fl0 (p * a) - p * a| := by
    rw [hy, ← mul_sub, abs_mul, abs_sgn, one_mul]
  rw [e]
  refine ⟨fun y' hy' => ?_, fun h => ?_, fun h => ?_⟩
  · rw [hd]
    obtain ⟨b', q', rfl, hq'⟩ := finite_double hy'
    rcases hq.eq_or_lt with h0 | h0
    · rw [← h0, fl0_zero]; simp
    · refine (fl0_nearest h0 hq').trans ?_
      rw [value_fin]
      have h1 : q' ≤ |sgn b' * q'| := by rw [abs_mul, abs_sgn, one_mul]; exact le_abs_self _
      by_cases hs : b' = (b != c)
      · rw [hs, ← mul_sub, abs_mul, abs_sgn, one_mul]
      · have h2 : sgn b' = - sgn (b != c) := by
          revert hs; generalize (b != c) = x; cases b' <;> cases x <;> simp [sgn]
        rw [h2, show -sgn (b != c) * q' - sgn (b != c) * (p * a) = sgn (b != c) * (-(q' + p * a)) by ring, abs_mul, abs_sgn, one_mul,
          abs_neg, abs_of_nonneg (add_nonneg hq'.nonneg hq)]
        rw [abs_le]; constructor <;> linarith [hq'.nonneg]
  · have h0 : p * a = 0 := by
      have := congrArg abs h
      rw [abs_mul, abs_sgn, one_mul, abs_zero, abs_eq_zero] at this
      exact this
    rw [hy, h0, fl0_zero, mul_zero]
  · rw [abs_mul, abs_sgn, one_mul, abs_of_nonneg hq] at h ⊢
    rw [hd]
    exact fl0_rel h

/-- **C59.** Both components of the stored product of a float64 factor and a complex number are the correctly rounded
exact products. -/
theorem C59_product (x : PyFloat) (z : PyComplex) (hx : IsFinite x) (hz : IsFinite z.1 ∧ IsFinite z.2)
    (hr : IsFinite (times x z).1 ∧ IsFinite (times x z).2) :
    CorrectlyRounded (value z.1 * value x) (times x z).1 ∧ CorrectlyRounded (value z.2 * value x) (times x z).2 := by
  obtain ⟨c, a, rfl, ha⟩ := finite_double hx
  obtain ⟨z1, z2⟩ := z
  obtain ⟨⟨b1, p1, rfl, hp1⟩, ⟨b2, p2, rfl, hp2⟩⟩ := And.imp finite_double finite_double hz
  simp only [times, PyFloat.cmul, PyFloat.mul, mul_zero, ofMag_zero, PyFloat.neg] at hr ⊢
  rw [value_fin, value_fin, value_fin]
  exact ⟨correctly hp1.nonneg ha.nonneg ((add_zero_right (mul_nonneg hp1.nonneg ha.nonneg)).1 hr.1),
    correctly hp2.nonneg ha.nonneg ((add_zero_right (mul_nonneg hp2.nonneg ha.nonneg)).2 hr.2)⟩

/-- **C59.** The whole error of one written component: if the computed factor `x` is within the relative error `ε` of the
factor `f` and the product does not underflow, the number in the output file is within `2 ε + 2·10⁻⁶` of `f` times the
number in the input file. -/
theorem C59_accuracy {f ε a : ℝ} {x w y : PyFloat} {q : ℚ} (hε : 0 ≤ ε) (hε1 : ε ≤ 1) (hx : |(value x : ℝ) - f| ≤ ε * |f|) (hq : (q : ℝ) = a * value x)
    (hw : CorrectlyRounded q w) (hu : q = 0 ∨ 2 ^ (-1022 : ℤ) ≤ |q|) (hy : Rounded7 w y) :
    |(value y : ℝ) - a * f| ≤ (2 * ε + 2 / 10 ^ 6) * |a * f| := by
  obtain ⟨_, _, _, _, _, _, _, hy⟩ := hy
  have hw' : |value w - q| ≤ 2 ^ (-53 : ℤ) * |q| := by
    rcases hu with h | h
    · rw [hw.2.1 h, h]; simp
    · exact hw.2.2 h
  have hw'' : |(value w : ℝ) - q| ≤ 2 ^ (-53 : ℤ) * |(q : ℝ)| := by
    have h := (Rat.cast_le (K := ℝ)).2 hw'
    push_cast at h
    exact h
  have hy' : |(value y : ℝ) - value w| ≤ 1 / 10 ^ 6 * |(value w : ℝ)| := by
    have h := (Rat.cast_le (K := ℝ)).2 hy
    push_cast at h
    exact h
  have hs : (2 : ℝ) ^ (-53 : ℤ) ≤ 1 / 10 ^ 15 := by norm_num
  have h1 : |(q : ℝ) - a * f| ≤ ε * |a * f| := by
    rw [hq, ← mul_sub, abs_mul, abs_mul, mul_left_comm]
    exact mul_le_mul_of_nonneg_left hx (abs_nonneg _)
  have hA := abs_nonneg (a * f)
  have h2 : |(q : ℝ)| ≤ (1 + ε) * |a * f| := by
    have := abs_sub_abs_le_abs_sub (q : ℝ) (a * f); linarith
  have h3 : |(value w : ℝ) - q| ≤ 1 / 10 ^ 15 * |(q : ℝ)| := hw''.trans (mul_le_mul_of_nonneg_right hs (abs_nonneg _))
  have h4 : |(value w : ℝ)| ≤ (1 + 1 / 10 ^ 15) * |(q : ℝ)| := by
    have := abs_sub_abs_le_abs_sub (value w : ℝ) q; linarith
  have h5 : |(value y : ℝ) - a * f| ≤ |(value y : ℝ) - value w| + (|(value w : ℝ) - q| + |(q : ℝ) - a * f|) := by
    have e1 := abs_sub_le (value y : ℝ) (value w) (a * f)
    have e2 := abs_sub_le (value w : ℝ) q (a * f)
    linarith
  have h6 : ε * |a * f| ≤ 1 * |a * f| := mul_le_mul_of_nonneg_right hε1 hA
  have h7 : 0 ≤ ε * |a * f| := mul_nonneg hε hA
  nlinarith

/-! ### A concrete run -/

private def runSet : Coefs PyComplex := match readMagnetogram demoEnv demoText with | .ok s => s | .error _ => new [] .cplx

private theorem runSet_read : readMagnetogram demoEnv demoText = .ok runSet := by decide +kernel

private def demoOptions : Options := { input := "in.dat".toList, swmfHeader := false }

private theorem demo_runs : ∃ d', main demoEnv demoFactors [] demoOptions (demoDisk demoText) = .ok () d' := by
  rcases h : main demoEnv demoFactors [] demoOptions (demoDisk demoText) with ⟨⟨⟩, d'⟩ | ⟨e, d'⟩
  · exact ⟨d', rfl⟩
  · have : (after demoOptions []).1 = true := by decide +kernel
    rw [after, h] at this; cases this

private theorem demo_stores {l m : ℤ} (h : stores runSet l m) : l = 1 ∧ m = 0 := by
  have h1 := (has_int runSet l m).1 h
  rw [show runSet.keys = [(1, 0)] by decide +kernel, List.mem_singleton] at h1
  cases h1
  exact ⟨rfl, rfl⟩

private theorem demo_finite : ∀ l m x, stores runSet l m → demoFactors.fwd l m = .ok x → ∀ z ∈ (valueAt runSet l m).head?,
    IsFinite (times x z).1 ∧ IsFinite (times x z).2 := by
  intro l m x hs hx z hz
  obtain ⟨rfl, rfl⟩ := demo_stores hs
  rw [show (valueAt runSet 1 0).head? = some (.fin false (3 / 2), .fin false 0) by decide +kernel] at hz
  cases hz
  cases hx
  rw [show times (.fin false 2) (.fin false (3 / 2), .fin false 0) = (.fin false 3, .fin false 0) by decide +kernel]
  exact ⟨⟨false, 3, 0, by norm_num, by norm_num, by norm_num, by norm_num⟩, zero_finite⟩

/-- The theorem on the conversion of a file applies to an actual run. -/
example : ∃ d' text r y, main demoEnv demoFactors [] demoOptions (demoDisk demoText) = .ok () d' ∧
    d'.read "in_wso.dat".toList = .ok text ∧ readMagnetogram demoEnv text = .ok r ∧ valueAt r 1 0 = [y] := by
  obtain ⟨d', hd⟩ := demo_runs
  obtain ⟨text, r, h1, h2, _, _, h3⟩ := C59_zdi_to_pfss demoEnv demoFactors [] demoOptions (demoDisk demoText) d' demoText runSet rfl rfl
    (by decide +kernel) runSet_read hd (by simp [HeaderHarmless, demoOptions, NoBreak]) demo_finite
  obtain ⟨y, hy, _⟩ := h3 1 0 (by
    rw [show demoOptions.degreeMax.getD runSet.degreeMax = 1 by decide +kernel]
    unfold InWindow; norm_num)
  exact ⟨d', text, r, y, hd, by rw [← h1]; congr 1, h2, hy⟩

example := C59_product (.fin false 2) (.fin false 3, .fin false 0) ⟨false, 2, 0, by norm_num, by norm_num, by norm_num, by norm_num⟩
  ⟨⟨false, 3, 0, by norm_num, by norm_num, by norm_num, by norm_num⟩, zero_finite⟩
  (by rw [show times (.fin false 2) (.fin false 3, .fin false 0) = (.fin false 6, .fin false 0) by decide +kernel]
      exact ⟨⟨false, 6, 0, by norm_num, by norm_num, by norm_num, by norm_num⟩, zero_finite⟩)

/-- A file with two columns is refused. -/
example : main demoEnv demoFactors [] { input := "in.dat".toList, noConversion := true } (demoDisk "1 0 1 0\n1 0 2 0\n".toList)
    = .error .index (demoDisk "1 0 1 0\n1 0 2 0\n".toList) := by
  obtain ⟨s, hs, hl⟩ : ∃ s, readMagnetogram demoEnv "1 0 1 0\n1 0 2 0\n".toList = .ok s ∧ s.dflt.length ≠ 1 := by
    refine ⟨match readMagnetogram demoEnv "1 0 1 0\n1 0 2 0\n".toList with | .ok s => s | .error _ => new [] .cplx, ?_, ?_⟩ <;>
      decide +kernel
  exact C59_columns demoEnv demoFactors [] _ _ _ s (by decide +kernel) hs (Or.inl rfl) hl

end Verif
