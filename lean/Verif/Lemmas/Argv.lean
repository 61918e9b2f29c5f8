import Verif.Model.Argv
import Mathlib.Data.List.Nodup
import Mathlib.Tactic.Tauto

/-!
# The parser of command lines, piece by piece
-/

namespace Verif
namespace Spec
open Argv

variable {σ : Type}

/-- A parser whose option strings are distinct and are either a dash and a letter or two dashes and something without `=`. -/
structure SoundParser (P : Parser σ) : Prop where
  nodup : (P.acts.map Act.name).Nodup
  form : ∀ a ∈ P.acts, (∃ c : Char, a.name = ['-', c] ∧ c.isAlpha = true) ∨ ∃ r : Text, a.name = '-' :: '-' :: r ∧ r ≠ [] ∧ '=' ∉ r

/-- `p` is the option string of `a`, or an abbreviation with two dashes that no other option string begins with. -/
def Means (P : Parser σ) (p : Text) (a : Act σ) : Prop :=
  p = a.name ∨ ((∃ r, p = '-' :: '-' :: r ∧ r ≠ []) ∧ p <+: a.name ∧ ∀ b ∈ P.acts, p <+: b.name → b.name = a.name)

/-- An integer that begins with a minus sign. -/
def NegInt (U : Digits) (v : Text) : Prop := ∃ ds, v = '-' :: ds ∧ ds ≠ [] ∧ ∀ c ∈ ds, (U.val c).isSome

/-- What is given on a command line: a file, or options with their arguments (several when they are written as one). -/
inductive Item (σ : Type)
  | file (t : Text)
  | opts (l : List (Act σ × Text))

/-- How it may be written. -/
inductive Writes (U : Digits) (P : Parser σ) : Item σ → List Text → Prop
  /-- the name of a file does not begin with a dash -/
  | file (t : Text) (ht : t.head? ≠ some '-') : Writes U P (.file t) [t]
  | flag (a : Act σ) (p : Text) (ha : a ∈ P.acts) (h : a.takes = false) (hp : Means P p a) : Writes U P (.opts [(a, [])]) [p]
  /-- `-s 5`, `--skip-rows 5` -/
  | apart (a : Act σ) (p v : Text) (ha : a ∈ P.acts) (h : a.takes = true) (hp : Means P p a)
      (hv : v.head? ≠ some '-' ∨ NegInt U v) : Writes U P (.opts [(a, v)]) [p, v]
  /-- `-s=5`, `--skip-rows=5` -/
  | equals (a : Act σ) (p v : Text) (ha : a ∈ P.acts) (h : a.takes = true) (hp : Means P p a) :
      Writes U P (.opts [(a, v)]) [p ++ '=' :: v]
  /-- `-s5` -/
  | attached (a : Act σ) (c : Char) (v : Text) (ha : a ∈ P.acts) (h : a.takes = true) (hc : a.name = ['-', c])
      (hv : v ≠ []) (hv' : v.head? ≠ some '=') : Writes U P (.opts [(a, v)]) ['-' :: c :: v]
  /-- `-qv` -/
  | together (l : List (Act σ)) (cs : Text) (h2 : 2 ≤ l.length)
      (h : List.Forall₂ (fun a c => a ∈ P.acts ∧ a.takes = false ∧ a.name = ['-', c]) l cs) :
      Writes U P (.opts (l.map fun a => (a, []))) ['-' :: cs]

/-- The whole command line. -/
inductive Line (U : Digits) (P : Parser σ) : List (Item σ) → List Text → Prop
  | nil : Line U P [] []
  | cons {i : Item σ} {w : List Text} {is : List (Item σ)} {ws : List Text} (h : Writes U P i w) (t : Line U P is ws) :
      Line U P (i :: is) (w ++ ws)

/-- The options in their order. -/
def given : List (Item σ) → List (Act σ × Text)
  | [] => []
  | .file _ :: is => given is
  | .opts l :: is => l ++ given is

/-- The files in their order. -/
def filesOf : List (Item σ) → List Text
  | [] => []
  | .file t :: is => t :: filesOf is
  | .opts _ :: is => filesOf is

/-- The options act in their order; the first that objects decides. -/
def perform : List (Act σ × Text) → σ → Except Exit σ
  | [], ns => .ok ns
  | (a, v) :: l, ns => match a.run v ns with
    | .error e => .error e
    | .ok ns' => perform l ns'

/-- After the files: the options act, and then there must be no further file. -/
def afterFiles (is : List (Item σ)) (ns : σ) : Except Exit σ :=
  match perform (given is) ns with
  | .error e => .error e
  | .ok ns' => if filesOf is = [] then .ok ns' else .error .usage

/-- What a command line means: the first file is the input; the output is the file right after it, if there is one. -/
def meaning (P : Parser σ) : List (Item σ) → σ → Except Exit σ
  | [], _ => .error .usage
  | .opts l :: is, ns => match perform l ns with
    | .error e => .error e
    | .ok ns' => meaning P is ns'
  | .file f :: .file g :: is, ns => afterFiles is (P.second (some g) (P.first f ns))
  | .file f :: is, ns => afterFiles is (P.second none (P.first f ns))

end Spec

namespace Argv
open Spec
variable {σ : Type} {U : Digits} {P : Parser σ}

/-! ### Single arguments -/

theorem runs_eq (l : List (Act σ × Text)) (ns : σ) : runs l ns = perform l ns := by
  induction l generalizing ns with
  | nil => rfl
  | cons x l ih =>
    simp only [runs, List.foldlM_cons, perform] at ih ⊢
    cases h : x.1.run x.2 ns with
    | error e => rfl
    | ok ns' => exact ih ns'

theorem perform_append (l m : List (Act σ × Text)) (ns : σ) :
    perform (l ++ m) ns = (match perform l ns with | .error e => .error e | .ok ns' => perform m ns') := by
  induction l generalizing ns with
  | nil => rfl
  | cons x l ih =>
    simp only [List.cons_append, perform]
    cases h : x.1.run x.2 ns with
    | error e => rfl
    | ok ns' => exact ih ns'

theorem lookup_some {t : Text} {a : Act σ} (h : lookup P t = some a) : a ∈ P.acts ∧ a.name = t := by
  unfold lookup at h
  exact ⟨List.mem_of_find?_eq_some h, by simpa using List.find?_some h⟩

theorem name_inj (hP : SoundParser P) {a b : Act σ} (ha : a ∈ P.acts) (hb : b ∈ P.acts) (h : a.name = b.name) : a = b :=
  List.inj_on_of_nodup_map hP.nodup ha hb h

theorem lookup_name (hP : SoundParser P) {a : Act σ} (ha : a ∈ P.acts) : lookup P a.name = some a := by
  cases h : lookup P a.name with
  | none =>
    unfold lookup at h
    rw [List.find?_eq_none] at h
    have := h a ha
    simp at this
  | some b =>
    obtain ⟨hb, hn⟩ := lookup_some h
    rw [name_inj hP hb ha hn]

theorem lookup_none {t : Text} (h : ∀ a ∈ P.acts, a.name ≠ t) : lookup P t = none := by
  unfold lookup
  rw [List.find?_eq_none]
  intro a ha
  simpa using h a ha

theorem before_eq {t : Text} (h : '=' ∉ t) (u : Text) :
    (t ++ u).takeWhile (· ≠ '=') = t ++ u.takeWhile (· ≠ '=') ∧ (t ++ u).dropWhile (· ≠ '=') = u.dropWhile (· ≠ '=') := by
  induction t with
  | nil => exact ⟨rfl, rfl⟩
  | cons c t ih =>
    simp only [List.mem_cons, not_or] at h
    have hc : c ≠ '=' := fun e => h.1 e.symm
    obtain ⟨h1, h2⟩ := ih h.2
    constructor
    · rw [List.cons_append, List.takeWhile_cons_of_pos (by simpa using hc), h1]; rfl
    · rw [List.cons_append, List.dropWhile_cons_of_pos (by simpa using hc), h2]

theorem partition_no {t : Text} (h : '=' ∉ t) : partition t = (t, none) := by
  have := before_eq h []
  simp only [List.append_nil, List.takeWhile_nil, List.dropWhile_nil] at this
  simp only [partition, this.1, this.2]

theorem partition_eq {t : Text} (h : '=' ∉ t) (v : Text) : partition (t ++ '=' :: v) = (t, some v) := by
  have := before_eq h ('=' :: v)
  rw [List.takeWhile_cons_of_neg (by simp), List.dropWhile_cons_of_neg (by simp), List.append_nil] at this
  simp only [partition, this.1, this.2]

theorem alpha_ne {c d : Char} (h : c.isAlpha = true) (hd : d.isAlpha = false) : c ≠ d := by
  rintro rfl; rw [h] at hd; exact absurd hd (by simp)

theorem name_no_eq (hP : SoundParser P) {a : Act σ} (ha : a ∈ P.acts) : '=' ∉ a.name := by
  rcases hP.form a ha with ⟨c, hc, hl⟩ | ⟨r, hr, -, hn⟩
  · rw [hc]
    have := alpha_ne hl (d := '=') (by decide)
    simp [this.symm]
  · rw [hr]; simp [hn]

theorem name_head (hP : SoundParser P) {a : Act σ} (ha : a ∈ P.acts) : a.name.head? = some '-' := by
  rcases hP.form a ha with ⟨c, hc, hl⟩ | ⟨r, hr, -, hn⟩
  · rw [hc]; rfl
  · rw [hr]; rfl

theorem name_ne_dashes (hP : SoundParser P) {a : Act σ} (ha : a ∈ P.acts) : a.name ≠ ['-', '-'] := by
  rcases hP.form a ha with ⟨c, hc, hl⟩ | ⟨r, hr, h0, hn⟩
  · rw [hc]
    have := alpha_ne hl (d := '-') (by decide)
    simp [this]
  · rw [hr]; simp [h0]

theorem means_no_eq (hP : SoundParser P) {a : Act σ} (ha : a ∈ P.acts) {p : Text} (h : Means P p a) : '=' ∉ p := by
  rcases h with rfl | ⟨-, h, -⟩
  · exact name_no_eq hP ha
  · exact fun hc => name_no_eq hP ha (h.subset hc)

theorem means_head (hP : SoundParser P) {a : Act σ} (ha : a ∈ P.acts) {p : Text} (h : Means P p a) : p.head? = some '-' := by
  rcases h with rfl | ⟨⟨r, rfl, -⟩, h, -⟩
  · exact name_head hP ha
  · rfl

theorem means_ne (hP : SoundParser P) {a : Act σ} (ha : a ∈ P.acts) {p : Text} (h : Means P p a) : p ≠ ['-', '-'] := by
  rcases h with rfl | ⟨⟨r, rfl, h0⟩, h, -⟩
  · exact name_ne_dashes hP ha
  · simp [h0]

theorem filterMap_one {β : Type} (l : List (Act σ)) (hn : (l.map Act.name).Nodup) (f : Act σ → Option β) {a : Act σ} {y : β}
    (ha : a ∈ l) (hy : f a = some y) (h : ∀ b ∈ l, b.name ≠ a.name → f b = none) : l.filterMap f = [y] := by
  induction l with
  | nil => exact absurd ha (by simp)
  | cons b l ih =>
    rw [List.map_cons, List.nodup_cons] at hn
    by_cases hb : b.name = a.name
    · have hba : b = a := by
        rcases List.mem_cons.1 ha with rfl | hm
        · rfl
        · exact absurd (hb ▸ List.mem_map_of_mem (f := Act.name) hm) hn.1
      subst hba
      have hl : l.filterMap f = [] := List.filterMap_eq_nil_iff.2 fun c hc => h c (List.mem_cons_of_mem _ hc) fun e =>
        hn.1 (e ▸ List.mem_map_of_mem (f := Act.name) hc)
      rw [List.filterMap_cons, hy, hl]
    · have ha' : a ∈ l := (List.mem_cons.1 ha).resolve_left fun e => hb (by rw [e])
      rw [List.filterMap_cons, h b (by simp) hb]
      exact ih hn.2 ha' fun c hc => h c (List.mem_cons_of_mem _ hc)

/-- An argument that does not begin with a dash. -/
theorem plain_word {t : Text} (ht : t.head? ≠ some '-') : parseOptional U P t = .ok none := by
  unfold parseOptional; rw [if_pos ht]

/-- An option string or an abbreviation of it. -/
theorem means_parse (hP : SoundParser P) {a : Act σ} (ha : a ∈ P.acts) {p : Text} (h : Means P p a) :
    parseOptional U P p = .ok (some ⟨some a, none⟩) := by
  unfold parseOptional
  rw [if_neg (by simp [means_head hP ha h])]
  cases hl : lookup P p with
  | some b =>
    have hb := lookup_some hl
    have : b = a := by
      rcases h with rfl | ⟨-, -, hu⟩
      · exact name_inj hP hb.1 ha hb.2
      · exact name_inj hP hb.1 ha (hu b hb.1 (by rw [hb.2]))
    rw [this]
  | none =>
    rcases h with rfl | ⟨⟨r, rfl, h0⟩, hpre, hu⟩
    · rw [lookup_name hP ha] at hl; exact absurd hl (by simp)
    · have hno : '=' ∉ '-' :: '-' :: r := fun hc => name_no_eq hP ha (hpre.subset hc)
      have ht : tuples P ('-' :: '-' :: r) = [⟨some a, none⟩] := by
        simp only [tuples, partition_no hno, Option.map_none]
        refine filterMap_one _ hP.nodup _ ha ?_ ?_
        · rw [if_pos (by simpa using hpre)]
        · intro b hb hne
          rw [if_neg]
          intro hc
          exact hne (hu b hb (by simpa using hc))
      simp only [partition_no hno, Option.bind_none, ht]
      rw [if_neg (by simp)]

/-- The same followed by `=` and an argument. -/
theorem means_equals (hP : SoundParser P) {a : Act σ} (ha : a ∈ P.acts) {p : Text} (h : Means P p a) (v : Text) :
    parseOptional U P (p ++ '=' :: v) = .ok (some ⟨some a, some (true, v)⟩) := by
  have hno := means_no_eq hP ha h
  have hhd := means_head hP ha h
  have hl : lookup P (p ++ '=' :: v) = none := lookup_none fun b hb e => name_no_eq hP hb (by rw [e]; simp)
  have hp0 : p ≠ [] := by rintro rfl; simp at hhd
  have hlen : 0 < p.length := List.length_pos_iff.2 hp0
  unfold parseOptional
  rw [if_neg (by cases p with | nil => exact absurd rfl hp0 | cons c r => simpa using hhd), hl]
  simp only
  rw [if_neg (by simp only [List.length_append, List.length_cons]; omega)]
  simp only [partition_eq hno, Option.bind_some]
  cases hl' : lookup P p with
  | some b =>
    have hb := lookup_some hl'
    have : b = a := by
      rcases h with rfl | ⟨-, -, hu⟩
      · exact name_inj hP hb.1 ha hb.2
      · exact name_inj hP hb.1 ha (hu b hb.1 (by rw [hb.2]))
    rw [this]; rfl
  | none =>
    rcases h with rfl | ⟨⟨r, rfl, h0⟩, hpre, hu⟩
    · rw [lookup_name hP ha] at hl'; exact absurd hl' (by simp)
    · have ht : tuples P ('-' :: '-' :: r ++ '=' :: v) = [⟨some a, some (true, v)⟩] := by
        have he := partition_eq hno v
        simp only [List.cons_append] at he
        simp only [tuples, List.cons_append, he, Option.map_some]
        refine filterMap_one _ hP.nodup _ ha ?_ ?_
        · rw [if_pos (by simpa using hpre)]
        · intro b hb hne
          rw [if_neg]
          intro hc
          exact hne (hu b hb (by simpa using hc))
      simp only [Option.map_none, ht]

/-- A dash, a letter that is an option, and more. -/
theorem short_parse (hP : SoundParser P) {a : Act σ} (ha : a ∈ P.acts) {c : Char} (hc : a.name = ['-', c]) {v : Text}
    (hv : v ≠ []) (hv' : v.head? ≠ some '=') : parseOptional U P ('-' :: c :: v) = .ok (some ⟨some a, some (false, v)⟩) := by
  have hca : c.isAlpha = true := by
    rcases hP.form a ha with ⟨d, hd, hl⟩ | ⟨r, hr, h0, -⟩
    · rw [hc] at hd; simp only [List.cons.injEq, and_true, true_and] at hd; rw [hd]; exact hl
    · rw [hc] at hr; simp at hr; exact absurd hr.2.symm (by simpa [eq_comm] using h0)
  have hcd : c ≠ '-' := alpha_ne hca (by decide)
  have hce : c ≠ '=' := alpha_ne hca (by decide)
  have hlong : ∀ w : Text, w ≠ [] → lookup P ('-' :: c :: w) = none := fun w hw => lookup_none fun b hb e => by
    rcases hP.form b hb with ⟨d, hd, -⟩ | ⟨r, hr, -, -⟩
    · rw [hd] at e; simp at e; exact hw e.2
    · rw [hr] at e; simp at e; exact hcd e.1.symm
  obtain ⟨d, w, rfl⟩ := List.exists_cons_of_ne_nil hv
  have hde : d ≠ '=' := by simpa using hv'
  have hpart : (partition ('-' :: c :: d :: w)).1 = '-' :: c :: d :: w.takeWhile (· ≠ '=') := by
    simp [partition, List.takeWhile_cons, hce, hde]
  have ht : tuples P ('-' :: c :: d :: w) = [⟨some a, some (false, d :: w)⟩] := by
    have : tuples P ('-' :: c :: d :: w) = P.acts.filterMap fun a =>
        if a.name = ('-' :: c :: d :: w).take 2 then some ⟨some a, some (false, ('-' :: c :: d :: w).drop 2)⟩
        else if ('-' :: c :: d :: w).isPrefixOf a.name then some ⟨some a, none⟩ else none := by
      unfold tuples
      split
      · rename_i t h
        simp at h; exact absurd h.1 hcd
      · rfl
    rw [this]
    refine filterMap_one _ hP.nodup _ ha ?_ ?_
    · rw [if_pos (by simpa using hc)]; rfl
    · intro b hb hne
      rw [if_neg (by rw [← hc.trans (by rfl : ['-', c] = ('-' :: c :: d :: w).take 2)]; exact hne), if_neg]
      intro hp
      have hp : ('-' :: c :: d :: w) <+: b.name := by simpa using hp
      rcases hP.form b hb with ⟨e, he, -⟩ | ⟨r, hr, -, -⟩
      · rw [he] at hp; have := hp.length_le; simp at this
      · rw [hr] at hp; simp at hp; exact hcd hp.1
  unfold parseOptional
  rw [if_neg (by simp), hlong _ (by simp)]
  simp only [hpart, hlong _ (List.cons_ne_nil _ _), Option.map_none, ht]
  rw [if_neg (by simp)]
  cases (partition ('-' :: c :: d :: w)).2 <;> rfl

theorem digit_not_alpha {c : Char} (h : (U.val c).isSome) : c.isAlpha = false ∧ c ≠ '-' ∧ c ≠ '=' := by
  have key : c.toNat < 128 → 48 ≤ c.toNat ∧ c.toNat ≤ 57 := fun hc => by
    rw [U.ascii c hc] at h
    by_contra hn
    rw [if_neg hn] at h; simp at h
  refine ⟨?_, ?_, ?_⟩
  · by_contra ha
    have ha : c.isAlpha = true := by simpa using ha
    simp only [Char.isAlpha, Char.isUpper, Char.isLower, Bool.or_eq_true, Bool.and_eq_true, decide_eq_true_eq,
      UInt32.le_iff_toNat_le] at ha
    have hv : c.val.toNat = c.toNat := rfl
    rw [hv] at ha
    have e1 : ('A' : Char).val.toNat = 65 := rfl
    have e2 : ('Z' : Char).val.toNat = 90 := rfl
    have e3 : ('a' : Char).val.toNat = 97 := rfl
    have e4 : ('z' : Char).val.toNat = 122 := rfl
    have := key (by omega)
    omega
  · rintro rfl; have := key (by decide); revert this; decide
  · rintro rfl; have := key (by decide); revert this; decide

/-- A negative integer is no option. -/
theorem negInt_word (hP : SoundParser P) {v : Text} (h : NegInt U v) : parseOptional U P v = .ok none ∧ v ≠ ['-', '-'] := by
  obtain ⟨ds, rfl, h0, hd⟩ := h
  obtain ⟨c, r, rfl⟩ := List.exists_cons_of_ne_nil h0
  have hc := digit_not_alpha (hd c (by simp))
  have hneg : negative U ('-' :: c :: r) = true := by
    have hlast : (c :: r).getLast? ≠ some '\n' := fun e => by
      have hm : '\n' ∈ c :: r := List.mem_of_getLast? e
      have hs := hd _ hm
      rw [U.ascii _ (by decide)] at hs
      revert hs; decide
    unfold negative
    simp only [hlast, if_false]
    simp only [Bool.or_eq_true]
    left
    simpa using hd
  have hno : '=' ∉ '-' :: c :: r := by
    intro hm
    rcases List.mem_cons.1 hm with e | hm
    · exact absurd e (by decide)
    · exact (digit_not_alpha (hd _ hm)).2.2 rfl
  have hl : lookup P ('-' :: c :: r) = none := lookup_none fun b hb e => by
    rcases hP.form b hb with ⟨d, hd', hl⟩ | ⟨s, hr, -, -⟩
    · rw [hd'] at e; simp at e; rw [e.1, hc.1] at hl; exact absurd hl (by simp)
    · rw [hr] at e; simp at e; exact hc.2.1 e.1.symm
  have ht : tuples P ('-' :: c :: r) = [] := by
    unfold tuples
    split
    · rename_i t h
      simp at h; exact absurd h.1 hc.2.1
    · refine List.filterMap_eq_nil_iff.2 fun b hb => ?_
      have h1 : b.name ≠ ['-', c] := fun e => by
        rcases hP.form b hb with ⟨d, hd', hl⟩ | ⟨s, hr, -, -⟩
        · rw [hd'] at e; simp at e; rw [e, hc.1] at hl; exact absurd hl (by simp)
        · rw [hr] at e; simp at e; exact hc.2.1 e.1.symm
      rw [if_neg (by simpa using h1), if_neg]
      intro hp
      have hp : ('-' :: c :: r) <+: b.name := by simpa using hp
      rcases hP.form b hb with ⟨d, hd', hl⟩ | ⟨s, hr, -, -⟩
      · rw [hd'] at hp; simp at hp; rw [← hp.1, hc.1] at hl; exact absurd hl (by simp)
      · rw [hr] at hp; simp at hp; exact hc.2.1 hp.1
  constructor
  · unfold parseOptional
    rw [if_neg (by simp), hl]
    simp only [partition_no hno, Option.bind_none, ht, hneg, Bool.true_or, if_true]
    rw [if_neg (by simp)]
  · simp [hc.2.1]

/-! ### Pieces of the command line -/

/-- These arguments are an option with its argument, and act as `l`. -/
def ActsAs (P : Parser σ) (l : List (Act σ × Text)) (ts : List (Text × Tag σ)) : Prop :=
  ∃ t o ws, ts = (t, .opt o) :: ws ∧ ∀ rest s, consumeOpt P t o (ws ++ rest) s =
    (match perform l s.ns with | .error e => .error e | .ok ns => .ok (rest, { s with ns := ns }))

/-- The arguments of an item. -/
def TagsOf (P : Parser σ) : Item σ → List (Text × Tag σ) → Prop
  | .file t, ts => ts = [(t, .word)]
  | .opts l, ts => ActsAs P l ts

theorem tags_one {t : Text} (ht : t ≠ ['-', '-']) {o : Option (Opt σ)} (h : parseOptional U P t = .ok o) (more : List Text) :
    tags U P (t :: more) = (match tags U P more with | .error e => .error e | .ok r => .ok ((t, o.elim .word .opt) :: r)) := by
  rw [tags, if_neg ht, h]
  cases tags U P more <;> rfl

theorem acts_none {a : Act σ} (h : a.takes = false) (p : Text) : ActsAs P [(a, [])] [(p, .opt ⟨some a, none⟩)] := by
  refine ⟨p, ⟨some a, none⟩, [], rfl, fun rest s => ?_⟩
  simp only [consumeOpt, argument, h, List.nil_append, Bool.false_eq_true, if_false, runs_eq, Option.toList_none, List.append_nil,
    bind, Except.bind]
  cases perform [(a, [])] s.ns <;> rfl

theorem acts_next {a : Act σ} (h : a.takes = true) (p v : Text) :
    ActsAs P [(a, v)] [(p, .opt ⟨some a, none⟩), (v, .word)] := by
  refine ⟨p, ⟨some a, none⟩, [(v, .word)], rfl, fun rest s => ?_⟩
  simp only [consumeOpt, argument, h, List.nil_append, List.cons_append, if_true, runs_eq, Option.toList_none, List.append_nil,
    bind, Except.bind]
  cases perform [(a, v)] s.ns <;> rfl

theorem acts_found {a : Act σ} {e : Bool × Text} {l : List (Act σ × Text)} {x : Option (Act σ)}
    (h : cluster P a e.1 e.2 = .ok ⟨l, x, none⟩) (hx : ∀ b, x = some b → b.takes = false) (p : Text) :
    ActsAs P (l ++ (x.map fun b => (b, [])).toList) [(p, .opt ⟨some a, some e⟩)] := by
  refine ⟨p, ⟨some a, some e⟩, [], rfl, fun rest s => ?_⟩
  have ha : argument x rest = .ok ((x.map fun b => (b, [])).toList, rest) := by
    cases x with
    | none => rfl
    | some b => simp [argument, hx b rfl]
  simp only [consumeOpt, h, ha, List.nil_append, runs_eq, Option.toList_none, List.append_nil, bind, Except.bind]
  cases perform (l ++ (x.map fun b => (b, [])).toList) s.ns <;> rfl

theorem cluster_takes {a : Act σ} (h : a.takes = true) (eq : Bool) (v : Text) : cluster P a eq v = .ok ⟨[(a, v)], none, none⟩ := by
  rw [cluster.eq_def, if_pos h]

theorem cluster_flags (hP : SoundParser P) (l : List (Act σ)) (cs : Text)
    (h : List.Forall₂ (fun a c => a ∈ P.acts ∧ a.takes = false ∧ a.name = ['-', c]) l cs) (hne : l ≠ []) {a : Act σ}
    (ha : a.takes = false) {c : Char} (hc : a.name = ['-', c]) (hcm : a ∈ P.acts) :
    ∃ m b, cluster P a false cs = .ok ⟨m, some b, none⟩ ∧ b.takes = false ∧ m ++ [(b, [])] = (a :: l).map fun x => (x, []) := by
  induction h generalizing a c with
  | nil => exact absurd rfl hne
  | @cons b d l cs hb hl ih =>
    have alpha : ∀ {x : Act σ} {y : Char}, x ∈ P.acts → x.name = ['-', y] → y.isAlpha = true := by
      intro x y hx hy
      rcases hP.form x hx with ⟨z, hz, hz'⟩ | ⟨r, hr, h0, -⟩
      · rw [hy] at hz; simp only [List.cons.injEq, and_true, true_and] at hz; rw [hz]; exact hz'
      · rw [hy] at hr; simp at hr; exact absurd hr.2.symm (by simpa [eq_comm] using h0)
    have hd := alpha hb.1 hb.2.2
    have hca := alpha hcm hc
    have hlook : lookup P ['-', d] = some b := by rw [← hb.2.2]; exact lookup_name hP hb.1
    rw [cluster.eq_def, if_neg (by simp [ha])]
    dsimp only
    rw [if_neg (by
      have h1 := alpha_ne hd (d := '-') (by decide)
      have h2 := alpha_ne hca (d := '-') (by decide)
      simp [hc, h1, h2]), hlook]
    dsimp only
    cases hl with
    | nil => exact ⟨_, _, rfl, hb.2.1, rfl⟩
    | @cons b' d' l' cs' hb' hl' =>
      dsimp only
      have hd' := alpha_ne (alpha hb'.1 hb'.2.2) (d := '=') (by decide)
      obtain ⟨m, x, h1, h2, h3⟩ := ih (by simp) hb.2.1 hb.2.2 hb.1
      rw [if_neg hd', h1]
      refine ⟨_, _, rfl, h2, ?_⟩
      simp only [List.cons_append, h3, List.map_cons]

theorem acts_arg {a : Act σ} (h : a.takes = true) (eq : Bool) (v p : Text) :
    ActsAs P [(a, v)] [(p, .opt ⟨some a, some (eq, v)⟩)] := by
  have := acts_found (P := P) (e := (eq, v)) (cluster_takes h eq v) (by simp) p
  simpa using this

/-- What is written for an item acts as the item. -/
theorem writes_tags (hP : SoundParser P) {i : Item σ} {w : List Text} (h : Writes U P i w) :
    ∃ ts, TagsOf P i ts ∧ ∀ more, tags U P (w ++ more) = (match tags U P more with | .error e => .error e | .ok r => .ok (ts ++ r)) := by
  cases h with
  | file t ht =>
    refine ⟨_, rfl, fun more => ?_⟩
    exact tags_one (by rintro rfl; simp at ht) (plain_word ht) more
  | flag a p ha h hp =>
    refine ⟨_, acts_none h p, fun more => ?_⟩
    exact tags_one (means_ne hP ha hp) (means_parse hP ha hp) more
  | apart a p v ha h hp hv =>
    refine ⟨_, acts_next h p v, fun more => ?_⟩
    have hv' : parseOptional U P v = .ok none ∧ v ≠ ['-', '-'] := by
      rcases hv with hv | hv
      · exact ⟨plain_word hv, by rintro rfl; simp at hv⟩
      · exact negInt_word hP hv
    rw [List.cons_append, tags_one (means_ne hP ha hp) (means_parse hP ha hp), List.cons_append, tags_one hv'.2 hv'.1]
    rw [List.nil_append]
    cases tags U P more <;> rfl
  | equals a p v ha h hp =>
    refine ⟨_, acts_arg h true v (p ++ '=' :: v), fun more => ?_⟩
    refine tags_one ?_ (means_equals hP ha hp v) more
    intro e
    have hm : '=' ∈ p ++ '=' :: v := by simp
    rw [e] at hm; simp at hm
  | attached a c v ha h hc hv hv' =>
    refine ⟨_, acts_arg h false v ('-' :: c :: v), fun more => ?_⟩
    exact tags_one (by simp [hv]) (short_parse hP ha hc hv hv') more
  | together l cs h2 h =>
    cases h with
    | nil => simp at h2
    | @cons a c l cs ha hl =>
      have hl0 : l ≠ [] := by rintro rfl; simp at h2
      obtain ⟨m, b, h1, h2', h3⟩ := cluster_flags hP l cs hl hl0 ha.2.1 ha.2.2 ha.1
      have hcs : cs ≠ [] := by rintro rfl; cases hl; exact hl0 rfl
      have hcs' : cs.head? ≠ some '=' := by
        cases hl with
        | nil => exact absurd rfl hl0
        | @cons b' d' l' cs' hb' hl' =>
          rcases hP.form b' hb'.1 with ⟨z, hz, hz'⟩ | ⟨r, hr, h0, -⟩
          · rw [hb'.2.2] at hz; simp only [List.cons.injEq, and_true, true_and] at hz
            simpa [hz] using alpha_ne hz' (d := '=') (by decide)
          · rw [hb'.2.2] at hr; simp at hr; exact absurd hr.2.symm (by simpa [eq_comm] using h0)
      refine ⟨[('-' :: c :: cs, .opt ⟨some a, some (false, cs)⟩)], ?_, fun more => ?_⟩
      · have := acts_found (x := some b) (e := (false, cs)) h1 (by rintro _ ⟨⟩; exact h2') ('-' :: c :: cs)
        simp only [Option.map_some, Option.toList_some, h3] at this
        exact this
      · exact tags_one (by simp [hcs]) (short_parse hP ha.1 ha.2.2 hcs hcs') more

/-! ### The loop -/

theorem argument_length {x : Option (Act σ)} {ts : List (Text × Tag σ)} {r} (h : argument x ts = .ok r) : r.2.length ≤ ts.length := by
  unfold argument at h
  split at h
  · simp only [Except.ok.injEq] at h; rw [← h]
  · split at h
    · split at h
      · simp only [Except.ok.injEq] at h; rw [← h]; simp
      · exact absurd h (by simp)
    · simp only [Except.ok.injEq] at h; rw [← h]

theorem consumeOpt_length {t : Text} {o : Opt σ} {ts : List (Text × Tag σ)} {s : St σ} {r} (h : consumeOpt P t o ts s = .ok r) :
    r.1.length ≤ ts.length := by
  unfold consumeOpt at h
  split at h
  · simp only [Except.ok.injEq] at h; rw [← h]
  · simp only [bind, Except.bind] at h
    split at h
    · exact absurd h (by simp)
    · split at h
      · exact absurd h (by simp)
      · rename_i hr
        split at h
        · exact absurd h (by simp)
        · simp only [pure, Except.pure, Except.ok.injEq] at h
          rw [← h]; exact argument_length hr

theorem loop_fuel (n m : ℕ) (ts : List (Text × Tag σ)) (s : St σ) (hn : ts.length ≤ n) (hm : ts.length ≤ m) :
    loop P n ts s = loop P m ts s := by
  induction n generalizing m ts s with
  | zero =>
    have : ts = [] := List.length_eq_zero_iff.1 (by omega)
    subst this
    cases m <;> simp [loop]
  | succ n ih =>
    cases ts with
    | nil => cases m <;> simp [loop]
    | cons t ts =>
      cases m with
      | zero => simp at hm
      | succ m =>
        simp only [List.length_cons, Nat.add_le_add_iff_right] at hn hm
        obtain ⟨t, g⟩ := t
        have key : noOpt (t, g) = true → loop P (n + 1) ((t, g) :: ts) s = loop P (m + 1) ((t, g) :: ts) s := by
          intro hg
          have e : ∀ k : ℕ, loop P (k + 1) ((t, g) :: ts) s =
              (let r := consumePos P ((t, g) :: ts) s
               if r.1 = 0 then
                 loop P k (((t, g) :: ts).dropWhile noOpt)
                   { r.2 with extras := r.2.extras ++ (((t, g) :: ts).takeWhile noOpt).map Prod.fst }
               else loop P k (((t, g) :: ts).drop r.1) r.2) := by
            intro k
            cases g with
            | opt o => simp [noOpt] at hg
            | word => rw [loop]; rintro o o' ⟨⟩
            | dashes => rw [loop]; rintro o o' ⟨⟩
          rw [e, e]
          simp only
          split_ifs with h
          · have hl : (((t, g) :: ts).dropWhile noOpt).length ≤ ts.length := by
              rw [List.dropWhile_cons_of_pos hg]
              exact (List.dropWhile_suffix _).length_le
            exact ih _ _ _ (by omega) (by omega)
          · have hl : (((t, g) :: ts).drop (consumePos P ((t, g) :: ts) s).1).length ≤ ts.length := by
              rw [List.length_drop, List.length_cons]; omega
            exact ih _ _ _ (by omega) (by omega)
        cases g with
        | opt o =>
          simp only [loop, bind, Except.bind]
          cases hc : consumeOpt P t o ts s with
          | error e => rfl
          | ok r =>
            have := consumeOpt_length hc
            exact ih _ _ _ (by omega) (by omega)
        | word => exact key rfl
        | dashes => exact key rfl

/-- The loop with as many rounds as it needs. -/
def go (P : Parser σ) (ts : List (Text × Tag σ)) (s : St σ) : Except Exit (St σ) := loop P ts.length ts s

theorem go_nil (s : St σ) : go P [] s = .ok s := rfl

theorem go_acts {l : List (Act σ × Text)} {ts : List (Text × Tag σ)} (h : ActsAs P l ts) (rest : List (Text × Tag σ)) (s : St σ) :
    go P (ts ++ rest) s = (match perform l s.ns with | .error e => .error e | .ok ns => go P rest { s with ns := ns }) := by
  obtain ⟨t, o, ws, rfl, hc⟩ := h
  unfold go
  rw [List.cons_append, List.length_cons, loop, hc]
  simp only [bind, Except.bind]
  cases hl : perform l s.ns with
  | error e => rfl
  | ok ns =>
    exact loop_fuel _ _ _ _ (by simp) le_rfl

theorem go_word (t : Text) (g : Tag σ) (hg : noOpt (t, g) = true) (ts : List (Text × Tag σ)) (s : St σ) :
    go P ((t, g) :: ts) s =
      (if (consumePos P ((t, g) :: ts) s).1 = 0 then
        go P (ts.dropWhile noOpt) { (consumePos P ((t, g) :: ts) s).2 with
          extras := (consumePos P ((t, g) :: ts) s).2.extras ++ t :: (ts.takeWhile noOpt).map Prod.fst }
       else go P (((t, g) :: ts).drop (consumePos P ((t, g) :: ts) s).1) (consumePos P ((t, g) :: ts) s).2) := by
  have e : go P ((t, g) :: ts) s =
      (let r := consumePos P ((t, g) :: ts) s
       if r.1 = 0 then
         loop P ts.length (((t, g) :: ts).dropWhile noOpt)
           { r.2 with extras := r.2.extras ++ (((t, g) :: ts).takeWhile noOpt).map Prod.fst }
       else loop P ts.length (((t, g) :: ts).drop r.1) r.2) := by
    unfold go
    rw [List.length_cons]
    cases g with
    | opt o => simp [noOpt] at hg
    | word => rw [loop]; rintro o o' ⟨⟩
    | dashes => rw [loop]; rintro o o' ⟨⟩
  rw [e]
  simp only
  rw [List.dropWhile_cons_of_pos hg, List.takeWhile_cons_of_pos hg]
  split_ifs with h
  · exact loop_fuel _ _ _ _ (List.dropWhile_suffix _).length_le le_rfl
  · exact loop_fuel _ _ _ _ (by rw [List.length_drop, List.length_cons]; omega) le_rfl

theorem consumePos_done {ts : List (Text × Tag σ)} {s : St σ} (h : s.pending = false) : consumePos P ts s = (0, s) := by
  unfold consumePos; rw [if_neg (by simp [h])]

/-- After the files every further word is left over. -/
theorem go_extra (t : Text) (ts : List (Text × Tag σ)) (s : St σ) (h : s.pending = false) :
    go P ((t, .word) :: ts) s = go P ts { s with extras := s.extras ++ [t] } := by
  rw [go_word t .word rfl, consumePos_done h]
  simp only [if_true]
  cases ts with
  | nil => simp
  | cons u ts =>
    obtain ⟨u, g⟩ := u
    by_cases hg : noOpt (u, g) = true
    · rw [List.dropWhile_cons_of_pos hg, List.takeWhile_cons_of_pos hg, go_word u g hg,
        consumePos_done (s := { s with extras := s.extras ++ [t] }) h]
      simp only [if_true, List.map_cons, List.append_assoc, List.cons_append, List.nil_append]
    · rw [List.dropWhile_cons_of_neg hg, List.takeWhile_cons_of_neg hg]; rfl

/-- The arguments of a list of items. -/
inductive TagsAll (P : Parser σ) : List (Item σ) → List (Text × Tag σ) → Prop
  | nil : TagsAll P [] []
  | cons {i : Item σ} {ts : List (Text × Tag σ)} {is : List (Item σ)} {us : List (Text × Tag σ)} (h : TagsOf P i ts)
      (t : TagsAll P is us) : TagsAll P (i :: is) (ts ++ us)

theorem line_tags (hP : SoundParser P) {is : List (Item σ)} {argv : List Text} (h : Line U P is argv) :
    ∃ ts, TagsAll P is ts ∧ tags U P argv = .ok ts := by
  induction h with
  | nil => exact ⟨[], .nil, rfl⟩
  | @cons i w is ws h t ih =>
    obtain ⟨us, h1, h2⟩ := ih
    obtain ⟨ts, h3, h4⟩ := writes_tags hP h
    exact ⟨ts ++ us, .cons h3 h1, by rw [h4, h2]⟩

theorem tagsAll_dashes {is : List (Item σ)} {ts : List (Text × Tag σ)} (h : TagsAll P is ts) : dashes ts = 0 := by
  cases h with
  | nil => rfl
  | @cons i ts is us h t =>
    cases i with
    | file f => cases h; simp [dashes, List.takeWhile_cons]
    | opts l => obtain ⟨t, o, ws, rfl, -⟩ := h; simp [dashes, List.takeWhile_cons]

/-- After the files. -/
theorem go_after {is : List (Item σ)} {ts : List (Text × Tag σ)} (h : TagsAll P is ts) (s : St σ) (hs : s.pending = false) :
    go P ts s = (match perform (given is) s.ns with
      | .error e => .error e
      | .ok ns => .ok { s with ns := ns, extras := s.extras ++ filesOf is }) := by
  induction h generalizing s with
  | nil => simp [go_nil, given, perform, filesOf]
  | @cons i ts is us h t ih =>
    cases i with
    | file f =>
      cases h
      rw [List.cons_append, List.nil_append, go_extra _ _ _ hs, ih { s with extras := s.extras ++ [f] } hs]
      simp only [given, filesOf, List.append_assoc, List.cons_append, List.nil_append]
    | opts l =>
      rw [go_acts h]
      simp only [given, filesOf, perform_append]
      cases perform l s.ns with
      | error e => rfl
      | ok ns => exact ih { s with ns := ns } hs

/-- What the parser makes of the state in the end. -/
def finish (r : Except Exit (St σ)) : Except Exit σ :=
  match r with
  | .error e => .error e
  | .ok s => if s.pending || !s.extras.isEmpty then .error .usage else .ok s.ns

theorem finish_after {is : List (Item σ)} {ts : List (Text × Tag σ)} (h : TagsAll P is ts) (ns : σ) :
    finish (go P ts ⟨false, ns, []⟩) = afterFiles is ns := by
  rw [go_after h _ rfl]
  unfold afterFiles
  cases perform (given is) ns with
  | error e => rfl
  | ok ns' =>
    simp only [finish, List.nil_append, Bool.false_or]
    cases filesOf is <;> rfl

theorem erase_word {t : Text} (ht : t ≠ ['-', '-']) : value [((t, .word) : Text × Tag σ)] = some t := by
  simp [value, List.erase_cons, ht]

theorem dashes_word (t : Text) (ts : List (Text × Tag σ)) : dashes ((t, .word) :: ts) = 0 := by
  simp [dashes, List.takeWhile_cons]

theorem dashes_opt (t : Text) (o : Opt σ) (ts : List (Text × Tag σ)) : dashes ((t, .opt o) :: ts) = 0 := by
  simp [dashes, List.takeWhile_cons]

theorem matchOne_word (t : Text) (ts : List (Text × Tag σ)) (h : dashes ts = 0) : matchOne ((t, .word) :: ts) = some 1 := by
  unfold matchOne
  rw [dashes_word]
  simp [h]

theorem go_two {f g : Text} (hf : f ≠ ['-', '-']) (hg : g ≠ ['-', '-']) {ts : List (Text × Tag σ)} (h : dashes ts = 0) (ns : σ) :
    go P ((f, .word) :: (g, .word) :: ts) ⟨true, ns, []⟩ = go P ts ⟨false, P.second (some g) (P.first f ns), []⟩ := by
  have hc : consumePos P ((f, .word) :: (g, .word) :: ts) ⟨true, ns, []⟩ = (2, ⟨false, P.second (some g) (P.first f ns), []⟩) := by
    unfold consumePos
    rw [if_pos rfl, matchOne_word f _ (dashes_word g ts)]
    have hm : matchOpt ((g, .word) :: ts) = 1 := by
      simp only [matchOpt, matchOne_word g ts h, Option.getD_some]
    simp only [List.drop_succ_cons, List.drop_zero, hm, List.take_succ_cons, List.take_zero, erase_word hf, erase_word hg,
      Option.getD_some]
  rw [go_word f .word rfl, hc]
  simp

theorem go_single {f : Text} (hf : f ≠ ['-', '-']) {ts : List (Text × Tag σ)} (h : dashes ts = 0)
    (hw : ∀ t r, ts ≠ (t, .word) :: r) (ns : σ) :
    go P ((f, .word) :: ts) ⟨true, ns, []⟩ = go P ts ⟨false, P.second none (P.first f ns), []⟩ := by
  have h1 : matchOne ts = none := by
    unfold matchOne
    rw [h, List.drop_zero]
    split
    · rename_i t r; exact absurd rfl (hw t r)
    · rfl
  have hc : consumePos P ((f, .word) :: ts) ⟨true, ns, []⟩ = (1, ⟨false, P.second none (P.first f ns), []⟩) := by
    unfold consumePos
    rw [if_pos rfl, matchOne_word f _ h]
    have hm : matchOpt ts = 0 := by
      simp only [matchOpt, h1, h, Option.getD_none]
    simp only [List.drop_succ_cons, List.drop_zero, hm, List.take_succ_cons, List.take_zero, erase_word hf, Option.getD_some]
    rfl
  rw [go_word f .word rfl, hc]
  simp

theorem finish_go {is : List (Item σ)} {ts : List (Text × Tag σ)} (h : TagsAll P is ts)
    (hf : ∀ f ∈ filesOf is, f ≠ ['-', '-']) (ns : σ) : finish (go P ts ⟨true, ns, []⟩) = meaning P is ns := by
  induction h generalizing ns with
  | nil => rfl
  | @cons i ts is us h t ih =>
    cases i with
    | opts l =>
      rw [go_acts h, meaning]
      cases perform l ns with
      | error e => rfl
      | ok ns' => exact ih hf ns'
    | file f =>
      cases h
      have hf0 := hf f (by simp [filesOf])
      rw [List.cons_append, List.nil_append]
      cases t with
      | nil =>
        rw [go_single hf0 rfl (by simp), meaning]
        · exact finish_after .nil _
        · intro g is h; cases h
      | @cons j ts' is' us' h' t' =>
        cases j with
        | file g =>
          cases h'
          have hg0 := hf g (by simp [filesOf])
          rw [List.cons_append, List.nil_append, go_two hf0 hg0 (tagsAll_dashes t'), meaning]
          exact finish_after t' _
        | opts l =>
          have hall : TagsAll P (.opts l :: is') (ts' ++ us') := .cons h' t'
          obtain ⟨t, o, ws, rfl, hc⟩ := h'
          rw [go_single (ts := (t, .opt o) :: ws ++ us') hf0 (by rw [List.cons_append]; exact dashes_opt _ _ _) (by simp), meaning]
          · exact finish_after hall _
          · intro g is h; cases h

theorem line_files {is : List (Item σ)} {argv : List Text} (h : Line U P is argv) : ∀ f ∈ filesOf is, f.head? ≠ some '-' := by
  induction h with
  | nil => simp [filesOf]
  | @cons i w is ws h t ih =>
    cases h <;> simp only [filesOf, List.mem_cons] <;> try exact ih
    rintro f (rfl | hf)
    · assumption
    · exact ih f hf

theorem parse_eq (init : σ) (argv : List Text) : parse U P init argv =
    (match tags U P argv with | .error e => .error e | .ok ts => finish (go P ts ⟨true, init, []⟩)) := by
  unfold parse finish go
  simp only [bind, Except.bind]
  cases tags U P argv with
  | error e => rfl
  | ok ts =>
    simp only
    cases loop P ts.length ts ⟨true, init, []⟩ <;> rfl

/-- The meaning of a command line. -/
theorem parse_line (hP : SoundParser P) {is : List (Item σ)} {argv : List Text} (h : Line U P is argv) (init : σ) :
    parse U P init argv = meaning P is init := by
  obtain ⟨ts, h1, h2⟩ := line_tags hP h
  rw [parse_eq, h2]
  refine finish_go h1 (fun f hf => ?_) init
  have := line_files h f hf
  rintro rfl; simp at this

/-! ### Any arguments -/

theorem noOpt_of {ts : List (Text × Tag σ)} : ∀ x ∈ ts.take (dashes ts), noOpt x = true := by
  induction ts with
  | nil => simp
  | cons y ts ih =>
    obtain ⟨t, g⟩ := y
    cases g with
    | opt o => simp [dashes_opt]
    | word => simp [dashes_word]
    | dashes =>
      have : dashes ((t, .dashes) :: ts) = dashes ts + 1 := by simp [dashes, List.takeWhile_cons]
      rw [this, List.take_succ_cons]
      intro x hx
      rcases List.mem_cons.1 hx with rfl | hx
      · rfl
      · exact ih x hx

theorem matchOne_noOpt {ts : List (Text × Tag σ)} {n : ℕ} (h : matchOne ts = some n) : ∀ x ∈ ts.take n, noOpt x = true := by
  unfold matchOne at h
  split at h
  · rename_i t r hr
    simp only [Option.some.injEq] at h
    subst h
    have e : ts.take (dashes ts + 1 + dashes r) = ts.take (dashes ts) ++ (t, .word) :: r.take (dashes r) := by
      have hl : (ts.take (dashes ts)).length = dashes ts := by
        rw [List.length_take]
        exact min_eq_left ((List.takeWhile_prefix _).length_le)
      have hsp : ts = ts.take (dashes ts) ++ (t, .word) :: r := by rw [← hr, List.take_append_drop]
      generalize ts.take (dashes ts) = us at hl hsp
      generalize dashes ts = k at hl
      rw [hsp, List.take_append, hl, List.take_of_length_le (by omega),
        show k + 1 + dashes r - k = dashes r + 1 by omega, List.take_succ_cons]
    intro x hx
    rw [e] at hx
    rcases List.mem_append.1 hx with hx | hx
    · exact noOpt_of x hx
    · rcases List.mem_cons.1 hx with rfl | hx
      · rfl
      · exact noOpt_of x hx
  · exact absurd h (by simp)

theorem matchOpt_noOpt (ts : List (Text × Tag σ)) : ∀ x ∈ ts.take (matchOpt ts), noOpt x = true := by
  unfold matchOpt
  cases h : matchOne ts with
  | none => exact noOpt_of
  | some n => exact matchOne_noOpt h

theorem consumePos_noOpt (ts : List (Text × Tag σ)) (s : St σ) :
    (∀ x ∈ ts, noOpt x = false → x ∈ ts.drop (consumePos P ts s).1) ∧ (consumePos P ts s).2.extras = s.extras := by
  have keep : ∀ (n : ℕ) (us : List (Text × Tag σ)), (∀ x ∈ us.take n, noOpt x = true) → ∀ x ∈ us, noOpt x = false → x ∈ us.drop n := by
    intro n us h x hx hn
    rw [← List.take_append_drop n us] at hx
    rcases List.mem_append.1 hx with hx | hx
    · rw [h x hx] at hn; exact absurd hn (by simp)
    · exact hx
  unfold consumePos
  split_ifs with hp
  · split
    · exact ⟨fun x hx _ => by simpa using hx, rfl⟩
    · rename_i n hn
      refine ⟨fun x hx hno => ?_, rfl⟩
      have h1 := keep n ts (matchOne_noOpt hn) x hx hno
      have h2 := keep _ _ (matchOpt_noOpt (ts.drop n)) x h1 hno
      simpa [List.drop_drop] using h2
  · exact ⟨fun x hx _ => by simpa using hx, rfl⟩

theorem argument_keeps {x : Option (Act σ)} {ts : List (Text × Tag σ)} {r} (h : argument x ts = .ok r) :
    ∀ y ∈ ts, noOpt y = false → y ∈ r.2 := by
  unfold argument at h
  split at h
  · simp only [Except.ok.injEq] at h; rw [← h]; exact fun y hy _ => hy
  · split at h
    · split at h
      · simp only [Except.ok.injEq] at h; rw [← h]
        intro y hy hn
        rcases List.mem_cons.1 hy with rfl | hy
        · exact absurd hn (by simp [noOpt])
        · exact hy
      · exact absurd h (by simp)
    · simp only [Except.ok.injEq] at h; rw [← h]; exact fun y hy _ => hy

/-- An option that always leaves something over. -/
def Leaves (P : Parser σ) (o : Opt σ) : Prop :=
  o.act = none ∨ ∃ a e, o.act = some a ∧ o.arg = some e ∧ ∀ f, cluster P a e.1 e.2 = .ok f → f.extra ≠ none

theorem consumeOpt_keeps {t : Text} {o : Opt σ} {ts : List (Text × Tag σ)} {s : St σ} {r} (h : consumeOpt P t o ts s = .ok r) :
    (∀ y ∈ ts, noOpt y = false → y ∈ r.1) ∧ (s.extras ≠ [] → r.2.extras ≠ []) ∧ (Leaves P o → r.2.extras ≠ []) := by
  unfold consumeOpt at h
  split at h
  · simp only [Except.ok.injEq] at h; rw [← h]; simp +contextual
  · rename_i a ha
    simp only [bind, Except.bind] at h
    split at h
    · exact absurd h (by simp)
    · rename_i f hf
      split at h
      · exact absurd h (by simp)
      · rename_i hr
        split at h
        · exact absurd h (by simp)
        · simp only [pure, Except.pure, Except.ok.injEq] at h
          rw [← h]
          refine ⟨argument_keeps hr, ?_, ?_⟩
          · intro h1 h2; simp at h2; exact h1 h2.1
          · rintro (h1 | ⟨b, e, h1, h2, h3⟩)
            · rw [ha] at h1; simp at h1
            · rw [ha, Option.some.injEq] at h1
              subst h1
              rw [h2] at hf
              have := h3 f hf
              intro h4
              simp only [List.append_eq_nil_iff, Option.toList_eq_nil_iff] at h4
              exact this h4.2

/-- An option that the parser does not know is left over, wherever it stands. -/
theorem go_unknown (n : ℕ) (ts : List (Text × Tag σ)) (s : St σ) (hn : ts.length ≤ n) {s' : St σ} (h : loop P n ts s = .ok s')
    (hx : s.extras ≠ [] ∨ ∃ t o, (t, Tag.opt o) ∈ ts ∧ Leaves P o) : s'.extras ≠ [] := by
  induction n generalizing ts s with
  | zero =>
    have : ts = [] := List.length_eq_zero_iff.1 (by omega)
    subst this
    simp only [loop, Except.ok.injEq] at h
    rw [← h]
    simpa using hx
  | succ n ih =>
    cases ts with
    | nil => simp only [loop, Except.ok.injEq] at h; rw [← h]; simpa using hx
    | cons t ts =>
      obtain ⟨t, g⟩ := t
      simp only [List.length_cons, Nat.add_le_add_iff_right] at hn
      have key : noOpt (t, g) = true → s'.extras ≠ [] := by
        intro hg
        have e : loop P (n + 1) ((t, g) :: ts) s =
            (let r := consumePos P ((t, g) :: ts) s
             if r.1 = 0 then
               loop P n (((t, g) :: ts).dropWhile noOpt)
                 { r.2 with extras := r.2.extras ++ (((t, g) :: ts).takeWhile noOpt).map Prod.fst }
             else loop P n (((t, g) :: ts).drop r.1) r.2) := by
          cases g with
          | opt o => simp [noOpt] at hg
          | word => rw [loop]; rintro o o' ⟨⟩
          | dashes => rw [loop]; rintro o o' ⟨⟩
        rw [e] at h
        obtain ⟨hk, hex⟩ := consumePos_noOpt (P := P) ((t, g) :: ts) s
        simp only at h
        split_ifs at h with h0
        · refine ih _ _ ?_ h (.inl ?_)
          · rw [List.dropWhile_cons_of_pos hg]
            exact (List.dropWhile_suffix _).length_le.trans hn
          · rw [List.takeWhile_cons_of_pos hg]; simp
        · refine ih _ _ ?_ h ?_
          · rw [List.length_drop, List.length_cons]; omega
          · rcases hx with hx | ⟨u, o, hu, ho⟩
            · exact .inl (by rw [hex]; exact hx)
            · exact .inr ⟨u, o, hk _ hu rfl, ho⟩
      cases g with
      | opt o =>
        simp only [loop, bind, Except.bind] at h
        cases hc : consumeOpt P t o ts s with
        | error e => rw [hc] at h; exact absurd h (by simp)
        | ok r =>
          rw [hc] at h
          have hl := consumeOpt_length hc
          obtain ⟨h1, h2, h3⟩ := consumeOpt_keeps hc
          refine ih _ _ (by omega) h ?_
          rcases hx with hx | ⟨u, o', hu, ho⟩
          · exact .inl (h2 hx)
          · rcases List.mem_cons.1 hu with e | hu
            · simp only [Prod.mk.injEq, Tag.opt.injEq] at e
              exact .inl (h3 (by rw [← e.2]; exact ho))
            · exact .inr ⟨u, o', h1 _ hu rfl, ho⟩
      | word => exact key rfl
      | dashes => exact key rfl

theorem tags_mem {argv : List Text} {ts : List (Text × Tag σ)} (h : tags U P argv = .ok ts) {before after : List Text} {t : Text}
    (hargv : argv = before ++ t :: after) (hb : ['-', '-'] ∉ before) (ht : t ≠ ['-', '-']) :
    ∃ o, parseOptional U P t = .ok o ∧ (t, o.elim .word .opt) ∈ ts := by
  induction before generalizing argv ts with
  | nil =>
    subst hargv
    rw [List.nil_append, tags, if_neg ht] at h
    simp only [bind, Except.bind] at h
    cases hp : parseOptional U P t with
    | error e => rw [hp] at h; exact absurd h (by simp)
    | ok o =>
      rw [hp] at h
      simp only at h
      cases hr : tags U P after with
      | error e => rw [hr] at h; exact absurd h (by simp)
      | ok r =>
        rw [hr] at h
        simp only [pure, Except.pure, Except.ok.injEq] at h
        exact ⟨o, rfl, by rw [← h]; simp⟩
  | cons b before ih =>
    simp only [List.mem_cons, not_or] at hb
    subst hargv
    rw [List.cons_append, tags, if_neg (fun e => hb.1 e.symm)] at h
    simp only [bind, Except.bind] at h
    cases hp : parseOptional U P b with
    | error e => rw [hp] at h; exact absurd h (by simp)
    | ok o =>
      rw [hp] at h
      simp only at h
      cases hr : tags U P (before ++ t :: after) with
      | error e => rw [hr] at h; exact absurd h (by simp)
      | ok r =>
        rw [hr] at h
        simp only [pure, Except.pure, Except.ok.injEq] at h
        obtain ⟨o', h1, h2⟩ := ih hr rfl hb.2
        exact ⟨o', h1, by rw [← h]; exact List.mem_cons_of_mem _ h2⟩

theorem parse_ok {init ns : σ} {argv : List Text} (h : parse U P init argv = .ok ns) :
    ∃ ts s, tags U P argv = .ok ts ∧ loop P ts.length ts ⟨true, init, []⟩ = .ok s ∧ s.pending = false ∧ s.extras = [] ∧ s.ns = ns := by
  rw [parse_eq] at h
  cases ht : tags U P argv with
  | error e => rw [ht] at h; exact absurd h (by simp)
  | ok ts =>
    rw [ht] at h
    simp only [finish, go] at h
    cases hl : loop P ts.length ts ⟨true, init, []⟩ with
    | error e => rw [hl] at h; exact absurd h (by simp)
    | ok s =>
      rw [hl] at h
      simp only at h
      split_ifs at h with hc
      simp only [Bool.or_eq_true, Bool.not_eq_true', not_or, Bool.not_eq_true] at hc
      simp only [Except.ok.injEq] at h
      exact ⟨ts, s, rfl, hl, hc.1, by simpa using hc.2, h⟩

/-! ### What is a file -/

/-- Words that may be files. -/
structure Clean (W : Text → Prop) (P : Parser σ) (ts : List (Text × Tag σ)) : Prop where
  word : ∀ t, (t, Tag.word) ∈ ts → W t
  none : ∀ t, (t, Tag.dashes) ∉ ts
  acts : ∀ t o, (t, Tag.opt o) ∈ ts → ∀ a, o.act = some a → a ∈ P.acts

theorem Clean.sub {W : Text → Prop} {ts us : List (Text × Tag σ)} (h : Clean W P ts) (hs : ∀ x ∈ us, x ∈ ts) : Clean W P us :=
  ⟨fun t ht => h.word t (hs _ ht), fun t ht => h.none t (hs _ ht), fun t o ht => h.acts t o (hs _ ht)⟩

theorem Clean.dashes {W : Text → Prop} {ts : List (Text × Tag σ)} (h : Clean W P ts) : dashes ts = 0 := by
  cases ts with
  | nil => rfl
  | cons x ts =>
    obtain ⟨t, g⟩ := x
    cases g with
    | opt o => exact dashes_opt t o ts
    | word => exact dashes_word t ts
    | dashes => exact absurd (by simp) (h.none t)

theorem Clean.matchOne {W : Text → Prop} {ts : List (Text × Tag σ)} (h : Clean W P ts) {n : ℕ} (hn : Argv.matchOne ts = some n) :
    n = 1 ∧ ∃ t r, ts = (t, .word) :: r := by
  unfold Argv.matchOne at hn
  rw [h.dashes, List.drop_zero] at hn
  split at hn
  · rename_i t r
    have : Argv.dashes r = 0 := (h.sub fun x hx => List.mem_cons_of_mem _ hx).dashes
    simp only [this, Option.some.injEq] at hn
    exact ⟨hn.symm, _, _, rfl⟩
  · exact absurd hn (by simp)

theorem cluster_acts {a : Act σ} {eq : Bool} {e : Text} {f : Found σ} (ha : a ∈ P.acts) (h : cluster P a eq e = .ok f) :
    (∀ x ∈ f.done, x.1 ∈ P.acts) ∧ ∀ b, f.next = some b → b ∈ P.acts := by
  induction hk : e.length using Nat.strong_induction_on generalizing a eq e f with
  | _ k ih =>
    rw [cluster.eq_def] at h
    split_ifs at h with ht
    · simp only [Except.ok.injEq] at h; subst h; simpa using ha
    · cases e with
      | nil => simp at h
      | cons c r =>
        dsimp only at h
        split_ifs at h with hc
        cases hl : lookup P ['-', c] with
        | none => rw [hl] at h; simp only [Except.ok.injEq] at h; subst h; simpa using ha
        | some b =>
          have hb := (lookup_some hl).1
          rw [hl] at h
          dsimp only at h
          cases r with
          | nil =>
            simp only [Except.ok.injEq] at h; subst h
            exact ⟨by simpa using ha, by rintro _ ⟨⟩; exact hb⟩
          | cons d r =>
            dsimp only at h
            have key : ∀ (eq' : Bool) (e' : Text), e'.length < k →
                (cluster P b eq' e' >>= fun f => pure { f with done := (a, []) :: f.done }) = .ok f →
                (∀ x ∈ f.done, x.1 ∈ P.acts) ∧ ∀ b, f.next = some b → b ∈ P.acts := by
              intro eq' e' he' h
              cases hcl : cluster P b eq' e' with
              | error e => rw [hcl] at h; exact absurd h (by simp [bind, Except.bind])
              | ok f' =>
                rw [hcl] at h
                simp only [bind, Except.bind, pure, Except.pure, Except.ok.injEq] at h
                have := ih _ he' hb hcl rfl
                rw [← h]
                refine ⟨fun x hx => ?_, this.2⟩
                rcases List.mem_cons.1 hx with rfl | hx
                · exact ha
                · exact this.1 x hx
            split_ifs at h with hd
            · exact key true r (by simp at hk; omega) h
            · exact key false (d :: r) (by simp at hk ⊢; omega) h

theorem argument_sub {x : Option (Act σ)} {ts : List (Text × Tag σ)} {r} (h : argument x ts = .ok r) :
    (∀ y ∈ r.2, y ∈ ts) ∧ ∀ y ∈ r.1, x = some y.1 := by
  unfold argument at h
  split at h
  · simp only [Except.ok.injEq] at h; rw [← h]; simp
  · split at h
    · split at h
      · simp only [Except.ok.injEq] at h; rw [← h]; simp +contextual
      · exact absurd h (by simp)
    · simp only [Except.ok.injEq] at h; rw [← h]; simp

theorem perform_inv {Q : σ → Prop} (hQ : ∀ a ∈ P.acts, ∀ v ns ns', a.run v ns = .ok ns' → Q ns → Q ns')
    {l : List (Act σ × Text)} (hl : ∀ x ∈ l, x.1 ∈ P.acts) {ns ns' : σ} (h : perform l ns = .ok ns') (hq : Q ns) : Q ns' := by
  induction l generalizing ns with
  | nil => simp only [perform, Except.ok.injEq] at h; rwa [← h]
  | cons x l ih =>
    simp only [perform] at h
    cases hr : x.1.run x.2 ns with
    | error e => rw [hr] at h; exact absurd h (by simp)
    | ok ns1 =>
      rw [hr] at h
      exact ih (fun y hy => hl y (List.mem_cons_of_mem _ hy)) h (hQ _ (hl x (by simp)) _ _ _ hr hq)

theorem consumeOpt_sub {W : Text → Prop} {Q : σ → Prop} (hQ : ∀ a ∈ P.acts, ∀ v ns ns', a.run v ns = .ok ns' → Q ns → Q ns')
    {t : Text} {o : Opt σ} {ts : List (Text × Tag σ)} {s : St σ} {r} (hc : Clean W P ((t, .opt o) :: ts))
    (h : consumeOpt P t o ts s = .ok r) :
    (∀ y ∈ r.1, y ∈ ts) ∧ r.2.pending = s.pending ∧ (Q s.ns → Q r.2.ns) := by
  unfold consumeOpt at h
  split at h
  · simp only [Except.ok.injEq] at h; rw [← h]; simp
  · rename_i a ha
    have ham : a ∈ P.acts := hc.acts t o (by simp) a ha
    simp only [bind, Except.bind] at h
    split at h
    · exact absurd h (by simp)
    · rename_i f hf
      split at h
      · exact absurd h (by simp)
      · rename_i p hr
        split at h
        · exact absurd h (by simp)
        · rename_i ns hns
          simp only [pure, Except.pure, Except.ok.injEq] at h
          rw [← h]
          obtain ⟨h1, h2⟩ := argument_sub hr
          have hf' : (∀ x ∈ f.done, x.1 ∈ P.acts) ∧ ∀ b, f.next = some b → b ∈ P.acts := by
            split at hf
            · simp only [Except.ok.injEq] at hf; subst hf
              exact ⟨by simp, by rintro _ ⟨⟩; exact ham⟩
            · exact cluster_acts ham hf
          refine ⟨h1, rfl, fun hq => ?_⟩
          rw [runs_eq] at hns
          refine perform_inv hQ (fun x hx => ?_) hns hq
          rcases List.mem_append.1 hx with hx | hx
          · exact hf'.1 x hx
          · exact hf'.2 _ (h2 x hx)

theorem loop_files {W : Text → Prop} {Q : σ → Prop} (hQ : ∀ a ∈ P.acts, ∀ v ns ns', a.run v ns = .ok ns' → Q ns → Q ns')
    (hW : ∀ t, W t → t ≠ ['-', '-'])
    (hF : ∀ f g ns, W f → (∀ t ∈ g, W t) → Q (P.second g (P.first f ns))) (n : ℕ) (ts : List (Text × Tag σ)) (s : St σ)
    (hc : Clean W P ts) {s' : St σ} (h : loop P n ts s = .ok s') (hs : s.pending = false → Q s.ns) : s'.pending = false → Q s'.ns := by
  induction n generalizing ts s with
  | zero => simp only [loop, Except.ok.injEq] at h; rwa [← h]
  | succ n ih =>
    cases ts with
    | nil => simp only [loop, Except.ok.injEq] at h; rwa [← h]
    | cons t ts =>
      obtain ⟨t, g⟩ := t
      cases g with
      | dashes => exact absurd (by simp) (hc.none t)
      | opt o =>
        simp only [loop, bind, Except.bind] at h
        cases hco : consumeOpt P t o ts s with
        | error e => rw [hco] at h; exact absurd h (by simp)
        | ok r =>
          rw [hco] at h
          obtain ⟨h1, h2, h3⟩ := consumeOpt_sub hQ hc hco
          exact ih _ _ (hc.sub fun x hx => List.mem_cons_of_mem _ (h1 x hx)) h fun hp => h3 (hs (h2 ▸ hp))
      | word =>
        have e : loop P (n + 1) ((t, .word) :: ts) s =
            (let r := consumePos P ((t, .word) :: ts) s
             if r.1 = 0 then
               loop P n (((t, .word) :: ts).dropWhile noOpt)
                 { r.2 with extras := r.2.extras ++ (((t, .word) :: ts).takeWhile noOpt).map Prod.fst }
             else loop P n (((t, .word) :: ts).drop r.1) r.2) := by
          rw [loop]; rintro o o' ⟨⟩
        rw [e] at h
        have hpos : (consumePos P ((t, .word) :: ts) s).2.pending = false → Q (consumePos P ((t, .word) :: ts) s).2.ns := by
          have hcr : Clean W P ts := hc.sub fun x hx => List.mem_cons_of_mem _ hx
          have h1 : matchOne ((t, .word) :: ts) = some 1 := matchOne_word t ts hcr.dashes
          unfold consumePos
          split_ifs with hp
          · intro _
            rw [h1]
            simp only [List.drop_succ_cons, List.drop_zero, List.take_succ_cons, List.take_zero]
            have ht := hc.word t (by simp)
            rw [erase_word (hW t ht), Option.getD_some]
            refine hF _ _ _ ht fun u hu => ?_
            have h2 : value (ts.take (matchOpt ts)) = some u := hu
            unfold matchOpt at h2
            cases hm : matchOne ts with
            | none =>
              rw [hm, Option.getD_none, hcr.dashes] at h2
              exact absurd h2 (by simp [value])
            | some k =>
              obtain ⟨rfl, v, r, rfl⟩ := hcr.matchOne hm
              rw [hm, Option.getD_some, List.take_succ_cons, List.take_zero, erase_word (hW v (hcr.word v (by simp)))] at h2
              simp only [Option.some.injEq] at h2
              exact h2 ▸ hcr.word v (by simp)
          · exact hs
        simp only at h
        split_ifs at h with h0
        · exact ih _ _ (hc.sub fun x hx => (List.dropWhile_suffix _).subset hx) h hpos
        · exact ih _ _ (hc.sub fun x hx => List.mem_of_mem_drop hx) h hpos

theorem tuples_acts {t : Text} {o : Opt σ} (h : o ∈ tuples P t) : ∀ a, o.act = some a → a ∈ P.acts := by
  intro a ha
  unfold tuples at h
  split at h
  · simp only [List.mem_filterMap] at h
    obtain ⟨b, hb, h⟩ := h
    split_ifs at h
    simp only [Option.some.injEq] at h
    rw [← h] at ha; simp only [Option.some.injEq] at ha; rwa [← ha]
  · simp only [List.mem_filterMap] at h
    obtain ⟨b, hb, h⟩ := h
    split_ifs at h <;> simp only [Option.some.injEq] at h <;> rw [← h] at ha <;> simp only [Option.some.injEq] at ha <;> rwa [← ha]

theorem parseOptional_acts {t : Text} {o : Opt σ} (h : parseOptional U P t = .ok (some o)) : ∀ a, o.act = some a → a ∈ P.acts := by
  intro a ha
  unfold parseOptional at h
  by_cases hh : t.head? ≠ some '-'
  · rw [if_pos hh] at h; exact absurd h (by simp)
  rw [if_neg hh] at h
  split at h
  · rename_i b hb
    simp only [Except.ok.injEq, Option.some.injEq] at h
    rw [← h] at ha; simp only [Option.some.injEq] at ha
    rw [← ha]; exact (lookup_some hb).1
  by_cases hl : t.length = 1
  · rw [if_pos hl] at h; exact absurd h (by simp)
  rw [if_neg hl] at h
  split at h
  · rename_i o' ho'
    simp only [Except.ok.injEq, Option.some.injEq] at h
    subst h
    rw [Option.bind_eq_some_iff] at ho'
    obtain ⟨e, -, he⟩ := ho'
    rw [Option.map_eq_some_iff] at he
    obtain ⟨b, hb, he⟩ := he
    rw [← he] at ha; simp only [Option.some.injEq] at ha
    rw [← ha]; exact (lookup_some hb).1
  split at h
  · exact absurd h (by simp)
  · rename_i o' ho'
    simp only [Except.ok.injEq, Option.some.injEq] at h
    subst h
    exact tuples_acts (by rw [ho']; simp) a ha
  · simp only [Except.ok.injEq] at h
    by_cases hn : (negative U t || t.contains ' ') = true
    · rw [if_pos hn] at h; exact absurd h (by simp)
    · rw [if_neg hn] at h
      simp only [Option.some.injEq] at h
      rw [← h] at ha; exact absurd ha (by simp)

theorem tags_clean {argv : List Text} (hd : ['-', '-'] ∉ argv) {ts : List (Text × Tag σ)} (h : tags U P argv = .ok ts) :
    Clean (fun t => t ∈ argv ∧ parseOptional U P t = .ok none) P ts := by
  induction argv generalizing ts with
  | nil => simp only [tags, Except.ok.injEq] at h; subst h; exact ⟨by simp, by simp, by simp⟩
  | cons t argv ih =>
    simp only [List.mem_cons, not_or] at hd
    rw [tags, if_neg (fun e => hd.1 e.symm)] at h
    simp only [bind, Except.bind] at h
    cases hp : parseOptional U P t with
    | error e => rw [hp] at h; exact absurd h (by simp)
    | ok o =>
      rw [hp] at h
      simp only at h
      cases hr : tags U P argv with
      | error e => rw [hr] at h; exact absurd h (by simp)
      | ok r =>
        rw [hr] at h
        simp only [pure, Except.pure, Except.ok.injEq] at h
        have hc := ih hd.2 hr
        rw [← h]
        refine ⟨fun u hu => ?_, fun u hu => ?_, fun u o' hu => ?_⟩
        · rcases List.mem_cons.1 hu with e | hu
          · cases o with
            | none => simp only [Prod.mk.injEq] at e; rw [e.1]; exact ⟨by simp, hp⟩
            | some o => simp at e
          · exact ⟨List.mem_cons_of_mem _ (hc.word u hu).1, (hc.word u hu).2⟩
        · rcases List.mem_cons.1 hu with e | hu
          · cases o <;> simp at e
          · exact hc.none u hu
        · rcases List.mem_cons.1 hu with e | hu
          · cases o with
            | none => simp at e
            | some o =>
              simp only [Option.elim_some, Prod.mk.injEq, Tag.opt.injEq] at e
              rw [e.2]; exact parseOptional_acts hp
          · exact hc.acts u o' hu

theorem word_form {t : Text} (h : parseOptional U P t = .ok none) :
    t.head? ≠ some '-' ∨ t = ['-'] ∨ negative U t = true ∨ ' ' ∈ t := by
  unfold parseOptional at h
  by_cases hh : t.head? ≠ some '-'
  · exact .inl hh
  rw [if_neg hh] at h
  split at h
  · exact absurd h (by simp)
  by_cases hl : t.length = 1
  · right; left
    simp only [ne_eq, not_not] at hh
    cases t with
    | nil => simp at hh
    | cons c r =>
      simp only [List.length_cons, Nat.add_eq_right, List.length_eq_zero_iff] at hl
      simp only [List.head?_cons, Option.some.injEq] at hh
      rw [hh, hl]
  rw [if_neg hl] at h
  split at h
  · exact absurd h (by simp)
  split at h
  · exact absurd h (by simp)
  · exact absurd h (by simp)
  · by_cases hn : (negative U t || t.contains ' ') = true
    · right; right; simpa using hn
    · rw [if_neg hn] at h; exact absurd h (by simp)

end Argv
end Verif
