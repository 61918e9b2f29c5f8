import Verif.Model.Coefficients
import Mathlib.Tactic.Ring
import Mathlib.Tactic.Linarith
import Mathlib.Tactic.Positivity
import Mathlib.Data.List.Nodup
import Mathlib.Data.Rat.Floor
import Mathlib.Algebra.Order.Floor.Ring

/-! Helper lemmas about the container model. Nothing here is a claim of its own. -/

namespace Verif

/-! ### Dictionaries -/

section dict
variable {β : Type}

@[simp] theorem dictGet_nil (k : Key) : dictGet ([] : List (Key × β)) k = none := rfl

theorem dictGet_cons (kv : Key × β) (d : List (Key × β)) (k : Key) :
    dictGet (kv :: d) k = if kv.1 = k then some kv.2 else dictGet d k := rfl

theorem dictGet_eq_none_iff (d : List (Key × β)) (k : Key) :
    dictGet d k = none ↔ k ∉ d.map Prod.fst := by
  induction d with
  | nil => simp
  | cons kv d ih =>
    rw [dictGet_cons]
    by_cases h : kv.1 = k
    · simp [h]
    · have h' : k ≠ kv.1 := fun e => h e.symm
      simp [h, h', ih]

theorem dictGet_isSome_iff (d : List (Key × β)) (k : Key) :
    (dictGet d k).isSome ↔ k ∈ d.map Prod.fst := by
  rw [Option.isSome_iff_ne_none, ne_eq, dictGet_eq_none_iff, not_not]

theorem dictGet_dictSet (d : List (Key × β)) (k k' : Key) (v : β) :
    dictGet (dictSet d k v) k' = if k = k' then some v else dictGet d k' := by
  induction d with
  | nil => simp [dictSet, dictGet_cons]
  | cons kv d ih =>
    rw [dictSet]
    by_cases h : kv.1 = k
    · subst h
      simp only [if_true, dictGet_cons]
      by_cases h' : kv.1 = k' <;> simp [h']
    · rw [if_neg h, dictGet_cons, ih, dictGet_cons]
      by_cases h' : kv.1 = k'
      · have : k ≠ k' := fun e => h (h'.trans e.symm)
        simp [h', this]
      · simp [h']

theorem dictSet_of_not_mem (d : List (Key × β)) (k : Key) (v : β) (h : k ∉ d.map Prod.fst) :
    dictSet d k v = d ++ [(k, v)] := by
  induction d with
  | nil => rfl
  | cons kv d ih =>
    simp only [List.map_cons, List.mem_cons, not_or] at h
    rw [dictSet, if_neg (fun e => h.1 e.symm), ih h.2, List.cons_append]

theorem dictSet_keys_of_mem (d : List (Key × β)) (k : Key) (v : β) (h : k ∈ d.map Prod.fst) :
    (dictSet d k v).map Prod.fst = d.map Prod.fst := by
  induction d with
  | nil => simp at h
  | cons kv d ih =>
    rw [dictSet]
    by_cases h' : kv.1 = k
    · simp [h']
    · have : k ∈ d.map Prod.fst := by
        simp only [List.map_cons, List.mem_cons] at h
        exact h.resolve_left (fun e => h' e.symm)
      rw [if_neg h', List.map_cons, ih this, List.map_cons]

theorem dictSet_keys (d : List (Key × β)) (k : Key) (v : β) :
    (dictSet d k v).map Prod.fst
      = if k ∈ d.map Prod.fst then d.map Prod.fst else d.map Prod.fst ++ [k] := by
  by_cases h : k ∈ d.map Prod.fst
  · rw [if_pos h, dictSet_keys_of_mem d k v h]
  · rw [if_neg h, dictSet_of_not_mem d k v h, List.map_append]; rfl

theorem mem_dictSet (d : List (Key × β)) (k : Key) (v : β) (kv : Key × β) (h : kv ∈ dictSet d k v) :
    kv = (k, v) ∨ kv ∈ d := by
  induction d with
  | nil => left; simpa [dictSet] using h
  | cons kv' d ih =>
    rw [dictSet] at h
    by_cases h' : kv'.1 = k
    · rw [if_pos h'] at h
      rcases List.mem_cons.1 h with e | e
      · left; rw [e, ← h']
      · right; exact List.mem_cons_of_mem _ e
    · rw [if_neg h'] at h
      rcases List.mem_cons.1 h with e | e
      · right; rw [e]; exact List.mem_cons_self
      · rcases ih e with e | e
        · exact Or.inl e
        · exact Or.inr (List.mem_cons_of_mem _ e)

theorem dictGet_of_mem (d : List (Key × β)) (hn : (d.map Prod.fst).Nodup) (kv : Key × β) (h : kv ∈ d) :
    dictGet d kv.1 = some kv.2 := by
  induction d with
  | nil => simp at h
  | cons kv' d ih =>
    rw [dictGet_cons]
    simp only [List.map_cons, List.nodup_cons] at hn
    rcases List.mem_cons.1 h with e | e
    · simp [e]
    · have : kv'.1 ≠ kv.1 := fun he => hn.1 (he ▸ List.mem_map_of_mem e)
      rw [if_neg this, ih hn.2 e]

theorem mem_of_dictGet (d : List (Key × β)) (k : Key) (v : β) (h : dictGet d k = some v) :
    (k, v) ∈ d := by
  induction d with
  | nil => simp at h
  | cons kv d ih =>
    rw [dictGet_cons] at h
    by_cases h' : kv.1 = k
    · rw [if_pos h'] at h
      cases h; subst h'; exact List.mem_cons_self
    · rw [if_neg h'] at h
      exact List.mem_cons_of_mem _ (ih h)

theorem dictGet_append (d e : List (Key × β)) (k : Key) :
    dictGet (d ++ e) k = (dictGet d k).or (dictGet e k) := by
  induction d with
  | nil => simp
  | cons kv d ih =>
    rw [List.cons_append, dictGet_cons, dictGet_cons, ih]
    by_cases h : kv.1 = k <;> simp [h]

theorem dictGet_map_val {γ : Type} (d : List (Key × β)) (f : Key → β → γ) (k : Key) :
    dictGet (d.map fun kv => (kv.1, f kv.1 kv.2)) k = (dictGet d k).map (f k) := by
  induction d with
  | nil => simp
  | cons kv d ih =>
    rw [List.map_cons, dictGet_cons, dictGet_cons, ih]
    by_cases h : kv.1 = k
    · subst h; simp
    · simp [h]

theorem dictGet_map_keys (ks : List Key) (f : Key → β) (k : Key) :
    dictGet (ks.map fun k => (k, f k)) k = if k ∈ ks then some (f k) else none := by
  induction ks with
  | nil => simp
  | cons a ks ih =>
    rw [List.map_cons, dictGet_cons, ih]
    by_cases h : a = k
    · subst h; simp
    · have h' : k ≠ a := fun e => h e.symm
      simp [h, h']

end dict

/-! ### Sorting keys -/

theorem keyLe_iff (a b : Key) : keyLe a b = true ↔ a.1 < b.1 ∨ (a.1 = b.1 ∧ a.2 ≤ b.2) := by
  simp [keyLe]

theorem keyLe_trans (a b c : Key) (h1 : keyLe a b = true) (h2 : keyLe b c = true) : keyLe a c = true := by
  rw [keyLe_iff] at *
  omega

theorem keyLe_total (a b : Key) : (keyLe a b || keyLe b a) = true := by
  rw [Bool.or_eq_true, keyLe_iff, keyLe_iff]
  omega

theorem keyLe_antisymm (a b : Key) (h1 : keyLe a b = true) (h2 : keyLe b a = true) : a = b := by
  rw [keyLe_iff] at *
  ext <;> omega

theorem sortKeys_perm (ks : List Key) : (sortKeys ks).Perm ks := List.mergeSort_perm ks keyLe

theorem sortKeys_sorted (ks : List Key) : (sortKeys ks).Pairwise (fun a b => keyLe a b = true) :=
  List.pairwise_mergeSort keyLe_trans keyLe_total ks

@[simp] theorem mem_sortKeys (ks : List Key) (k : Key) : k ∈ sortKeys ks ↔ k ∈ ks :=
  (sortKeys_perm ks).mem_iff

theorem sortKeys_nodup (ks : List Key) : (sortKeys ks).Nodup ↔ ks.Nodup := (sortKeys_perm ks).nodup_iff

theorem eq_of_perm_of_keySorted {a b : List Key} (hp : a.Perm b)
    (ha : a.Pairwise (fun a b => keyLe a b = true)) (hb : b.Pairwise (fun a b => keyLe a b = true)) :
    a = b :=
  List.Perm.eq_of_pairwise (fun x y _ _ h1 h2 => keyLe_antisymm x y h1 h2) ha hb hp

theorem sortKeys_congr {a b : List Key} (hp : a.Perm b) : sortKeys a = sortKeys b :=
  eq_of_perm_of_keySorted (((sortKeys_perm a).trans hp).trans (sortKeys_perm b).symm)
    (sortKeys_sorted a) (sortKeys_sorted b)

theorem perm_of_nodup_mem_iff {κ : Type} {a b : List κ} (ha : a.Nodup) (hb : b.Nodup)
    (h : ∀ k, k ∈ a ↔ k ∈ b) : a.Perm b := by
  classical
  exact (List.perm_ext_iff_of_nodup ha hb).2 h

/-! ### Index arguments -/

namespace Idx

@[simp] theorem val_int (z : ℤ) : (Idx.int z).val = z := rfl
@[simp] theorem toInt_int (z : ℤ) : (Idx.int z).toInt = z := rfl
@[simp] theorem isPlainInt_int (z : ℤ) : (Idx.int z).isPlainInt = true := rfl

theorem tdiv_eq_floor (q : ℚ) (h : 0 ≤ q) : q.num.tdiv q.den = ⌊q⌋ := by
  rw [Rat.floor_def', Int.tdiv_eq_ediv_of_nonneg (Rat.num_nonneg.2 h)]

theorem tdiv_neg' (q : ℚ) : (-q).num.tdiv (-q).den = -(q.num.tdiv q.den) := by
  rw [Rat.num_neg_eq_neg_num, Rat.den_neg_eq_den, Int.neg_tdiv]

theorem abs_toInt (x : Idx) : |x.toInt| = ⌊|x.val|⌋ := by
  have key : ∀ q : ℚ, |q.num.tdiv q.den| = ⌊|q|⌋ := by
    intro q
    rcases le_total 0 q with h | h
    · rw [abs_of_nonneg h, tdiv_eq_floor q h, abs_of_nonneg (Int.floor_nonneg.2 h)]
    · have h' : 0 ≤ -q := by linarith
      have e := tdiv_neg' q
      rw [abs_of_nonpos h, ← tdiv_eq_floor (-q) h', e, abs_of_nonpos]
      have := Int.floor_nonneg.2 h'
      rw [← tdiv_eq_floor (-q) h', e] at this
      linarith
  cases x with
  | int z => simp only [toInt, val]; rw [← Int.cast_abs, Int.floor_intCast]
  | npInt z => simp only [toInt, val]; rw [← Int.cast_abs, Int.floor_intCast]
  | flt q => exact key q

theorem toInt_of_nonneg (x : Idx) (h : 0 ≤ x.val) : x.toInt = ⌊x.val⌋ := by
  cases x with
  | int z => simp [toInt, val]
  | npInt z => simp [toInt, val]
  | flt q => exact tdiv_eq_floor q h

theorem valid_toInt {l m : Idx} (h : |m.val| ≤ l.val) : |m.toInt| ≤ l.toInt := by
  have h0 : 0 ≤ l.val := le_trans (abs_nonneg _) h
  rw [abs_toInt, toInt_of_nonneg l h0]
  exact Int.floor_le_floor h

end Idx

/-! ### Python ranges -/

theorem mem_pyRange {a b x : ℤ} : x ∈ pyRange a b ↔ a ≤ x ∧ x < b := by
  simp only [pyRange, List.mem_map, List.mem_range]
  constructor
  · rintro ⟨i, hi, rfl⟩; omega
  · rintro ⟨h1, h2⟩; exact ⟨(x - a).toNat, by omega, by omega⟩

theorem pyRange_length (a b : ℤ) : (pyRange a b).length = (b - a).toNat := by simp [pyRange]

theorem pyRange_sorted (a b : ℤ) : (pyRange a b).Pairwise (· < ·) := by
  rw [pyRange, List.pairwise_map]
  exact (List.pairwise_lt_range).imp (by intro x y h; omega)

theorem pyRange_nodup (a b : ℤ) : (pyRange a b).Nodup :=
  (pyRange_sorted a b).imp (by intro x y h; omega)

namespace Coefs

variable {α : Type}

theorem keyIn_int (s : Coefs α) (l m : ℤ) : s.keyIn (.int l) (.int m) = true ↔ (l, m) ∈ s.keys := by
  simp only [keyIn, List.any_eq_true, Idx.val_int, Bool.and_eq_true, decide_eq_true_eq, Int.cast_inj,
    keys, List.mem_map]
  constructor
  · rintro ⟨kv, h, h1, h2⟩; exact ⟨kv, h, by ext <;> assumption⟩
  · rintro ⟨kv, h, e⟩; exact ⟨kv, h, by rw [e], by rw [e]⟩

theorem has_int (s : Coefs α) (l m : ℤ) : s.has (.int l) (.int m) = true ↔ (l, m) ∈ s.keys :=
  keyIn_int s l m

theorem has_int_eq (s : Coefs α) (l m : ℤ) :
    s.has (.int l) (.int m) = (dictGet s.dict (l, m)).isSome := by
  rw [Bool.eq_iff_iff, has_int, dictGet_isSome_iff]; rfl

theorem get_int (s : Coefs α) (l m : ℤ) : s.get (.int l) (.int m) = .ok (s.getI (l, m)) := rfl

theorem keyIn_of_val_eq (s : Coefs α) (l m : Idx) (a b : ℤ) (hl : l.val = a) (hm : m.val = b) :
    s.keyIn l m = s.keyIn (.int a) (.int b) := by
  simp [keyIn, hl, hm]

theorem getI_of_mem (s : Coefs α) (k : Key) (h : k ∈ s.keys) : (k, s.getI k) ∈ s.dict := by
  obtain ⟨v, hv⟩ := Option.isSome_iff_exists.1 ((dictGet_isSome_iff s.dict k).2 h)
  have : s.getI k = v := by simp [getI, hv]
  rw [this]; exact mem_of_dictGet _ _ _ hv

theorem getI_of_not_mem (s : Coefs α) (k : Key) (h : k ∉ s.keys) : s.getI k = s.dflt := by
  have := (dictGet_eq_none_iff s.dict k).2 h
  simp [getI, this]

theorem dictGet_eq (s : Coefs α) (k : Key) :
    dictGet s.dict k = if k ∈ s.keys then some (s.getI k) else none := by
  by_cases h : k ∈ s.keys
  · obtain ⟨v, hv⟩ := Option.isSome_iff_exists.1 ((dictGet_isSome_iff s.dict k).2 h)
    rw [if_pos h, getI, hv]; rfl
  · rw [if_neg h]; exact (dictGet_eq_none_iff _ _).2 h

section
variable [Elem α]

/-- The state after a successful store. -/
def stored (s : Coefs α) (l m : ℤ) (data : List α) : Coefs α :=
  { s with
    dict := dictSet s.dict (l, m) (data.map (Elem.cast s.dtype))
    degreeMax := max s.degreeMax l
    orderMin := min s.orderMin m }

theorem set_run (s : Coefs α) (l m : Idx) (data : List α) :
    set l m data s =
      if |m.val| ≤ l.val ∧ data.length = s.dflt.length then .ok () (s.stored l.toInt m.toInt data)
      else .error .assertion s := by
  unfold set
  by_cases h1 : |m.val| ≤ l.val
  · by_cases h2 : data.length = s.dflt.length
    · simp [pyAssert, h1, h2, bind, EStateM.bind, pure, EStateM.pure, stored,
        modify, modifyGet, MonadStateOf.modifyGet, EStateM.modifyGet,
        MonadState.get, getThe, MonadStateOf.get, EStateM.get]
    · simp [pyAssert, h1, h2, bind, EStateM.bind, pure, EStateM.pure, throw, throwThe,
        MonadExceptOf.throw, EStateM.throw, MonadState.get, getThe, MonadStateOf.get, EStateM.get]
  · simp [pyAssert, h1, bind, EStateM.bind, throw, throwThe,
        MonadExceptOf.throw, EStateM.throw, MonadState.get, getThe, MonadStateOf.get, EStateM.get]

theorem append_run (s : Coefs α) (l m : Idx) (data : List α) :
    append l m data s = if s.keyIn l m = true then .error .index s else set l m data s := by
  unfold append
  by_cases h : s.keyIn l m = true
  · simp [h, bind, EStateM.bind, throw, throwThe,
        MonadExceptOf.throw, EStateM.throw, MonadState.get, getThe, MonadStateOf.get, EStateM.get]
  · simp [h, bind, EStateM.bind, MonadState.get, getThe, MonadStateOf.get,
      EStateM.get]

/-! ### Well-formed sets -/

/-- Internal form of the invariant of C03. -/
structure WF (s : Coefs α) : Prop where
  nodup : s.keys.Nodup
  valid : ∀ k ∈ s.keys, |k.2| ≤ k.1
  shape : ∀ kv ∈ s.dict, kv.2.length = s.dflt.length
  dtyped : ∀ kv ∈ s.dict, ∀ x ∈ kv.2, Elem.cast s.dtype x = x
  dfltTyped : ∀ x ∈ s.dflt, Elem.cast s.dtype x = x
  degUpper : ∀ k ∈ s.keys, k.1 ≤ s.degreeMax
  degAttained : (s.keys = [] ∧ s.degreeMax = 0) ∨ ∃ k ∈ s.keys, k.1 = s.degreeMax
  ordLower : ∀ k ∈ s.keys, s.orderMin ≤ k.2
  ordAttained : s.orderMin = 0 ∨ ∃ k ∈ s.keys, k.2 = s.orderMin
  ordNonpos : s.orderMin ≤ 0

theorem new_WF (d : List α) (dt : DType) (h : ∀ x ∈ d, Elem.cast dt x = x) : (new d dt).WF where
  nodup := by simp [new, keys]
  valid := by simp [new, keys]
  shape := by simp [new]
  dtyped := by simp [new]
  dfltTyped := h
  degUpper := by simp [new, keys]
  degAttained := by simp [new, keys]
  ordLower := by simp [new, keys]
  ordAttained := by simp [new]
  ordNonpos := by simp [new]

theorem keys_stored (s : Coefs α) (l m : ℤ) (data : List α) :
    (s.stored l m data).keys = if (l, m) ∈ s.keys then s.keys else s.keys ++ [(l, m)] :=
  dictSet_keys _ _ _

theorem mem_keys_stored (s : Coefs α) (l m : ℤ) (data : List α) (k : Key) :
    k ∈ (s.stored l m data).keys ↔ k = (l, m) ∨ k ∈ s.keys := by
  rw [keys_stored]
  split
  · constructor
    · exact Or.inr
    · rintro (rfl | h) <;> assumption
  · simp [or_comm]

theorem WF.stored {s : Coefs α} (hs : s.WF) {l m : ℤ} {data : List α} (hv : |m| ≤ l)
    (hl : data.length = s.dflt.length) : (s.stored l m data).WF where
  nodup := by
    rw [keys_stored]
    split
    · exact hs.nodup
    · rename_i h
      rw [List.nodup_append]
      refine ⟨hs.nodup, by simp, ?_⟩
      intro a ha b hb
      simp only [List.mem_singleton] at hb
      subst hb
      rintro rfl
      exact h ha
  valid := by
    intro k hk
    rcases (mem_keys_stored s l m data k).1 hk with rfl | h
    · exact hv
    · exact hs.valid k h
  shape := by
    intro kv h
    rcases mem_dictSet _ _ _ _ h with rfl | h
    · simpa [Coefs.stored] using hl
    · exact hs.shape kv h
  dtyped := by
    intro kv h
    rcases mem_dictSet _ _ _ _ h with rfl | h
    · intro x hx
      simp only [List.mem_map] at hx
      obtain ⟨y, _, rfl⟩ := hx
      exact Elem.cast_idem _ _
    · exact hs.dtyped kv h
  dfltTyped := hs.dfltTyped
  degUpper := by
    intro k hk
    rcases (mem_keys_stored s l m data k).1 hk with rfl | h
    · exact le_max_right _ _
    · exact le_trans (hs.degUpper k h) (le_max_left _ _)
  degAttained := by
    right
    have hl0 : 0 ≤ l := le_trans (abs_nonneg _) hv
    rcases le_total s.degreeMax l with h | h
    · exact ⟨(l, m), (mem_keys_stored _ _ _ _ _).2 (Or.inl rfl), (max_eq_right h).symm⟩
    · rcases hs.degAttained with ⟨_, h0⟩ | ⟨k, hk, e⟩
      · refine ⟨(l, m), (mem_keys_stored _ _ _ _ _).2 (Or.inl rfl), ?_⟩
        simp only [Coefs.stored]; omega
      · exact ⟨k, (mem_keys_stored _ _ _ _ _).2 (Or.inr hk), by rw [e]; exact (max_eq_left h).symm⟩
  ordLower := by
    intro k hk
    rcases (mem_keys_stored s l m data k).1 hk with rfl | h
    · exact min_le_right _ _
    · exact le_trans (min_le_left _ _) (hs.ordLower k h)
  ordAttained := by
    rcases le_total s.orderMin m with h | h
    · rcases hs.ordAttained with h0 | ⟨k, hk, e⟩
      · left; simp only [Coefs.stored]; omega
      · right
        exact ⟨k, (mem_keys_stored _ _ _ _ _).2 (Or.inr hk), by rw [e]; exact (min_eq_left h).symm⟩
    · right
      exact ⟨(l, m), (mem_keys_stored _ _ _ _ _).2 (Or.inl rfl), (min_eq_right h).symm⟩
  ordNonpos := le_trans (min_le_left _ _) hs.ordNonpos

theorem WF.set {s : Coefs α} (hs : s.WF) (l m : Idx) (data : List α) :
    match set l m data s with
    | .ok _ s' => s'.WF
    | .error _ s' => s' = s := by
  rw [set_run]
  split_ifs with h
  · exact hs.stored (Idx.valid_toInt h.1) h.2
  · rfl

theorem WF.append {s : Coefs α} (hs : s.WF) (l m : Idx) (data : List α) :
    match append l m data s with
    | .ok _ s' => s'.WF
    | .error _ s' => s' = s := by
  rw [append_run]
  split_ifs with h
  · rfl
  · exact hs.set l m data

theorem append_dflt (s s' : Coefs α) (l m : Idx) (data : List α) (h : append l m data s = .ok () s') :
    s'.dflt = s.dflt ∧ s'.dtype = s.dtype := by
  rw [append_run, set_run] at h
  split_ifs at h
  cases h
  exact ⟨rfl, rfl⟩

theorem WF.appendAll {s : Coefs α} (hs : s.WF) (rows : List (Idx × Idx × List α)) {s' : Coefs α}
    (h : appendAll s rows = .ok s') : s'.WF ∧ s'.dflt = s.dflt ∧ s'.dtype = s.dtype := by
  induction rows generalizing s with
  | nil => cases h; exact ⟨hs, rfl, rfl⟩
  | cons r rows ih =>
    obtain ⟨l, m, data⟩ := r
    rw [Coefs.appendAll] at h
    have w := hs.append l m data
    rcases hr : Coefs.append l m data s with ⟨⟨⟩, s1⟩ | ⟨e, s1⟩
    · rw [hr] at h w
      obtain ⟨h1, h2⟩ := append_dflt s s1 l m data hr
      obtain ⟨h3, h4, h5⟩ := ih w h
      exact ⟨h3, h4.trans h1, h5.trans h2⟩
    · rw [hr] at h; cases h

/-- Effect of a loop of appends with pairwise distinct, fresh, valid integer keys. -/
theorem appendAll_ok (s : Coefs α) (rows : List (Key × List α))
    (hn : (rows.map Prod.fst).Nodup)
    (hf : ∀ kv ∈ rows, kv.1 ∉ s.keys)
    (hv : ∀ kv ∈ rows, |kv.1.2| ≤ kv.1.1)
    (hl : ∀ kv ∈ rows, kv.2.length = s.dflt.length) :
    ∃ s', appendAll s (rows.map fun kv => intRow kv.1 kv.2) = .ok s' ∧
      s'.dict = s.dict ++ rows.map (fun kv => (kv.1, kv.2.map (Elem.cast s.dtype))) ∧
      s'.dflt = s.dflt ∧ s'.dtype = s.dtype := by
  induction rows generalizing s with
  | nil => exact ⟨s, rfl, by simp, rfl, rfl⟩
  | cons r rows ih =>
    obtain ⟨k, data⟩ := r
    simp only [List.map_cons, List.nodup_cons] at hn
    have h1 : k ∉ s.keys := hf (k, data) List.mem_cons_self
    have h2 : |k.2| ≤ k.1 := hv (k, data) List.mem_cons_self
    have h3 : data.length = s.dflt.length := hl (k, data) List.mem_cons_self
    have hq : |((k.2 : ℤ) : ℚ)| ≤ ((k.1 : ℤ) : ℚ) := by exact_mod_cast h2
    have hrun : Coefs.append (.int k.1) (.int k.2) data s = .ok () (s.stored k.1 k.2 data) := by
      rw [append_run, set_run, if_neg, if_pos]
      · rfl
      · exact ⟨by simpa using hq, h3⟩
      · rw [keyIn_int]; exact h1
    have hd : (s.stored k.1 k.2 data).dict = s.dict ++ [(k, data.map (Elem.cast s.dtype))] :=
      dictSet_of_not_mem _ _ _ h1
    obtain ⟨s', e1, e2, e3, e4⟩ := ih (s.stored k.1 k.2 data) hn.2
      (by
        intro kv hkv hmem
        rcases (mem_keys_stored _ _ _ _ _).1 hmem with e | e
        · exact hn.1 (by rw [show k = kv.1 from e.symm]; exact List.mem_map_of_mem hkv)
        · exact hf kv (List.mem_cons_of_mem _ hkv) e)
      (fun kv h => hv kv (List.mem_cons_of_mem _ h))
      (fun kv h => hl kv (List.mem_cons_of_mem _ h))
    refine ⟨s', ?_, ?_, e3, e4⟩
    · rw [List.map_cons, intRow, Coefs.appendAll, hrun]; exact e1
    · rw [e2, hd]; simp [Coefs.stored]

/-! ### Sets determined by their dictionary as a function -/

omit [Elem α] in
theorem contents_keys (s : Coefs α) : s.contents.map Prod.fst = sortKeys s.keys := by
  simp [contents, Function.comp_def]

omit [Elem α] in
theorem mem_contents (s : Coefs α) (kv : Key × List α) :
    kv ∈ s.contents ↔ kv.1 ∈ s.keys ∧ kv.2 = s.getI kv.1 := by
  simp only [contents, List.mem_map, mem_sortKeys]
  constructor
  · rintro ⟨k, hk, rfl⟩; exact ⟨hk, rfl⟩
  · rintro ⟨h, e⟩; exact ⟨kv.1, h, by rw [← e]⟩

theorem WF.getI_length {s : Coefs α} (hs : s.WF) (k : Key) : (s.getI k).length = s.dflt.length := by
  by_cases h : k ∈ s.keys
  · exact hs.shape _ (getI_of_mem s k h)
  · rw [getI_of_not_mem s k h]

theorem WF.getI_typed {s : Coefs α} (hs : s.WF) (k : Key) : ∀ x ∈ s.getI k, Elem.cast s.dtype x = x := by
  by_cases h : k ∈ s.keys
  · exact hs.dtyped _ (getI_of_mem s k h)
  · rw [getI_of_not_mem s k h]; exact hs.dfltTyped

theorem map_cast_of_typed {d : DType} {xs : List α} (h : ∀ x ∈ xs, Elem.cast d x = x) :
    xs.map (Elem.cast d) = xs := by
  conv_rhs => rw [← List.map_id xs]
  exact List.map_congr_left h

/-- Rebuild-from-rows lemma: appending rows with keys `ks` to an empty set. -/
theorem build_ok (d : List α) (dt : DType) (hd : ∀ x ∈ d, Elem.cast dt x = x)
    (ks : List Key) (f : Key → List α) (hn : ks.Nodup) (hv : ∀ k ∈ ks, |k.2| ≤ k.1)
    (hl : ∀ k ∈ ks, (f k).length = d.length) :
    ∃ s', appendAll (new d dt) (ks.map fun k => intRow k (f k)) = .ok s' ∧ s'.WF ∧
      s'.keys = ks ∧ s'.dflt = d ∧ s'.dtype = dt ∧
      ∀ k, s'.getI k = if k ∈ ks then (f k).map (Elem.cast dt) else d := by
  have hk : (ks.map fun k => (k, f k)).map Prod.fst = ks := by simp [Function.comp_def]
  obtain ⟨s', e1, e2, e3, e4⟩ := appendAll_ok (new d dt) (ks.map fun k => (k, f k))
    (by rw [hk]; exact hn)
    (by simp [new, keys])
    (by
      intro kv h
      obtain ⟨k, hk, rfl⟩ := List.mem_map.1 h
      exact hv k hk)
    (by
      intro kv h
      obtain ⟨k, hk, rfl⟩ := List.mem_map.1 h
      exact hl k hk)
  have e1' : appendAll (new d dt) (ks.map fun k => intRow k (f k)) = .ok s' := by
    rw [← e1, List.map_map]; rfl
  have hdict : s'.dict = ks.map fun k => (k, (f k).map (Elem.cast dt)) := by
    rw [e2]; simp [new, Function.comp_def]
  have hkeys : s'.keys = ks := by rw [keys, hdict]; simp [Function.comp_def]
  refine ⟨s', e1', ((new_WF d dt hd).appendAll _ e1').1, hkeys, e3, e4, ?_⟩
  intro k
  rw [getI, hdict, dictGet_map_keys]
  by_cases h : k ∈ ks
  · simp [h]
  · simp [h, e3, new]

end

end Coefs

end Verif
