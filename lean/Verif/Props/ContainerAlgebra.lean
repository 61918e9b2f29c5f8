import Verif.Props.Container
import Mathlib.Tactic.FieldSimp

/-!
# Properties C08 - C12: arithmetic of coefficient sets

All statements allow an arbitrary iteration order of the python sets involved (`IsSetIter`).
-/

namespace Verif
open Spec Coefs

variable {α : Type} [Field α] [DecidableEq α] [ElemField α] {d : DType} {n : ℕ}

omit [Field α] [DecidableEq α] [ElemField α] in
private theorem valueAt_eq (s : Coefs α) (l m : ℤ) : valueAt s l m = s.getI (l, m) := rfl

omit [Field α] [DecidableEq α] [ElemField α] in
private theorem same_of_holds {a b : Coefs α} {P : ℤ → ℤ → Prop} {v : ℤ → ℤ → List α} (hd : a.dflt = b.dflt)
    (ht : a.dtype = b.dtype) (ha : Holds a P v) (hb : Holds b P v) : Same a b where
  dflt := hd
  dtype := ht
  has l m := by
    have h1 := ha.has l m
    have h2 := hb.has l m
    unfold stores at h1 h2
    rw [Bool.eq_iff_iff, h1, h2]
  get l m := by
    have h1 := ha.val l m
    have h2 := hb.val l m
    rw [valueAt_eq] at h1 h2
    rw [get_int, get_int, h1, h2]

namespace Spec.Operand

theorem len {s : Coefs α} (h : Operand d n s) (l m : ℤ) : (valueAt s l m).length = n := by
  rw [valueAt_eq, h.reach.WF.getI_length, h.cols]

theorem typed {s : Coefs α} (h : Operand d n s) (l m : ℤ) : ∀ x ∈ valueAt s l m, Elem.cast d x = x := by
  rw [valueAt_eq, ← h.dtype]; exact h.reach.WF.getI_typed _

theorem dflt_eq {s : Coefs α} (h : Operand d n s) : s.dflt = List.replicate n 0 := by
  rw [← h.cols]; exact List.eq_replicate_of_mem h.zero

theorem unset {s : Coefs α} (h : Operand d n s) {l m : ℤ} (hs : ¬ stores s l m) :
    valueAt s l m = List.replicate n 0 := by
  rw [valueAt_eq, getI_of_not_mem, h.dflt_eq]
  exact fun hk => hs ((has_int s l m).2 hk)

theorem same {a b : Coefs α} (ha : Operand d n a) (hb : Operand d n b) {P : ℤ → ℤ → Prop} {v : ℤ → ℤ → List α}
    (h1 : Holds a P v) (h2 : Holds b P v) : Same a b :=
  same_of_holds (ha.dflt_eq.trans hb.dflt_eq.symm) (ha.dtype.trans hb.dtype.symm) h1 h2

end Spec.Operand

omit [Field α] [DecidableEq α] [ElemField α] in
private theorem cast_zipWith [Elem α] {dt : DType} (f : α → α → α) (xs ys : List α)
    (hf : ∀ x y, Elem.cast dt x = x → Elem.cast dt y = y → Elem.cast dt (f x y) = f x y)
    (hx : ∀ x ∈ xs, Elem.cast dt x = x) (hy : ∀ y ∈ ys, Elem.cast dt y = y) :
    (List.zipWith f xs ys).map (Elem.cast dt) = List.zipWith f xs ys := by
  refine map_cast_of_typed fun z hz => ?_
  rw [List.mem_iff_getElem] at hz
  obtain ⟨i, hi, rfl⟩ := hz
  rw [List.getElem_zipWith]
  exact hf _ _ (hx _ (List.getElem_mem _)) (hy _ (List.getElem_mem _))

omit [DecidableEq α] [ElemField α] in
private theorem zipWith_zero (f : α → α → α) (h : f 0 0 = 0) (k : ℕ) :
    List.zipWith f (List.replicate k (0 : α)) (List.replicate k 0) = List.replicate k 0 := by
  rw [List.zipWith_replicate, h, min_self]

private theorem combine_holds (f : α → α → α) (h0 : f 0 0 = 0)
    (hf : ∀ x y, Elem.cast d x = x → Elem.cast d y = y → Elem.cast d (f x y) = f x y)
    {a b : Coefs α} (ha : Operand d n a) (hb : Operand d n b) {ks : List Key}
    (hk : IsSetIter ks (a.keys ++ b.keys)) :
    ∃ s', combineLoop f a b a.emptyLike ks = .ok s' ∧ s'.WF ∧ ZeroDefault s' ∧ s'.dtype = d ∧
      s'.dflt.length = n ∧
      Holds s' (fun l m => stores a l m ∨ stores b l m)
        (fun l m => List.zipWith f (valueAt a l m) (valueAt b l m)) := by
  obtain ⟨s', e, w, k, df, dt, g⟩ := combine_spec f ha.reach.WF hb.reach.WF
    (ha.cols.trans hb.cols.symm) hk
  have hmem : ∀ l m, (l, m) ∈ ks ↔ stores a l m ∨ stores b l m := by
    intro l m
    rw [hk.2, List.mem_append, stores, stores, has_int, has_int]
  refine ⟨s', e, w, ?_, dt.trans ha.dtype, by rw [df, ha.cols], ?_, ?_⟩
  · intro x hx; rw [df] at hx; exact ha.zero x hx
  · intro l m; rw [stores, has_int, k, hmem]
  · intro l m
    rw [valueAt_eq, g, ha.dtype]
    by_cases h : (l, m) ∈ ks
    · rw [if_pos h]; exact cast_zipWith f _ _ hf (ha.typed l m) (hb.typed l m)
    · rw [if_neg h]
      have h' := fun hh => h ((hmem l m).2 hh)
      rw [ha.unset (fun h => h' (Or.inl h)), hb.unset (fun h => h' (Or.inr h)), zipWith_zero f h0, ha.dflt_eq]

/-! ## C08 -/

/-- **C08.** `a + b` succeeds, stores exactly the union of the pairs and the elementwise sum everywhere. -/
theorem C08_add_pointwise (hd : d ≠ .bool) {a b : Coefs α} (ha : Operand d n a) (hb : Operand d n b)
    {ks : List Key} (hk : IsSetIter ks (a.keys ++ b.keys)) :
    ∃ s', add ks a b = .ok s' ∧ Operand d n s' ∧
      Holds s' (fun l m => stores a l m ∨ stores b l m)
        (fun l m => List.zipWith (· + ·) (valueAt a l m) (valueAt b l m)) := by
  obtain ⟨s', e, w, z, dt, c, h⟩ := combine_holds (· + ·) (add_zero 0)
    (fun x y hx hy => ElemRing.cast_add d x y hd hx hy) ha hb hk
  have e' : add ks a b = .ok s' := by
    rw [add, if_pos (ha.cols.trans hb.cols.symm)]; exact e
  exact ⟨s', e', ⟨Reach.add ks ha.reach hb.reach hk e', z, dt, c⟩, h⟩

omit [Field α] [DecidableEq α] [ElemField α] in
private theorem Holds.congr {s : Coefs α} {P Q : ℤ → ℤ → Prop} {v w : ℤ → ℤ → List α} (h : Holds s P v)
    (hp : ∀ l m, P l m ↔ Q l m) (hv : ∀ l m, v l m = w l m) : Holds s Q w where
  has l m := (h.has l m).trans (hp l m)
  val l m := (h.val l m).trans (hv l m)

omit [Field α] [DecidableEq α] [ElemField α] in
private theorem self_holds (s : Coefs α) : Holds s (stores s) (valueAt s) :=
  ⟨fun _ _ => Iff.rfl, fun _ _ => rfl⟩

/-- **C08.** Addition commutes. -/
theorem C08_add_comm (hd : d ≠ .bool) {a b x y : Coefs α} (ha : Operand d n a) (hb : Operand d n b)
    {ks ks' : List Key} (hk : IsSetIter ks (a.keys ++ b.keys)) (hk' : IsSetIter ks' (b.keys ++ a.keys))
    (hx : add ks a b = .ok x) (hy : add ks' b a = .ok y) : Same x y := by
  obtain ⟨x', ex, ox, hx'⟩ := C08_add_pointwise hd ha hb hk
  obtain ⟨y', ey, oy, hy'⟩ := C08_add_pointwise hd hb ha hk'
  rw [hx] at ex; rw [hy] at ey; cases ex; cases ey
  refine ox.same oy hx' (Holds.congr hy' (fun l m => or_comm) fun l m => ?_)
  exact List.zipWith_comm_of_comm (fun a b => add_comm a b)

/-- **C08.** Addition associates. -/
theorem C08_add_assoc (hd : d ≠ .bool) {a b c ab bc x y : Coefs α} (ha : Operand d n a) (hb : Operand d n b)
    (hc : Operand d n c) {k1 k2 k3 k4 : List Key} (h1 : IsSetIter k1 (a.keys ++ b.keys))
    (h2 : IsSetIter k2 (ab.keys ++ c.keys)) (h3 : IsSetIter k3 (b.keys ++ c.keys))
    (h4 : IsSetIter k4 (a.keys ++ bc.keys)) (e1 : add k1 a b = .ok ab) (e2 : add k2 ab c = .ok x)
    (e3 : add k3 b c = .ok bc) (e4 : add k4 a bc = .ok y) : Same x y := by
  obtain ⟨_, e, oab, hab⟩ := C08_add_pointwise hd ha hb h1; rw [e1] at e; cases e
  obtain ⟨_, e, ox, hx⟩ := C08_add_pointwise hd oab hc h2; rw [e2] at e; cases e
  obtain ⟨_, e, obc, hbc⟩ := C08_add_pointwise hd hb hc h3; rw [e3] at e; cases e
  obtain ⟨_, e, oy, hy⟩ := C08_add_pointwise hd ha obc h4; rw [e4] at e; cases e
  refine ox.same oy hx (Holds.congr hy (fun l m => ?_) fun l m => ?_)
  · rw [hbc.has, hab.has]; tauto
  · rw [hbc.val, hab.val]
    refine List.ext_getElem (by simp [ha.len, hb.len, hc.len]) ?_
    intro i _ _
    simp [add_assoc]

/-- **C08.** The empty set is neutral. -/
theorem C08_add_empty (hd : d ≠ .bool) {a e x : Coefs α} (ha : Operand d n a) (he : Operand d n e)
    (hempty : ∀ l m, ¬ stores e l m) {ks : List Key} (hk : IsSetIter ks (a.keys ++ e.keys))
    (hx : add ks a e = .ok x) : Same x a := by
  obtain ⟨_, e', ox, h⟩ := C08_add_pointwise hd ha he hk; rw [hx] at e'; cases e'
  refine ox.same ha (Holds.congr h (fun l m => ?_) fun l m => ?_) (self_holds a)
  · simp [hempty l m]
  · rw [he.unset (hempty l m)]
    refine List.ext_getElem (by simp [ha.len]) ?_
    intro i _ _
    simp

omit [DecidableEq α] in
/-- **C08.** Different column counts are refused. -/
theorem C08_add_shape_mismatch (a b : Coefs α) (ks : List Key) (h : a.dflt.length ≠ b.dflt.length) :
    add ks a b = .error .assertion := by
  rw [add, if_neg h]

/-! ## C10 -/

/-- **C10.** Multiplying by a number keeps the pairs and multiplies every value. -/
theorem C10_mulScalar_pointwise {a : Coefs α} (ha : Operand d n a) (x : α) (hx : Elem.cast d x = x) :
    ∃ s', mulScalar a x = .ok s' ∧ Operand d n s' ∧
      Holds s' (stores a) (fun l m => (valueAt a l m).map (· * x)) := by
  obtain ⟨s', e, w, k, df, dt, g⟩ := mulScalar_spec ha.reach.WF x
  refine ⟨s', e, ⟨Reach.mulScalar x ha.reach e, fun y hy => ha.zero y (df ▸ hy), dt.trans ha.dtype,
    by rw [df, ha.cols]⟩, fun l m => ?_, fun l m => ?_⟩
  · rw [stores, stores, has_int, k, mem_sortKeys, has_int]
  · rw [valueAt_eq, g, ha.dtype]
    by_cases h : (l, m) ∈ a.keys
    · rw [if_pos h]
      refine List.map_congr_left fun c hc => ?_
      exact ElemRing.cast_mul d c x (ha.typed l m c hc) hx
    · rw [if_neg h, ha.unset (fun hh => h ((has_int a l m).1 hh)), ha.dflt_eq]
      simp

/-- **C10.** Multiplying by an array with one entry per column multiplies each column by its entry. -/
theorem C10_mulArray_pointwise {a : Coefs α} (ha : Operand d n a) (xs : List α) (hl : xs.length = n)
    (hx : ∀ x ∈ xs, Elem.cast d x = x) :
    ∃ s', mulArray a xs = .ok s' ∧ Operand d n s' ∧
      Holds s' (stores a) (fun l m => List.zipWith (· * ·) (valueAt a l m) xs) := by
  obtain ⟨s', e, w, k, df, dt, g⟩ := mulArray_spec ha.reach.WF xs (hl.trans ha.cols.symm)
  refine ⟨s', e, ⟨Reach.mulArray xs ha.reach e, fun y hy => ha.zero y (df ▸ hy), dt.trans ha.dtype,
    by rw [df, ha.cols]⟩, fun l m => ?_, fun l m => ?_⟩
  · rw [stores, stores, has_int, k, mem_sortKeys, has_int]
  · rw [valueAt_eq, g, ha.dtype]
    by_cases h : (l, m) ∈ a.keys
    · rw [if_pos h]
      exact cast_zipWith _ _ _ (fun x y h1 h2 => ElemRing.cast_mul d x y h1 h2) (ha.typed l m) hx
    · rw [if_neg h, ha.unset (fun hh => h ((has_int a l m).1 hh)), ha.dflt_eq]
      refine List.ext_getElem (by simp [hl]) ?_
      intro i _ _
      simp

/-- **C10.** `a * 1` is `a`. -/
theorem C10_mul_one {a x : Coefs α} (ha : Operand d n a) (hx : mulScalar a 1 = .ok x) : Same x a := by
  obtain ⟨_, e, ox, h⟩ := C10_mulScalar_pointwise ha 1 (ElemRing.cast_one d); rw [hx] at e; cases e
  refine ox.same ha (Holds.congr h (fun _ _ => Iff.rfl) fun l m => ?_) (self_holds a)
  simp

/-- **C10.** `(a * p) * q` is `a * (p * q)`. -/
theorem C10_mul_mul {a y z w : Coefs α} (ha : Operand d n a) (p q : α) (hp : Elem.cast d p = p)
    (hq : Elem.cast d q = q) (h1 : mulScalar a p = .ok y) (h2 : mulScalar y q = .ok z)
    (h3 : mulScalar a (p * q) = .ok w) : Same z w := by
  obtain ⟨_, e, oy, hy⟩ := C10_mulScalar_pointwise ha p hp; rw [h1] at e; cases e
  obtain ⟨_, e, oz, hz⟩ := C10_mulScalar_pointwise oy q hq; rw [h2] at e; cases e
  obtain ⟨_, e, ow, hw⟩ := C10_mulScalar_pointwise ha (p * q) (ElemRing.cast_mul d p q hp hq); rw [h3] at e; cases e
  refine oz.same ow (Holds.congr hz (fun l m => ?_) fun l m => ?_) hw
  · exact hy.has l m
  · rw [hy.val]; simp

/-- **C10.** Scalar multiplication distributes over addition of sets. -/
theorem C10_mul_add (hd : d ≠ .bool) {a b ab x y ax bx : Coefs α} (ha : Operand d n a) (hb : Operand d n b)
    (p : α) (hp : Elem.cast d p = p) {k1 k2 : List Key} (h1 : IsSetIter k1 (a.keys ++ b.keys))
    (h2 : IsSetIter k2 (ax.keys ++ bx.keys)) (e1 : add k1 a b = .ok ab) (e2 : mulScalar ab p = .ok x)
    (e3 : mulScalar a p = .ok ax) (e4 : mulScalar b p = .ok bx) (e5 : add k2 ax bx = .ok y) : Same x y := by
  obtain ⟨_, e, oab, hab⟩ := C08_add_pointwise hd ha hb h1; rw [e1] at e; cases e
  obtain ⟨_, e, ox, hx⟩ := C10_mulScalar_pointwise oab p hp; rw [e2] at e; cases e
  obtain ⟨_, e, oax, hax⟩ := C10_mulScalar_pointwise ha p hp; rw [e3] at e; cases e
  obtain ⟨_, e, obx, hbx⟩ := C10_mulScalar_pointwise hb p hp; rw [e4] at e; cases e
  obtain ⟨_, e, oy, hy⟩ := C08_add_pointwise hd oax obx h2; rw [e5] at e; cases e
  refine ox.same oy hx (Holds.congr hy (fun l m => ?_) fun l m => ?_)
  · rw [hax.has, hbx.has, hab.has]
  · rw [hax.val, hbx.val, hab.val]
    refine List.ext_getElem (by simp) ?_
    intro i _ _
    simp [add_mul]

/-- **C10.** Dividing by zero raises ZeroDivisionError; dividing by a non-zero number (floating dtype) undoes
the multiplication. -/
theorem C10_div_undoes_mul (hd : d = .real ∨ d = .cplx) {a : Coefs α} (ha : Operand d n a) :
    divScalar a 0 = .error .zeroDiv ∧
    ∀ p : α, Elem.cast d p = p → p ≠ 0 →
      ∃ y z, mulScalar a p = .ok y ∧ divScalar y p = .ok z ∧ Same z a := by
  refine ⟨by simp [divScalar], fun p hp h0 => ?_⟩
  obtain ⟨y, e1, oy, hy⟩ := C10_mulScalar_pointwise ha p hp
  obtain ⟨z, e2, oz, hz⟩ := C10_mulScalar_pointwise oy p⁻¹ (ElemField.cast_inv d p hd hp)
  refine ⟨y, z, e1, by rw [divScalar, if_neg h0, e2], oz.same ha (Holds.congr hz hy.has fun l m => ?_) (self_holds a)⟩
  rw [hy.val]; simp [h0]

/-! ## C09 -/

/-- **C09.** `a - b` stores the union of the pairs and the elementwise difference everywhere. -/
theorem C09_sub_pointwise (hd : d ≠ .bool) {a b : Coefs α} (ha : Operand d n a) (hb : Operand d n b)
    {ks : List Key} (hk : IsSetIter ks (a.keys ++ b.keys)) :
    ∃ s', sub ks a b = .ok s' ∧ Operand d n s' ∧
      Holds s' (fun l m => stores a l m ∨ stores b l m)
        (fun l m => List.zipWith (· - ·) (valueAt a l m) (valueAt b l m)) := by
  obtain ⟨nb, e1, onb, hnb⟩ := C10_mulScalar_pointwise hb (-1)
    (ElemRing.cast_neg d 1 hd (ElemRing.cast_one d))
  have hk' : IsSetIter ks (a.keys ++ nb.keys) := by
    refine ⟨hk.1, fun k => ?_⟩
    rw [hk.2, List.mem_append, List.mem_append]
    have := hnb.has k.1 k.2
    rw [stores, stores, has_int, has_int] at this
    rw [show k = (k.1, k.2) from rfl, this]
  obtain ⟨s', e2, os, hs⟩ := C08_add_pointwise hd ha onb hk'
  refine ⟨s', by rw [sub, e1]; exact e2, os, Holds.congr hs (fun l m => ?_) fun l m => ?_⟩
  · rw [hnb.has]
  · rw [hnb.val]
    refine List.ext_getElem (by simp) ?_
    intro i _ _
    simp [sub_eq_add_neg]

/-- **C09.** `(a + b) - b` has the values of `a` at every pair (pairs only in `b` remain, with value zero). -/
theorem C09_add_sub_cancel (hd : d ≠ .bool) {a b s t : Coefs α} (ha : Operand d n a) (hb : Operand d n b)
    {k1 k2 : List Key} (h1 : IsSetIter k1 (a.keys ++ b.keys)) (h2 : IsSetIter k2 (s.keys ++ b.keys))
    (e1 : add k1 a b = .ok s) (e2 : sub k2 s b = .ok t) : SameValues t a := by
  obtain ⟨_, e, os, hs⟩ := C08_add_pointwise hd ha hb h1; rw [e1] at e; cases e
  obtain ⟨_, e, ot, ht⟩ := C09_sub_pointwise hd os hb h2; rw [e2] at e; cases e
  intro l m
  have := ht.val l m
  rw [valueAt_eq] at this
  rw [get_int, get_int, this]
  congr 1
  rw [hs.val]
  refine List.ext_getElem (by simp [ha.len, hb.len, ← valueAt_eq]) ?_
  intro i _ _
  simp [valueAt_eq]

/-- **C09.** `a - a` is zero everywhere. -/
theorem C09_sub_self (hd : d ≠ .bool) {a t : Coefs α} (ha : Operand d n a) {ks : List Key}
    (hk : IsSetIter ks (a.keys ++ a.keys)) (e1 : sub ks a a = .ok t) :
    ∀ l m, valueAt t l m = List.replicate n 0 := by
  obtain ⟨_, e, ot, ht⟩ := C09_sub_pointwise hd ha ha hk; rw [e1] at e; cases e
  intro l m
  rw [ht.val]
  refine List.ext_getElem (by simp [ha.len]) ?_
  intro i _ _
  simp

/-- **C09.** `a - b` is the negative of `b - a`. -/
theorem C09_sub_antisymm (hd : d ≠ .bool) {a b s t : Coefs α} (ha : Operand d n a) (hb : Operand d n b)
    {k1 k2 : List Key} (h1 : IsSetIter k1 (a.keys ++ b.keys)) (h2 : IsSetIter k2 (b.keys ++ a.keys))
    (e1 : sub k1 a b = .ok s) (e2 : sub k2 b a = .ok t) :
    ∀ l m, valueAt s l m = (valueAt t l m).map (- ·) := by
  obtain ⟨_, e, os, hs⟩ := C09_sub_pointwise hd ha hb h1; rw [e1] at e; cases e
  obtain ⟨_, e, ot, ht⟩ := C09_sub_pointwise hd hb ha h2; rw [e2] at e; cases e
  intro l m
  rw [hs.val, ht.val]
  refine List.ext_getElem (by simp [ha.len, hb.len]) ?_
  intro i _ _
  simp

/-! ## C11 -/

/-- **C11.** The product of two sets is the elementwise product at every pair. -/
theorem C11_mulCoefs_pointwise {a b : Coefs α} (ha : Operand d n a) (hb : Operand d n b)
    {ks : List Key} (hk : IsSetIter ks (a.keys ++ b.keys)) :
    ∃ s', mulCoefs ks a b = .ok s' ∧ Operand d n s' ∧
      Holds s' (fun l m => stores a l m ∨ stores b l m)
        (fun l m => List.zipWith (· * ·) (valueAt a l m) (valueAt b l m)) := by
  obtain ⟨s', e, w, z, dt, c, h⟩ := combine_holds (· * ·) (mul_zero 0)
    (fun x y hx hy => ElemRing.cast_mul d x y hx hy) ha hb hk
  have e' : mulCoefs ks a b = .ok s' := by
    rw [mulCoefs, if_pos (ha.cols.trans hb.cols.symm)]; exact e
  exact ⟨s', e', ⟨Reach.mulCoefs ks ha.reach hb.reach hk e', z, dt, c⟩, h⟩

/-- **C11.** The product commutes. -/
theorem C11_mulCoefs_comm {a b x y : Coefs α} (ha : Operand d n a) (hb : Operand d n b)
    {ks ks' : List Key} (hk : IsSetIter ks (a.keys ++ b.keys)) (hk' : IsSetIter ks' (b.keys ++ a.keys))
    (hx : mulCoefs ks a b = .ok x) (hy : mulCoefs ks' b a = .ok y) : Same x y := by
  obtain ⟨_, e, ox, hx'⟩ := C11_mulCoefs_pointwise ha hb hk; rw [hx] at e; cases e
  obtain ⟨_, e, oy, hy'⟩ := C11_mulCoefs_pointwise hb ha hk'; rw [hy] at e; cases e
  refine ox.same oy hx' (Holds.congr hy' (fun l m => or_comm) fun l m => ?_)
  exact List.zipWith_comm_of_comm (fun a b => mul_comm a b)

/-- **C11.** The quotient of two sets with floating dtype: `a / b` at pairs stored in `b` with non-zero entries,
and zero at pairs that `b` does not store. -/
theorem C11_divCoefs_pointwise (hd : d = .real ∨ d = .cplx) {a b : Coefs α} (ha : Operand d n a)
    (hb : Operand d n b) {ks : List Key} (hk : IsSetIter ks (a.keys ++ b.keys)) :
    ∃ s', divCoefs ks a b = .ok s' ∧ Operand d n s' ∧
      (∀ l m, stores s' l m ↔ stores a l m ∨ stores b l m) ∧
      (∀ l m, stores b l m → (∀ x ∈ valueAt b l m, x ≠ 0) →
        valueAt s' l m = List.zipWith (· / ·) (valueAt a l m) (valueAt b l m)) ∧
      (∀ l m, ¬ stores b l m → valueAt s' l m = List.replicate n 0) := by
  obtain ⟨ib, e, w, k, df, dt, g⟩ := pow_spec hb.reach.WF (-1)
  have oib : Operand d n ib := ⟨Reach.pow (-1) hb.reach e, fun y hy => hb.zero y (df ▸ hy),
    dt.trans hb.dtype, by rw [df, hb.cols]⟩
  have hkk : ∀ l m, stores ib l m ↔ stores b l m := by
    intro l m; rw [stores, has_int, k, mem_sortKeys, stores, has_int]
  have hk' : IsSetIter ks (a.keys ++ ib.keys) := by
    refine ⟨hk.1, fun q => ?_⟩
    rw [hk.2, List.mem_append, List.mem_append, k, mem_sortKeys]
  obtain ⟨s', e2, os, hs⟩ := C11_mulCoefs_pointwise ha oib hk'
  refine ⟨s', by rw [divCoefs, e]; exact e2, os, fun l m => ?_, fun l m hst hne => ?_, fun l m hst => ?_⟩
  · rw [hs.has, hkk]
  · have hv : valueAt ib l m = (valueAt b l m).map (·⁻¹) := by
      rw [valueAt_eq, g, if_pos ((has_int b l m).1 hst)]
      refine List.map_congr_left fun x hx => ?_
      rw [zpow_neg_one, hb.dtype]
      exact ElemField.cast_inv d x hd (hb.typed l m x hx)
    rw [hs.val, hv]
    refine List.ext_getElem (by simp) ?_
    intro i _ _
    simp [div_eq_mul_inv]
  · rw [hs.val, oib.unset (fun h => hst ((hkk l m).1 h))]
    refine List.ext_getElem (by simp [ha.len]) ?_
    intro i _ _
    simp

/-- **C11.** `(a * b) / b` returns the values of `a` wherever `b` stores non-zero entries. -/
theorem C11_mul_div_cancel (hd : d = .real ∨ d = .cplx) {a b x y : Coefs α} (ha : Operand d n a)
    (hb : Operand d n b) {k1 k2 : List Key} (h1 : IsSetIter k1 (a.keys ++ b.keys))
    (h2 : IsSetIter k2 (x.keys ++ b.keys)) (e1 : mulCoefs k1 a b = .ok x) (e2 : divCoefs k2 x b = .ok y) :
    ∀ l m, stores b l m → (∀ v ∈ valueAt b l m, v ≠ 0) → valueAt y l m = valueAt a l m := by
  obtain ⟨_, e, ox, hx⟩ := C11_mulCoefs_pointwise ha hb h1; rw [e1] at e; cases e
  obtain ⟨_, e, oy, _, hq, _⟩ := C11_divCoefs_pointwise hd ox hb h2; rw [e2] at e; cases e
  intro l m hs hne
  rw [hq l m hs hne, hx.val]
  refine List.ext_getElem (by simp [ha.len, hb.len]) ?_
  intro i h1 h2
  simp only [List.getElem_zipWith]
  have hi : i < (valueAt b l m).length := by rw [hb.len]; rw [ha.len] at h2; exact h2
  have := hne (valueAt b l m)[i] (List.getElem_mem hi)
  field_simp

/-! ## C12 -/

/-- **C12.** `scale(s, f, p)` multiplies the value at each stored pair by f(l, m)^p, keeps the pairs and the
default, when the factors have a dtype that can be stored in `s`. -/
theorem C12_scale_pointwise {s : Coefs α} (hs : Operand d n s) (f : ℤ → ℤ → α) (p : ℤ) (fdt : DType)
    (hf : fdt.promote d = d) (hc : ∀ l m, stores s l m → Elem.cast d (f l m ^ p) = f l m ^ p) :
    ∃ s', scale s f p fdt = .ok s' ∧ Operand d n s' ∧
      Holds s' (stores s) (fun l m => (valueAt s l m).map (· * f l m ^ p)) := by
  obtain ⟨s', e, w, k, df, dt, g⟩ := scale_spec hs.reach.WF f p fdt (by rw [hs.dtype]; exact hf)
  refine ⟨s', e, ⟨Reach.scale f p fdt hs.reach e, fun y hy => hs.zero y (df ▸ hy), dt.trans hs.dtype,
    by rw [df, hs.cols]⟩, fun l m => ?_, fun l m => ?_⟩
  · rw [stores, stores, has_int, k, mem_sortKeys, has_int]
  · rw [valueAt_eq, g, hs.dtype]
    by_cases h : (l, m) ∈ s.keys
    · rw [if_pos h]
      refine List.map_congr_left fun c hcm => ?_
      exact ElemRing.cast_mul d c _ (hs.typed l m c hcm) (hc l m ((has_int s l m).2 h))
    · rw [if_neg h, hs.unset (fun hh => h ((has_int s l m).1 hh)), hs.dflt_eq]
      simp

/-- **C12.** Scaling by `f` and then by `f⁻¹` restores the set when `f` does not vanish on it. -/
theorem C12_scale_inverse (hd : d = .real ∨ d = .cplx) {s y z : Coefs α} (hs : Operand d n s) (f : ℤ → ℤ → α)
    (p : ℤ) (fdt : DType) (hf : fdt.promote d = d)
    (hc : ∀ l m, stores s l m → Elem.cast d (f l m ^ p) = f l m ^ p) (h0 : ∀ l m, stores s l m → f l m ≠ 0)
    (e1 : scale s f p fdt = .ok y) (e2 : scale y f (-p) fdt = .ok z) : Same z s := by
  obtain ⟨_, e, oy, hy⟩ := C12_scale_pointwise hs f p fdt hf hc; rw [e1] at e; cases e
  have hc' : ∀ l m, stores y l m → Elem.cast d (f l m ^ (-p)) = f l m ^ (-p) := by
    intro l m h
    rw [zpow_neg]
    exact ElemField.cast_inv d _ hd (hc l m ((hy.has l m).1 h))
  obtain ⟨_, e, oz, hz⟩ := C12_scale_pointwise oy f (-p) fdt hf hc'; rw [e2] at e; cases e
  refine oz.same hs (Holds.congr hz hy.has fun l m => ?_) (self_holds s)
  rw [hy.val, List.map_map]
  by_cases h : stores s l m
  · conv_rhs => rw [← List.map_id (valueAt s l m)]
    refine List.map_congr_left fun c _ => ?_
    have := zpow_ne_zero p (h0 l m h)
    simp [zpow_neg, this]
  · rw [hs.unset h]; simp

/-- **C12.** Scaling by `f` then `g` is scaling by the product. -/
theorem C12_scale_compose {s y z w : Coefs α} (hs : Operand d n s) (f g : ℤ → ℤ → α) (fdt : DType)
    (hf : fdt.promote d = d) (hcf : ∀ l m, stores s l m → Elem.cast d (f l m) = f l m)
    (hcg : ∀ l m, stores s l m → Elem.cast d (g l m) = g l m)
    (e1 : scale s f 1 fdt = .ok y) (e2 : scale y g 1 fdt = .ok z)
    (e3 : scale s (fun l m => f l m * g l m) 1 fdt = .ok w) : Same z w := by
  obtain ⟨_, e, oy, hy⟩ := C12_scale_pointwise hs f 1 fdt hf (by simpa using hcf); rw [e1] at e; cases e
  obtain ⟨_, e, oz, hz⟩ := C12_scale_pointwise oy g 1 fdt hf
    (by intro l m h; rw [zpow_one]; exact hcg l m ((hy.has l m).1 h)); rw [e2] at e; cases e
  obtain ⟨_, e, ow, hw⟩ := C12_scale_pointwise hs (fun l m => f l m * g l m) 1 fdt hf
    (by
      intro l m h
      rw [zpow_one]
      exact ElemRing.cast_mul d _ _ (hcf l m h) (hcg l m h)); rw [e3] at e; cases e
  refine oz.same ow (Holds.congr hz hy.has fun l m => ?_) hw
  rw [hy.val, List.map_map]
  refine List.map_congr_left fun c _ => ?_
  simp [mul_assoc]

/-- **C08/C09, limit of the claim.** With a non-zero default the sum is wrong at pairs stored nowhere: the
result keeps the default 1 where the sum of the two values read is 2. -/
theorem C08_nonzero_default_counterexample :
    ∃ a b s : Coefs ℚ, add [] a b = .ok s ∧ valueAt a 0 0 = [1] ∧ valueAt b 0 0 = [1] ∧ valueAt s 0 0 = [1] :=
  ⟨Coefs.new [1] .real, Coefs.new [1] .real, Coefs.new [1] .real, rfl, rfl, rfl, rfl⟩

/-! ### Non-vacuity of C08 - C12 -/

/-- A one-column real set storing `x` at (1, 0) and `y` at (2, -1). -/
private def ex (x y : ℚ) : Coefs ℚ := ⟨[0], .real, [((1, 0), [x]), ((2, -1), [y])], 2, -1⟩

private theorem ex_operand (x y : ℚ) : Operand .real 1 (ex x y) := by
  refine ⟨?_, by simp [ex, ZeroDefault], rfl, rfl⟩
  refine Reach.append (s := ⟨[0], .real, [((1, 0), [x])], 1, 0⟩) (.int 2) (.int (-1)) [y] ?_ rfl
  refine Reach.append (s := Coefs.new [0] .real) (.int 1) (.int 0) [x] ?_ rfl
  exact Reach.new _ _ (by simp [Elem.cast, castQ])

private def ex1 (x : ℚ) : Coefs ℚ := ⟨[0], .real, [((1, 1), [x])], 1, 0⟩

private theorem ex1_operand (x : ℚ) : Operand .real 1 (ex1 x) := by
  refine ⟨?_, by simp [ex1, ZeroDefault], rfl, rfl⟩
  refine Reach.append (s := Coefs.new [0] .real) (.int 1) (.int 1) [x] ?_ rfl
  exact Reach.new _ _ (by simp [Elem.cast, castQ])

example : ∃ s', add [(1, 1), (1, 0), (2, -1)] (ex 3 5) (ex1 7) = .ok s' ∧
    valueAt s' 2 (-1) = [5] ∧ valueAt s' 1 1 = [7] := by
  obtain ⟨s', e, _, h⟩ := C08_add_pointwise (by decide) (ex_operand 3 5) (ex1_operand 7)
    (ks := [(1, 1), (1, 0), (2, -1)]) ⟨by decide, by
      intro k
      simp only [ex, ex1, Coefs.keys, List.map_cons, List.map_nil, List.mem_append, List.mem_cons, List.not_mem_nil]
      tauto⟩
  refine ⟨s', e, ?_, ?_⟩
  · rw [h.val]; simp [valueAt_eq, ex, ex1, Coefs.getI, dictGet]
  · rw [h.val]; simp [valueAt_eq, ex, ex1, Coefs.getI, dictGet]

example : ∃ s', scale (ex 3 5) (fun l m => l + m) (-1) .real = .ok s' ∧ valueAt s' 2 (-1) = [5] ∧
    valueAt s' 1 0 = [3] := by
  obtain ⟨s', e, _, h⟩ := C12_scale_pointwise (ex_operand 3 5) (fun l m => (l + m : ℚ)) (-1) .real rfl
    (by intro l m _; simp [Elem.cast, castQ])
  refine ⟨s', e, ?_, ?_⟩
  · rw [h.val]; norm_num [valueAt_eq, ex, Coefs.getI, dictGet]
  · rw [h.val]; norm_num [valueAt_eq, ex, Coefs.getI, dictGet]

end Verif
