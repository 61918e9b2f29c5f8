import Verif.Lemmas.NdArray
import Verif.Lemmas.Zdi
import Verif.Model.ZdiArrays

/-!
# Property C101: the ZDI field functions on arrays of points
-/

namespace Verif
open Spec

namespace Spec

/-- The call returned an array of the shape of the azimuths, which holds the values of `f` at the single points. -/
def IsArrayOf (f : ℝ → ℝ → Res ℝ) (θ φ : Nd ℝ) (A : Res (Nd ℝ)) : Prop :=
  ∃ F, A = .ok F ∧ F.shape = φ.shape ∧ ∀ i, Inside φ.shape i → f (θ.entry i) (φ.val i) = .ok (F.val i)

end Spec

namespace Nd

theorem bshape_absorb {s t T : List ℕ} (h : bshape s t = some T) : bshape t T = some T := by
  induction s generalizing t T with
  | nil =>
    rw [bshape, Option.some_inj] at h
    rw [h, bshape_self]
  | cons a s ih =>
    cases t with
    | nil => rw [bshape]
    | cons b t =>
      rw [bshape] at h
      split_ifs at h with h1 h2 h3
      all_goals
        obtain ⟨T', hT, rfl⟩ := Option.map_eq_some_iff.1 h
        have := ih hT
      · subst h1; simp [bshape, this]
      · simp [bshape, this]
      · subst h3
        rw [bshape, if_neg (fun h => h1 h.symm), if_pos rfl, this]; rfl

theorem bshape_cons (n : ℕ) (s t : List ℕ) : bshape (n :: s) (n :: t) = (bshape s t).map (n :: ·) := by
  rw [bshape, if_pos rfl]

theorem inside_proj {s t : List ℕ} (h : StretchesTo s t) {i : List ℕ} (hi : Inside t i) : Inside s (proj s i) := by
  induction s generalizing t i with
  | nil => exact .nil
  | cons a s ih =>
    cases hi with
    | nil => exact absurd h.1 (by simp)
    | @cons b k t i hk hi =>
      refine .cons ?_ (ih (t := t) ⟨by simpa using h.1, fun j h1 h2 => ?_⟩ hi)
      · dsimp only
        rcases h.2 0 (by simp) (by simp) with h0 | h0
        · have h0 : a = b := h0
          split_ifs <;> omega
        · have h0 : a = 1 := h0
          rw [if_pos h0]; omega
      · exact h.2 (j + 1) (by simpa using h1) (by simpa using h2)

end Nd

namespace Zdi
open Nd

section
variable {term : ZRow → ℝ → ℝ → ℂ} {θ φ : Nd ℝ}

theorem loopArr_ok (hs : bshape θ.shape φ.shape = some φ.shape) (z : Zdi) {acc : Nd ℂ} (ha : acc.shape = φ.shape) :
    ∃ f, loopArr term θ φ z acc = .ok f ∧ f.shape = φ.shape ∧
      ∀ i, Inside φ.shape i → f.val i = acc.val i + (z.map fun r => term r (θ.entry i) (φ.val i)).sum := by
  induction z generalizing acc with
  | nil => exact ⟨acc, rfl, ha, fun i _ => by simp⟩
  | cons r z ih =>
    have e1 := zip_ok (term r) hs
    have e2 := inplace_ok (fun x y : ℂ => x + y) (x := acc) (y := ⟨φ.shape, fun i => term r (θ.entry i) (φ.entry i)⟩)
      (by rw [ha]; exact bshape_self _)
    obtain ⟨f, e3, s3, v3⟩ := ih (acc := ⟨acc.shape, fun i => acc.entry i
      + (⟨φ.shape, fun i => term r (θ.entry i) (φ.entry i)⟩ : Nd ℂ).entry i⟩) ha
    refine ⟨f, ?_, s3, fun i hi => ?_⟩
    · rw [loopArr]
      simp only [bind, Except.bind, e1, e2, e3]
    · rw [v3 i hi, List.map_cons, List.sum_cons, ← add_assoc]
      dsimp only
      rw [Nd.entry_self acc (by rwa [ha]), Nd.entry_self ⟨φ.shape, fun i => term r (θ.entry i) (φ.entry i)⟩ hi]
      dsimp only
      rw [Nd.entry_self φ hi]

theorem loopArr_error (hs : bshape θ.shape φ.shape ≠ some φ.shape) {z : Zdi} (hz : z ≠ []) {acc : Nd ℂ}
    (ha : acc.shape = φ.shape) : loopArr term θ φ z acc = .error .value := by
  obtain ⟨r, z, rfl⟩ := List.exists_cons_of_ne_nil hz
  rw [loopArr]
  rcases h : bshape θ.shape φ.shape with _ | T
  · simp only [bind, Except.bind, zip_none (term r) h]
  · have e2 := inplace_error (fun x y : ℂ => x + y) (x := acc) (y := ⟨T, fun i => term r (θ.entry i) (φ.entry i)⟩)
      (by
        rw [ha, bshape_absorb h]
        intro hT
        exact hs (h.trans hT))
    simp only [bind, Except.bind, zip_ok (term r) h, e2]

theorem fieldArr_ok (hs : StretchesTo θ.shape φ.shape) (z : Zdi) :
    ∃ F, fieldArr term z θ φ = .ok F ∧ F.shape = φ.shape ∧
      ∀ i, Inside φ.shape i → F.val i = ((z.map fun r => term r (θ.entry i) (φ.val i)).sum).re := by
  obtain ⟨f, e, s, v⟩ := loopArr_ok (term := term) ((bshape_right_iff _ _).2 hs) z (acc := fillLike 0 φ) rfl
  refine ⟨f.map Complex.re, by simp only [fieldArr, bind, Except.bind, e]; rfl, s, fun i hi => ?_⟩
  have := v i hi
  simp only [Nd.map, this, fillLike, zero_add]

theorem fieldArr_error (hs : ¬ StretchesTo θ.shape φ.shape) {z : Zdi} (hz : z ≠ []) :
    fieldArr term z θ φ = .error .value := by
  rw [fieldArr, loopArr_error (fun h => hs ((bshape_right_iff _ _).1 h)) hz rfl]
  rfl

theorem fieldArr_nil (θ φ : Nd ℝ) : fieldArr term [] θ φ = .ok ⟨φ.shape, fun _ => 0⟩ := rfl

end

/-- Whether `calculate_lpmn` works does not depend on the angle. -/
theorem calcLpmn_cases (lm : List (ℤ × ℤ)) : (∃ e, ∀ θ, calcLpmn lm θ = .error e) ∨
    ∃ g : ℝ → List (ℝ × ℝ), ∀ θ, calcLpmn lm θ = .ok (g θ) ∧ (g θ).length = lm.length := by
  unfold calcLpmn
  rcases listMax (lm.map Prod.fst) with _ | L
  · exact Or.inl ⟨.value, fun _ => rfl⟩
  rcases listMax (lm.map Prod.snd) with _ | M
  · exact Or.inl ⟨.value, fun _ => rfl⟩
  dsimp only
  split_ifs with h
  · exact Or.inl ⟨.value, fun _ => rfl⟩
  induction lm with
  | nil => exact Or.inr ⟨fun _ => [], fun _ => ⟨rfl, rfl⟩⟩
  | cons k lm ih =>
    rcases h1 : npIndex (M + 1) k.2 with e | j
    · refine Or.inl ⟨e, fun θ => ?_⟩
      rw [List.mapM_cons, h1]; rfl
    rcases h2 : npIndex (L + 1) k.1 with e | l
    · refine Or.inl ⟨e, fun θ => ?_⟩
      rw [List.mapM_cons, h1, h2]; rfl
    rcases ih with ⟨e, he⟩ | ⟨g, hg⟩
    · refine Or.inl ⟨e, fun θ => ?_⟩
      rw [List.mapM_cons, h1, h2, he θ]; rfl
    · refine Or.inr ⟨fun θ => (legendreP l j (Real.cos θ), deriv (legendreP l j) (Real.cos θ) * -Real.sin θ) :: g θ,
        fun θ => ⟨?_, by simp [(hg θ).2]⟩⟩
      rw [List.mapM_cons, h1, h2, (hg θ).1]; rfl

/-- The getter with the rows along the last axis, at one point. -/
noncomputable def lastAxis (c : ZRow → ℂ) (z : Zdi) (θ φ : ℝ) : Res ℝ := do
  let pd ← calcLpmn z.lm θ
  pure ((List.zipWith (fun r (p : ℝ × ℝ) => c r * cLm r.l r.m / (r.l + 1) * expi r.m φ * (-p.2 : ℝ)) z pd).sum).re

private theorem zipWith_range {β γ : Type} (f : β → γ → ℂ) (b : β) (c : γ) (xs : List β) (ys : List γ)
    (h : ys.length = xs.length) :
    (List.zipWith f xs ys).sum = ((List.range xs.length).map fun k => f (xs.getD k b) (ys.getD k c)).sum := by
  congr 1
  apply List.ext_getElem
  · simp [h]
  · intro n h1 h2
    simp only [List.length_zipWith, h, min_self] at h1
    simp [List.getD_eq_getElem?_getD, h1, h]

theorem mapRes_error {α β : Type} {dflt : β} {f : α → Res β} {x : Nd α} {e : Err} (h : ∀ a, f a = .error e)
    (hx : ∃ i, Inside x.shape i) : mapRes dflt f x = .error e := by
  obtain ⟨i, hi⟩ := hx
  rw [mapRes]
  rcases hq : indices x.shape with _ | ⟨j, js⟩
  · have := (mem_indices _ _).2 hi
    rw [hq] at this; simp at this
  · rw [List.mapM_cons, h]; rfl

theorem bshape_newaxis (n : ℕ) (s : List ℕ) : bshape [n] (1 :: s) = some (n :: s) := by
  rw [bshape]
  split_ifs with h h1
  · rfl
  · rfl
  · exact absurd rfl h1

theorem bshape_last (n : ℕ) (s : List ℕ) : bshape [n] (n :: s) = some (n :: s) := by
  rw [bshape, if_pos rfl]; rfl

private theorem proj_head {n k : ℕ} (s i : List ℕ) (hk : k < n) : proj (n :: s) (k :: i) = k :: proj s i := by
  simp only [proj, List.zipWith_cons_cons, List.cons.injEq, and_true]
  split_ifs <;> omega

theorem lastAxisArr_ok (c : ZRow → ℂ) (z : Zdi) {g : ℝ → List (ℝ × ℝ)}
    (hg : ∀ t, calcLpmn z.lm t = .ok (g t) ∧ (g t).length = z.lm.length) (θ φ : Nd ℝ) (hs : StretchesTo θ.shape φ.shape) :
    ∃ F, lastAxisArr c z θ φ = .ok F ∧ F.shape = φ.shape ∧
      ∀ i, Inside φ.shape i → lastAxis c z (θ.entry i) (φ.val i) = .ok (F.val i) := by
  obtain ⟨pd, e1, s1, v1⟩ := mapRes_ok (dflt := []) (f := calcLpmn z.lm) (x := θ) (g := g) fun i _ => (hg _).1
  set d : Nd ℝ := ⟨z.length :: θ.shape, fun i => ((pd.val i.tail).getD (i.headD 0) (0, 0)).2⟩ with hd
  have e2 : derivArr z θ = .ok d := by simp only [derivArr, bind, Except.bind, e1]; rfl
  set ms : Nd ℤ := ⟨[z.length], fun i => (z.map ZRow.m).getD (i.headD 0) 0⟩ with hms
  have e3 := zip_ok (fun (m : ℤ) (φ : ℝ) => expi m φ) (x := ms) (y := newaxis φ) (bshape_newaxis z.length φ.shape)
  set E : Nd ℂ := ⟨z.length :: φ.shape, fun i => expi (ms.entry i) ((newaxis φ).entry i)⟩ with hE
  set C : Nd ℂ := rowArr (z.map fun r => c r * cLm r.l r.m / (r.l + 1)) with hC
  have hCs : C.shape = [z.length] := by simp [hC, rowArr]
  have e4 := zip_ok (fun x y : ℂ => x * y) (x := C) (y := E) (s := z.length :: φ.shape) (by rw [hCs]; exact bshape_last _ _)
  set f : Nd ℂ := ⟨z.length :: φ.shape, fun i => C.entry i * E.entry i⟩ with hf
  have e5 := inplace_ok (fun (x : ℂ) (y : ℝ) => x * (-y : ℝ)) (x := f) (y := d) (by
    change bshape (z.length :: φ.shape) (z.length :: θ.shape) = some (z.length :: φ.shape)
    rw [bshape_cons, bshape_comm, (bshape_right_iff _ _).2 hs]; rfl)
  refine ⟨(sumLast ⟨f.shape, fun i => f.entry i * (-(d.entry i) : ℝ)⟩).map Complex.re, ?_, rfl, fun i hi => ?_⟩
  · simp only [lastAxisArr, bind, Except.bind, e2, ← hms, e3, ← hC, e4, e5]; rfl
  · simp only [lastAxis, bind, Except.bind, (hg _).1, pure, Except.pure, Except.ok.injEq]
    have hin := inside_proj hs hi
    have hlen : (g (θ.entry i)).length = z.length := by rw [(hg _).2, lm, List.length_map]
    rw [zipWith_range _ ⟨0, 0, 0, 0, 0⟩ (0, 0) _ _ hlen]
    simp only [Nd.map, sumLast]
    congr 2
    refine List.map_congr_left fun k hk => ?_
    have hk : k < z.length := List.mem_range.1 hk
    have hki : Inside (z.length :: φ.shape) (k :: i) := .cons hk hi
    rw [Nd.entry_self f hki]
    have hde : d.entry (k :: i) = ((g (θ.entry i)).getD k (0, 0)).2 := by
      rw [Nd.entry, hd]
      dsimp only
      rw [proj_head _ _ hk, List.tail_cons, List.headD_cons, v1 _ hin]
      rfl
    have hme : ms.entry (k :: i) = (z.getD k ⟨0, 0, 0, 0, 0⟩).m := by
      rw [Nd.entry, hms]
      dsimp only
      rw [proj_head _ _ hk, List.headD_cons]
      simp [List.getD_eq_getElem?_getD, hk]
    have hne : (newaxis φ).entry (k :: i) = φ.val i := by
      rw [Nd.entry]
      have : proj (newaxis φ).shape (k :: i) = 0 :: proj φ.shape i := by
        simp [newaxis, proj]
      rw [this, proj_self hi]
      rfl
    have hce : C.entry (k :: i) = (fun r : ZRow => c r * cLm r.l r.m / (r.l + 1)) (z.getD k ⟨0, 0, 0, 0, 0⟩) := by
      rw [Nd.entry, hCs, proj_head _ _ hk, hC]
      simp [rowArr, List.getD_eq_getElem?_getD, hk]
    rw [hde]
    change _ = C.entry (k :: i) * E.entry (k :: i) * _
    rw [Nd.entry_self E hki, hce]
    change _ = _ * expi (ms.entry (k :: i)) ((newaxis φ).entry (k :: i)) * _
    rw [hme, hne]

theorem lastAxisArr_error (c : ZRow → ℂ) (z : Zdi) (θ φ : Nd ℝ) (hs : ¬ StretchesTo θ.shape φ.shape) :
    ∃ e, lastAxisArr c z θ φ = .error e := by
  rcases h : derivArr z θ with e | d
  · exact ⟨e, by simp only [lastAxisArr, bind, Except.bind, h]⟩
  have hd : d.shape = z.length :: θ.shape := by
    rcases h1 : mapRes [] (calcLpmn z.lm) θ with e | pd
    · simp only [derivArr, bind, Except.bind, h1] at h
      cases h
    · simp only [derivArr, bind, Except.bind, h1, pure, Except.pure, Except.ok.injEq] at h
      rw [← h]
  set ms : Nd ℤ := ⟨[z.length], fun i => (z.map ZRow.m).getD (i.headD 0) 0⟩ with hms
  have e3 := zip_ok (fun (m : ℤ) (φ : ℝ) => expi m φ) (x := ms) (y := newaxis φ) (bshape_newaxis z.length φ.shape)
  set E : Nd ℂ := ⟨z.length :: φ.shape, fun i => expi (ms.entry i) ((newaxis φ).entry i)⟩ with hE
  set C : Nd ℂ := rowArr (z.map fun r => c r * cLm r.l r.m / (r.l + 1)) with hC
  have hCs : C.shape = [z.length] := by simp [hC, rowArr]
  have e4 := zip_ok (fun x y : ℂ => x * y) (x := C) (y := E) (s := z.length :: φ.shape) (by rw [hCs]; exact bshape_last _ _)
  set f : Nd ℂ := ⟨z.length :: φ.shape, fun i => C.entry i * E.entry i⟩ with hf
  have e5 := inplace_error (fun (x : ℂ) (y : ℝ) => x * (-y : ℝ)) (x := f) (y := d) (by
    rw [hd]
    change bshape (z.length :: φ.shape) (z.length :: θ.shape) ≠ some (z.length :: φ.shape)
    rw [bshape_cons, bshape_comm]
    intro hq
    obtain ⟨T, hT, hTe⟩ := Option.map_eq_some_iff.1 hq
    rw [List.cons.injEq] at hTe
    rw [hTe.2] at hT
    exact hs ((bshape_right_iff _ _).1 hT))
  exact ⟨.value, by simp only [lastAxisArr, bind, Except.bind, h, ← hms, e3, ← hC, e4, e5]⟩

theorem lastAxis_cases (c : ZRow → ℂ) (z : Zdi) (θ φ : Nd ℝ) (hs : StretchesTo θ.shape φ.shape) :
    (∃ F, lastAxisArr c z θ φ = .ok F ∧ F.shape = φ.shape ∧
      ∀ i, Inside φ.shape i → lastAxis c z (θ.entry i) (φ.val i) = .ok (F.val i)) ∨
    ((∃ i, Inside φ.shape i) → ∃ e, lastAxisArr c z θ φ = .error e ∧ ∀ t p, lastAxis c z t p = .error e) := by
  rcases calcLpmn_cases z.lm with ⟨e, he⟩ | ⟨g, hg⟩
  · refine Or.inr ?_
    rintro ⟨i, hi⟩
    refine ⟨e, ?_, fun t p => ?_⟩
    · simp only [lastAxisArr, derivArr, bind, Except.bind, mapRes_error he ⟨_, inside_proj hs hi⟩]
    · simp only [lastAxis, bind, Except.bind, he]
  · exact Or.inl (lastAxisArr_ok c z hg θ φ hs)

theorem addArr_ok {f g : ℝ → ℝ → Res ℝ} {θ φ : Nd ℝ} {A B : Res (Nd ℝ)} (hA : IsArrayOf f θ φ A) (hB : IsArrayOf g θ φ B)
    {k : ℝ → ℝ → Res ℝ} (hk : ∀ t p a b, f t p = .ok a → g t p = .ok b → k t p = .ok (a + b)) :
    IsArrayOf k θ φ (addArr A B) := by
  obtain ⟨F, rfl, sF, vF⟩ := hA
  obtain ⟨G, rfl, sG, vG⟩ := hB
  have e := zip_ok (fun x y : ℝ => x + y) (x := F) (y := G) (s := φ.shape) (by rw [sF, sG, bshape_self])
  refine ⟨⟨φ.shape, fun i => F.entry i + G.entry i⟩, by simp only [addArr, bind, Except.bind, e], rfl, fun i hi => ?_⟩
  dsimp only
  rw [Nd.entry_self F (by rwa [sF]), Nd.entry_self G (by rwa [sG])]
  exact hk _ _ _ _ (vF i hi) (vG i hi)

theorem addArr_left {A B : Res (Nd ℝ)} {e : Err} (h : A = .error e) : addArr A B = .error e := by rw [h]; rfl

theorem addArr_right {A B : Res (Nd ℝ)} {e : Err} {F : Nd ℝ} (h : A = .ok F) (h' : B = .error e) : addArr A B = .error e := by
  rw [h, h']; rfl

theorem usable_calc {z : Zdi} (h : ∃ t p v, polarPoloidal z t p = .ok v) :
    ∃ g : ℝ → List (ℝ × ℝ), ∀ θ, calcLpmn z.lm θ = .ok (g θ) ∧ (g θ).length = z.lm.length := by
  obtain ⟨t, p, v, h⟩ := h
  rcases calcLpmn_cases z.lm with ⟨e, he⟩ | h'
  · simp only [polarPoloidal, bind, Except.bind, he] at h
    cases h
  · exact h'

theorem failing_calc {z : Zdi} {e : Err} (h : ∃ t p, polarPoloidal z t p = .error e) : ∀ θ, calcLpmn z.lm θ = .error e := by
  obtain ⟨t, p, h⟩ := h
  rcases calcLpmn_cases z.lm with ⟨e', he⟩ | ⟨g, hg⟩
  · simp only [polarPoloidal, bind, Except.bind, he, Except.error.injEq] at h
    rw [← h]; exact he
  · simp only [polarPoloidal, bind, Except.bind, (hg _).1] at h
    cases h

theorem lastAxis_fail {c : ZRow → ℂ} {z : Zdi} {e : Err} (he : ∀ θ, calcLpmn z.lm θ = .error e) {θ φ : Nd ℝ}
    (hs : StretchesTo θ.shape φ.shape) (hi : ∃ i, Inside φ.shape i) : lastAxisArr c z θ φ = .error e := by
  obtain ⟨i, hi⟩ := hi
  simp only [lastAxisArr, derivArr, bind, Except.bind, mapRes_error he ⟨_, inside_proj hs hi⟩]

theorem fieldArr_is {term : ZRow → ℝ → ℝ → ℂ} {z : Zdi} {θ φ : Nd ℝ} (hs : StretchesTo θ.shape φ.shape) :
    IsArrayOf (fun t p => .ok ((z.map fun r => term r t p).sum).re) θ φ (fieldArr term z θ φ) := by
  obtain ⟨F, e, s, v⟩ := fieldArr_ok (term := term) hs z
  exact ⟨F, e, s, fun i hi => by rw [v i hi]⟩

end Zdi

open Zdi Nd

/-- **C101.** On arrays of points of any shape the getters that loop over the rows return, at every index, the value at the
single point; the polar angles are an array of the shape of the azimuths or one that numpy can stretch to it. -/
theorem C101_loops (z : Zdi) (θ φ : Nd ℝ) (hs : StretchesTo θ.shape φ.shape) :
    IsArrayOf (fun t p => .ok (radialPoloidal z t p)) θ φ (radialPoloidalArr z θ φ) ∧
    IsArrayOf (fun t p => .ok (radialToroidal z t p)) θ φ (radialToroidalArr z θ φ) ∧
    IsArrayOf (fun t p => .ok (radial z t p)) θ φ (radialArr z θ φ) ∧
    IsArrayOf (fun t p => .ok (azimuthalPoloidal z t p)) θ φ (azimuthalPoloidalArr z θ φ) ∧
    IsArrayOf (fun t p => .ok (polarToroidal z t p)) θ φ (polarToroidalArr z θ φ) := by
  have h1 : IsArrayOf (fun t p => .ok (radialPoloidal z t p)) θ φ (radialPoloidalArr z θ φ) := fieldArr_is hs
  have h2 : IsArrayOf (fun t p => .ok (radialToroidal z t p)) θ φ (radialToroidalArr z θ φ) :=
    ⟨_, rfl, rfl, fun _ _ => rfl⟩
  refine ⟨h1, h2, addArr_ok h1 h2 fun t p a b ha hb => ?_, fieldArr_is hs, fieldArr_is hs⟩
  rw [Except.ok.injEq] at ha hb
  rw [← ha, ← hb]; rfl

/-- **C101.** So do the getters that put the rows along a last axis, the sums and the field strength, for every magnetogram
whose polar poloidal field can be evaluated at some point. -/
theorem C101_sums (z : Zdi) (h : ∃ t p v, polarPoloidal z t p = .ok v) (θ φ : Nd ℝ) (hs : StretchesTo θ.shape φ.shape) :
    IsArrayOf (polarPoloidal z) θ φ (polarPoloidalArr z θ φ) ∧
    IsArrayOf (azimuthalToroidal z) θ φ (azimuthalToroidalArr z θ φ) ∧
    IsArrayOf (polar z) θ φ (polarArr z θ φ) ∧
    IsArrayOf (azimuthal z) θ φ (azimuthalArr z θ φ) ∧
    IsArrayOf (strength z) θ φ (strengthArr z θ φ) := by
  obtain ⟨g, hg⟩ := usable_calc h
  obtain ⟨-, -, hr, hap, hpt⟩ := C101_loops z θ φ hs
  have h1 : IsArrayOf (polarPoloidal z) θ φ (polarPoloidalArr z θ φ) := lastAxisArr_ok ZRow.b z hg θ φ hs
  have h2 : IsArrayOf (azimuthalToroidal z) θ φ (azimuthalToroidalArr z θ φ) := lastAxisArr_ok ZRow.g z hg θ φ hs
  have h3 : IsArrayOf (polar z) θ φ (polarArr z θ φ) := addArr_ok h1 hpt fun t p a b ha hb => by
    rw [Except.ok.injEq] at hb
    simp only [polar, bind, Except.bind, ha, hb, pure, Except.pure]
  have h4 : IsArrayOf (azimuthal z) θ φ (azimuthalArr z θ φ) := addArr_ok hap h2 fun t p a b ha hb => by
    rw [Except.ok.injEq] at ha
    simp only [azimuthal, bind, Except.bind, ha, hb, pure, Except.pure]
  refine ⟨h1, h2, h3, h4, ?_⟩
  obtain ⟨R, eR, sR, vR⟩ := hr
  obtain ⟨P, eP, sP, vP⟩ := h3
  obtain ⟨A, eA, sA, vA⟩ := h4
  have q1 := zip_ok (fun x y : ℝ => x ^ 2 + y ^ 2) (x := R) (y := P) (s := φ.shape) (by rw [sR, sP, bshape_self])
  have q2 := zip_ok (fun x y : ℝ => Real.sqrt (x + y ^ 2)) (x := ⟨φ.shape, fun i => R.entry i ^ 2 + P.entry i ^ 2⟩) (y := A)
    (s := φ.shape) (by rw [sA, bshape_self])
  refine ⟨⟨φ.shape, fun i => Real.sqrt ((⟨φ.shape, fun i => R.entry i ^ 2 + P.entry i ^ 2⟩ : Nd ℝ).entry i + A.entry i ^ 2)⟩,
    by simp only [strengthArr, bind, Except.bind, eR, eP, eA, q1, q2], rfl, fun i hi => ?_⟩
  have e := vR i hi
  rw [Except.ok.injEq] at e
  simp only [strength, bind, Except.bind, vP i hi, vA i hi, e, pure, Except.pure]
  rw [Nd.entry_self ⟨φ.shape, fun i => R.entry i ^ 2 + P.entry i ^ 2⟩ hi, Nd.entry_self A (by rwa [sA])]
  dsimp only
  rw [Nd.entry_self R (by rwa [sR]), Nd.entry_self P (by rwa [sP])]

/-- **C101.** For the other magnetograms (no rows, orders or degrees that cannot be looked up) these getters raise the same
exception on every array with at least one point as at every single point. -/
theorem C101_fails (z : Zdi) (e : Err) (h : ∃ t p, polarPoloidal z t p = .error e) (θ φ : Nd ℝ)
    (hs : StretchesTo θ.shape φ.shape) (hi : ∃ i, Inside φ.shape i) :
    polarPoloidalArr z θ φ = .error e ∧ azimuthalToroidalArr z θ φ = .error e ∧ polarArr z θ φ = .error e ∧
    azimuthalArr z θ φ = .error e ∧ strengthArr z θ φ = .error e ∧ cartesianArr z θ φ = .error e ∧
    ∀ t p, polar z t p = .error e ∧ azimuthal z t p = .error e ∧ strength z t p = .error e := by
  have he := failing_calc h
  obtain ⟨-, -, ⟨R, hR, -⟩, ⟨A, hA, -⟩, -⟩ := C101_loops z θ φ hs
  have h1 : polarPoloidalArr z θ φ = .error e := lastAxis_fail he hs hi
  have h2 : azimuthalToroidalArr z θ φ = .error e := lastAxis_fail he hs hi
  have h3 : polarArr z θ φ = .error e := addArr_left h1
  have h4 : ∀ t p, polar z t p = .error e := fun t p => by simp only [polar, polarPoloidal, bind, Except.bind, he]
  refine ⟨h1, h2, h3, addArr_right hA h2, ?_, ?_, fun t p => ⟨h4 t p, ?_, ?_⟩⟩
  · simp only [strengthArr, bind, Except.bind, hR, h3]
  · simp only [cartesianArr, bind, Except.bind, hR, h3]
  · simp only [azimuthal, azimuthalToroidal, bind, Except.bind, he]
  · simp only [strength, bind, Except.bind, h4]

/-- **C101.** Polar angles that cannot be stretched to the shape of the azimuths are refused by every getter but the radial
toroidal one, even when numpy could broadcast the two arrays to a common shape. -/
theorem C101_refused (z : Zdi) (hz : z ≠ []) (θ φ : Nd ℝ) (hs : ¬ StretchesTo θ.shape φ.shape) :
    radialPoloidalArr z θ φ = .error .value ∧ radialArr z θ φ = .error .value ∧
    azimuthalPoloidalArr z θ φ = .error .value ∧ azimuthalArr z θ φ = .error .value ∧
    polarToroidalArr z θ φ = .error .value ∧ strengthArr z θ φ = .error .value ∧ cartesianArr z θ φ = .error .value ∧
    (∃ e, polarPoloidalArr z θ φ = .error e) ∧ (∃ e, azimuthalToroidalArr z θ φ = .error e) ∧
    ∃ e, polarArr z θ φ = .error e := by
  have h1 : radialPoloidalArr z θ φ = .error .value := fieldArr_error hs hz
  have h2 : radialArr z θ φ = .error .value := addArr_left h1
  have h3 : azimuthalPoloidalArr z θ φ = .error .value := fieldArr_error hs hz
  obtain ⟨e, he⟩ := lastAxisArr_error ZRow.b z θ φ hs
  refine ⟨h1, h2, h3, addArr_left h3, fieldArr_error hs hz, ?_, ?_, ⟨e, he⟩, lastAxisArr_error ZRow.g z θ φ hs, e, addArr_left he⟩
  · simp only [strengthArr, bind, Except.bind, h2]
  · simp only [cartesianArr, bind, Except.bind, h2]

/-- **C101.** Without rows the radial field is zero in the shape of the azimuths, whatever the polar angles, and the other
components raise ValueError. -/
theorem C101_no_rows (θ φ : Nd ℝ) :
    radialArr [] θ φ = .ok ⟨φ.shape, fun _ => 0⟩ ∧
    ((∃ i, Inside θ.shape i) → polarArr [] θ φ = .error .value ∧ azimuthalArr [] θ φ = .error .value) := by
  have he : ∀ t, calcLpmn (lm []) t = .error .value := fun t => rfl
  refine ⟨?_, fun hi => ?_⟩
  · have h : radialPoloidalArr [] θ φ = .ok ⟨φ.shape, fun _ => 0⟩ := rfl
    have e := zip_ok (fun x y : ℝ => x + y) (x := ⟨φ.shape, fun _ => 0⟩)
      (y := (Nd.fillLike (0 : ℂ) φ).map Complex.re) (s := φ.shape) (bshape_self _)
    rw [radialArr, h]
    simp only [addArr, radialToroidalArr, bind, Except.bind, e]
    simp [Nd.entry, Nd.map, Nd.fillLike]
  · have h : ∀ c, lastAxisArr c [] θ φ = .error .value := fun c => by
      simp only [lastAxisArr, derivArr, bind, Except.bind, mapRes_error he hi]
    exact ⟨addArr_left (h _), addArr_right (F := ⟨φ.shape, fun _ => 0⟩) rfl (h _)⟩

/-- **C101.** The cartesian field of arrays of equal shapes is pointwise as well. -/
theorem C101_cartesian (z : Zdi) (h : ∃ t p v, polarPoloidal z t p = .ok v) (θ φ : Nd ℝ) (hs : θ.shape = φ.shape) :
    ∃ F, cartesianArr z θ φ = .ok F ∧ F.shape = θ.shape ∧
      ∀ i, Inside θ.shape i → cartesian z (θ.val i) (φ.val i) = .ok (F.val i) := by
  have hst : StretchesTo θ.shape φ.shape := by rw [← bshape_right_iff, hs, bshape_self]
  obtain ⟨-, -, ⟨R, eR, sR, vR⟩, -⟩ := C101_loops z θ φ hst
  obtain ⟨-, -, ⟨P, eP, sP, vP⟩, ⟨A, eA, sA, vA⟩, -⟩ := C101_sums z h θ φ hst
  rw [← hs] at sR sP sA vR vP vA
  refine ⟨Nd.reshape 0 θ.shape ((indices θ.shape).map fun i =>
    toCartesian (θ.val i) (φ.val i) (R.val i) (P.val i) (A.val i)), ?_, rfl, fun i hi => ?_⟩
  · simp only [cartesianArr, bind, Except.bind, eR, eP, eA, helperArr, resAssert, if_pos sR, if_pos sP, if_pos sA, pure,
      Except.pure, Nd.flatten, sR, sP, sA, ← hs, List.zip_map', List.map_map]
    rfl
  · have e1 := vR i hi
    have e2 := vP i hi
    have e3 := vA i hi
    rw [Nd.entry_self θ hi] at e1 e2 e3
    rw [Except.ok.injEq] at e1
    simp only [cartesian, bind, Except.bind, e1, e2, e3, pure, Except.pure]
    simp only [Nd.reshape, List.getD_eq_getElem?_getD, List.getElem?_map, indices_flatIndex hi, Option.map_some,
      Option.getD_some]

/-- **C101.** Arrays of different shapes are refused by the cartesian field, also where the components accept them. -/
theorem C101_cartesian_shapes (z : Zdi) (θ φ : Nd ℝ) (hs : θ.shape ≠ φ.shape) :
    ∃ e, cartesianArr z θ φ = .error e := by
  rcases eR : radialArr z θ φ with e | R
  · exact ⟨e, by simp only [cartesianArr, bind, Except.bind, eR]⟩
  rcases eP : polarArr z θ φ with e | P
  · exact ⟨e, by simp only [cartesianArr, bind, Except.bind, eR, eP]⟩
  rcases eA : azimuthalArr z θ φ with e | A
  · exact ⟨e, by simp only [cartesianArr, bind, Except.bind, eR, eP, eA]⟩
  have hR : R.shape = φ.shape := by
    by_cases hst : StretchesTo θ.shape φ.shape
    · obtain ⟨-, -, ⟨R', h, sR, -⟩, -⟩ := C101_loops z θ φ hst
      rw [eR, Except.ok.injEq] at h
      rw [h, sR]
    · by_cases hz : z = []
      · subst hz
        rw [(C101_no_rows θ φ).1, Except.ok.injEq] at eR
        rw [← eR]
      · rw [(C101_refused z hz θ φ hst).2.1] at eR
        cases eR
  refine ⟨.assertion, ?_⟩
  have : ¬ R.shape = θ.shape := fun h => hs (by rw [← h, hR])
  simp only [cartesianArr, bind, Except.bind, eR, eP, eA, helperArr, resAssert, if_neg this]
  rfl

/-- **C101.** The cartesian toroidal field raises on arrays too. -/
theorem C101_toroidal_raises (z : Zdi) (θ φ : Nd ℝ) : ∃ e, cartesianToroidalArr z θ φ = .error e := by
  rcases e : polarToroidalArr z θ φ with x | F
  · exact ⟨x, by simp only [cartesianToroidalArr, radialToroidalArr, bind, Except.bind, e]⟩
  · exact ⟨.assertion, by simp only [cartesianToroidalArr, radialToroidalArr, bind, Except.bind, e]⟩

/-- **C101.** (Against the expectation that the two angles are treated alike.) One polar angle with many azimuths is
accepted; one azimuth with many polar angles, or a column of polar angles with a row of azimuths, is refused. -/
theorem C101_asymmetric (z : Zdi) (hz : z ≠ []) (n k : ℕ) (hn : n ≠ 1) (x : ℝ) (f : List ℕ → ℝ) :
    (∃ F, radialArr z ⟨[], fun _ => x⟩ ⟨[n], f⟩ = .ok F) ∧
    radialArr z ⟨[n], f⟩ ⟨[], fun _ => x⟩ = .error .value ∧
    radialArr z ⟨[1, n], f⟩ ⟨[k, 1], f⟩ = .error .value := by
  refine ⟨?_, (C101_refused z hz _ _ fun h => ?_).2.1, (C101_refused z hz _ _ fun h => ?_).2.1⟩
  · obtain ⟨-, -, ⟨F, h, -⟩, -⟩ := C101_loops z ⟨[], fun _ => x⟩ ⟨[n], f⟩ ⟨by simp, fun k hk _ => by simp at hk⟩
    exact ⟨F, h⟩
  · exact absurd h.1 (by simp)
  · rcases h.2 1 (by simp) (by simp) with h | h <;> exact hn (by simpa using h)

/-! ### Cases meeting the hypotheses -/

private noncomputable def exRows : Zdi := [⟨1, 0, 2, 3, 4⟩, ⟨2, 1, Complex.I, 0, 1⟩]

private theorem exRows_usable : ∃ t p v, polarPoloidal exRows t p = .ok v := by
  have h := calcLpmn_ok (lm := exRows.lm) (by simp [exRows, lm]) (by simp [exRows, lm]) 1
  exact ⟨1, 0, _, by simp only [polarPoloidal, bind, Except.bind, h]; rfl⟩

example : IsArrayOf (strength exRows) ⟨[1, 2], fun i => i.length⟩ ⟨[3, 2], fun i => i.headD 0⟩
    (strengthArr exRows ⟨[1, 2], fun i => i.length⟩ ⟨[3, 2], fun i => i.headD 0⟩) :=
  (C101_sums _ exRows_usable _ _ ((bshape_right_iff _ _).1 (by decide))).2.2.2.2

example : ∃ F, cartesianArr exRows ⟨[3, 2], fun i => i.length⟩ ⟨[3, 2], fun i => i.headD 0⟩ = .ok F := by
  obtain ⟨F, h, -⟩ := C101_cartesian _ exRows_usable ⟨[3, 2], fun i => i.length⟩ ⟨[3, 2], fun i => i.headD 0⟩ rfl
  exact ⟨F, h⟩

/-- An order below what the tables of the largest order hold. -/
example : strengthArr [⟨2, -2, 1, 1, 1⟩, ⟨1, 0, 1, 1, 1⟩] ⟨[], fun _ => 1⟩ ⟨[4], fun _ => 2⟩ = .error .index :=
  (C101_fails _ .index ⟨1, 1, rfl⟩ _ ⟨[4], fun _ => 2⟩ ((bshape_right_iff _ _).1 (by decide))
    ⟨[0], .cons (by norm_num) .nil⟩).2.2.2.2.1

end Verif
