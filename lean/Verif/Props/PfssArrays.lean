import Verif.Lemmas.NdArray
import Verif.Model.PfssArrays
import Verif.Props.Pfss
import Verif.Props.ContainerMore

/-!
# Property C100: evaluation on arrays of points, and sets with several columns
-/

namespace Verif
open Spec Legendre Coefs Pfss

namespace Spec

/-- A set that is usable for the evaluation but may have several columns. -/
structure ColumnSet (s : Coefs ℂ) : Prop where
  wf : WellFormed s
  nonempty : ∃ l m : ℤ, stores s l m
  orders : ∀ l m : ℤ, stores s l m → 0 ≤ m

end Spec

namespace Nd
variable {α β γ : Type}

theorem zip_same (f : α → β → γ) {x : Nd α} {y : Nd β} {S : List ℕ} (hx : x.shape = S) (hy : y.shape = S) :
    ∃ z, zip f x y = .ok z ∧ z.shape = S ∧ ∀ i, Inside S i → z.val i = f (x.val i) (y.val i) := by
  refine ⟨_, zip_ok f (s := S) (by rw [hx, hy, bshape_self]), rfl, fun i hi => ?_⟩
  dsimp only
  rw [x.entry_self (by rwa [hx]), y.entry_self (by rwa [hy])]

theorem inplace_same (f : α → β → α) {x : Nd α} {y : Nd β} {S : List ℕ} (hx : x.shape = S) (hy : y.shape = S) :
    ∃ z, inplace f x y = .ok z ∧ z.shape = S ∧ ∀ i, Inside S i → z.val i = f (x.val i) (y.val i) := by
  refine ⟨_, inplace_ok f (by rw [hx, hy, bshape_self]), hx, fun i hi => ?_⟩
  dsimp only
  rw [x.entry_self (by rwa [hx]), y.entry_self (by rwa [hy])]

end Nd

namespace Pfss
open Nd

/-- The fields at an index. -/
def at3 (F : Fields) (i : List ℕ) : ℝ × ℝ × ℝ := (F.1.val i, F.2.1.val i, F.2.2.val i)

def Shaped (S : List ℕ) (F : Fields) : Prop := F.1.shape = S ∧ F.2.1.shape = S ∧ F.2.2.shape = S

/-- What one coefficient line adds at a point. -/
noncomputable def lineTerm (r0 rss : ℝ) (l m : ℤ) (z : ℂ) (r θ φ t d : ℝ) : ℝ × ℝ × ℝ :=
  (-((rL l r r0 rss).2 * t * (phiLm m z.re z.im φ).1), -((rL l r r0 rss).1 * d * (phiLm m z.re z.im φ).1 / r),
    -((rL l r r0 rss).1 * t * (phiLm m z.re z.im φ).2 / (r * Real.sin θ)))

section
variable {r0 rss : ℝ} {pr pp pa : Nd ℝ} {S : List ℕ} (hr : pr.shape = S) (hp : pp.shape = S) (ha : pa.shape = S)
include hr hp ha

theorem lineStep_ok (l m : ℤ) {c : List ℂ} (hc : bshape [c.length] S = some S) {t d : Nd ℝ} (ht : t.shape = S)
    (hd : d.shape = S) {F : Fields} (hF : Shaped S F) :
    ∃ F', lineStep r0 rss pr pp pa l m c t d F = .ok F' ∧ Shaped S F' ∧ ∀ i, Inside S i →
      at3 F' i = at3 F i + lineTerm r0 rss l m ((columnArr c).entry i) (pr.val i) (pp.val i) (pa.val i) (t.val i)
        (d.val i) := by
  obtain ⟨F1, F2, F3⟩ := F
  obtain ⟨h1, h2, h3⟩ := hF
  have e1 := zip_ok (fun (z : ℂ) φ => phiLm m z.re z.im φ) (x := columnArr c) (y := pa) (s := S) (by rw [ha]; exact hc)
  obtain ⟨u1, q1, s1, v1⟩ := zip_same (fun a b : ℝ => a * b) (x := (pr.map fun r => rL l r r0 rss).map Prod.snd) (y := t)
    (S := S) hr ht
  set ph : Nd (ℝ × ℝ) := ⟨S, fun i => phiLm m ((columnArr c).entry i).re ((columnArr c).entry i).im (pa.entry i)⟩ with hph
  obtain ⟨u2, q2, s2, v2⟩ := zip_same (fun a b : ℝ => a * b) (x := u1) (y := ph.map Prod.fst) (S := S) s1 rfl
  obtain ⟨u3, q3, s3, v3⟩ := zip_same (fun a b : ℝ => a * b) (x := (pr.map fun r => rL l r r0 rss).map Prod.fst) (y := d)
    (S := S) hr hd
  obtain ⟨u4, q4, s4, v4⟩ := zip_same (fun a b : ℝ => a * b) (x := u3) (y := ph.map Prod.fst) (S := S) s3 rfl
  obtain ⟨u5, q5, s5, v5⟩ := zip_same (fun a b : ℝ => a * b) (x := (pr.map fun r => rL l r r0 rss).map Prod.fst) (y := t)
    (S := S) hr ht
  obtain ⟨u6, q6, s6, v6⟩ := zip_same (fun a b : ℝ => a * b) (x := u5) (y := ph.map Prod.snd) (S := S) s5 rfl
  obtain ⟨g1, q7, s7, v7⟩ := inplace_same (fun a b : ℝ => a - b) (x := F1) (y := u2) (S := S) h1 s2
  obtain ⟨u8, q8, s8, v8⟩ := zip_same (fun a b : ℝ => a / b) (x := u4) (y := pr) (S := S) s4 hr
  obtain ⟨g2, q9, s9, v9⟩ := inplace_same (fun a b : ℝ => a - b) (x := F2) (y := u8) (S := S) h2 s8
  obtain ⟨u10, q10, s10, v10⟩ := zip_same (fun a b : ℝ => a * b) (x := pr) (y := pp.map Real.sin) (S := S) hr hp
  obtain ⟨u11, q11, s11, v11⟩ : ∃ z, divideWhere u6 u10 F3 = .ok z ∧ z.shape = S ∧ ∀ i, Inside S i →
      z.val i = u6.val i / u10.val i := by
    obtain ⟨w, qw, sw, vw⟩ := zip_same whereQuot (x := u6) (y := u10) (S := S) s6 s10
    obtain ⟨w', qw', sw', vw'⟩ := inplace_same (fun _ x : ℝ => x) (x := fillLike (0 : ℝ) F3) (y := w) (S := S) h3 sw
    refine ⟨w', by simp only [divideWhere, bind, Except.bind, qw, qw'], sw', fun i hi => ?_⟩
    rw [vw' i hi, vw i hi, whereQuot]
    split_ifs with hz
    · rfl
    · rw [not_not.1 hz, zero_div]
  obtain ⟨g3, q12, s12, v12⟩ := inplace_same (fun a b : ℝ => a - b) (x := F3) (y := u11) (S := S) h3 s11
  refine ⟨(g1, g2, g3), ?_, ⟨s7, s9, s12⟩, fun i hi => ?_⟩
  · simp only [lineStep, bind, Except.bind, e1, q1, ← hph, q2, q3, q4, q5, q6, q7, q8, q9, q10, q11, q12, pure, Except.pure]
  · have hpa : pa.entry i = pa.val i := pa.entry_self (by rwa [ha])
    simp only [at3, lineTerm, Prod.mk_add_mk, v7 i hi, v2 i hi, v1 i hi, v9 i hi, v8 i hi, v4 i hi, v3 i hi, v12 i hi,
      v11 i hi, v6 i hi, v5 i hi, v10 i hi, Nd.map, hph, hpa, sub_eq_add_neg]

theorem lineStep_error (l m : ℤ) {c : List ℂ} (hne : S ≠ []) (hc : bshape [c.length] S ≠ some S) {t d : Nd ℝ} (ht : t.shape = S)
    (hd : d.shape = S) {F : Fields} (hF : Shaped S F) :
    lineStep r0 rss pr pp pa l m c t d F = .error .value := by
  obtain ⟨F1, F2, F3⟩ := F
  obtain ⟨h1, h2, h3⟩ := hF
  obtain ⟨b, S', rfl⟩ := List.exists_cons_of_ne_nil hne
  rcases e : bshape [c.length] (b :: S') with _ | T
  · have e1 := zip_none (fun (z : ℂ) φ => phiLm m z.re z.im φ) (x := columnArr c) (y := pa) (by rw [ha]; exact e)
    simp only [lineStep, bind, Except.bind, e1]
  · have hT : b = 1 ∧ T = c.length :: S' ∧ c.length ≠ 1 := by
      rw [bshape] at e hc
      simp only [bshape] at e hc
      split_ifs at e hc with g1 g2 g3 <;> simp_all
    obtain ⟨rfl, rfl, hn⟩ := hT
    have hb : bshape (1 :: S') (c.length :: S') = some (c.length :: S') := by
      rw [bshape, if_neg (fun h => hn h.symm), if_pos rfl, bshape_self]; rfl
    have e1 := zip_ok (fun (z : ℂ) φ => phiLm m z.re z.im φ) (x := columnArr c) (y := pa) (s := c.length :: S')
      (by rw [ha]; exact e)
    set ph : Nd (ℝ × ℝ) := ⟨c.length :: S', fun i => phiLm m ((columnArr c).entry i).re ((columnArr c).entry i).im (pa.entry i)⟩
      with hph
    obtain ⟨u1, q1, s1, -⟩ := zip_same (fun a b : ℝ => a * b) (x := (pr.map fun r => rL l r r0 rss).map Prod.snd) (y := t)
      (S := 1 :: S') hr ht
    obtain ⟨u3, q3, s3, -⟩ := zip_same (fun a b : ℝ => a * b) (x := (pr.map fun r => rL l r r0 rss).map Prod.fst) (y := d)
      (S := 1 :: S') hr hd
    obtain ⟨u5, q5, s5, -⟩ := zip_same (fun a b : ℝ => a * b) (x := (pr.map fun r => rL l r r0 rss).map Prod.fst) (y := t)
      (S := 1 :: S') hr ht
    have q2 := zip_ok (fun a b : ℝ => a * b) (x := u1) (y := ph.map Prod.fst) (s := c.length :: S') (by rw [s1]; exact hb)
    have q4 := zip_ok (fun a b : ℝ => a * b) (x := u3) (y := ph.map Prod.fst) (s := c.length :: S') (by rw [s3]; exact hb)
    have q6 := zip_ok (fun a b : ℝ => a * b) (x := u5) (y := ph.map Prod.snd) (s := c.length :: S') (by rw [s5]; exact hb)
    have q7 := inplace_error (fun a b : ℝ => a - b) (x := F1)
      (y := ⟨c.length :: S', fun i => u1.entry i * (ph.map Prod.fst).entry i⟩) (by
        rw [h1, hb]; intro h; exact hn (by simpa using h))
    simp only [lineStep, bind, Except.bind, e1, q1, ← hph, q2, q3, q4, q5, q6, q7]

theorem lineLoop_ok {s : Coefs ℂ} (hc : ∀ k, bshape [(s.getI k).length] S = some S) (pre ks : List Key)
    {th : Nd (List (ℝ × ℝ))} (hth : th.shape = S)
    (hv : ∀ i, Inside S i → th.val i = (pre ++ ks).map fun k => (tv (pp.val i) k, td (pp.val i) k)) {F : Fields}
    (hF : Shaped S F) :
    ∃ F', lineLoop r0 rss pr pp pa th (ks.map fun k => (k.1, k.2, s.getI k)) pre.length F = .ok F' ∧ Shaped S F' ∧
      ∀ i, Inside S i → at3 F' i = at3 F i + (ks.map fun k => lineTerm r0 rss k.1 k.2 ((columnArr (s.getI k)).entry i)
        (pr.val i) (pp.val i) (pa.val i) (tv (pp.val i) k) (td (pp.val i) k)).sum := by
  induction ks generalizing pre F with
  | nil => exact ⟨F, rfl, hF, fun i _ => by simp⟩
  | cons k ks ih =>
    obtain ⟨F1, e1, s1, v1⟩ := lineStep_ok (r0 := r0) (rss := rss) hr hp ha k.1 k.2 (hc k)
      (t := th.map fun x => (x.getD pre.length (0, 0)).1) (d := th.map fun x => (x.getD pre.length (0, 0)).2) hth hth hF
    obtain ⟨F2, e2, s2, v2⟩ := ih (pre ++ [k]) (fun i hi => by rw [hv i hi]; simp) s1
    refine ⟨F2, ?_, s2, fun i hi => ?_⟩
    · rw [List.map_cons, lineLoop]
      simp only [bind, Except.bind, e1]
      rw [← e2, List.length_append, List.length_singleton]
    · rw [v2 i hi, v1 i hi, List.map_cons, List.sum_cons, add_assoc]
      simp [Nd.map, hv i hi]

theorem lineLoop_error {s : Coefs ℂ} (hne : S ≠ []) {k : Key} (hc : bshape [(s.getI k).length] S ≠ some S)
    (ks : List Key) {th : Nd (List (ℝ × ℝ))} (hth : th.shape = S) {F : Fields} (hF : Shaped S F) :
    lineLoop r0 rss pr pp pa th ((k :: ks).map fun k => (k.1, k.2, s.getI k)) 0 F = .error .value := by
  rw [List.map_cons, lineLoop, lineStep_error hr hp ha k.1 k.2 hne hc hth hth hF]
  rfl

end

end Pfss

namespace Spec.ColumnSet

theorem bounds {s : Coefs ℂ} (h : ColumnSet s) {k : Key} (hk : k ∈ s.keys) : 0 ≤ k.2 ∧ k.2 ≤ k.1 := by
  have h1 := (WF_of_wellFormed h.wf).valid k hk
  have h2 := h.orders k.1 k.2 ((has_int s k.1 k.2).2 hk)
  have := abs_le.1 h1
  omega

theorem rowKeys_ne {s : Coefs ℂ} (h : ColumnSet s) : s.rowKeys ≠ [] := by
  obtain ⟨l, m, hk⟩ := h.nonempty
  exact List.ne_nil_of_mem ((mem_rowKeys (WF_of_wellFormed h.wf) (l, m)).2 ((has_int s l m).1 hk))

end Spec.ColumnSet

namespace Pfss
open Nd

theorem stretch_atleast1 {s S : List ℕ} (hS : S ≠ []) : StretchesTo (if s = [] then [1] else s) S ↔ StretchesTo s S := by
  split_ifs with h
  · subst h
    obtain ⟨d, S, rfl⟩ := List.exists_cons_of_ne_nil hS
    rw [← bshape_right_iff, ← bshape_right_iff]
    by_cases h1 : 1 = d
    · simp [bshape, h1]
    · simp [bshape, h1]
  · rfl

theorem entry_atleast1 (x : Nd ℝ) {i : List ℕ} (hi : i ≠ []) : x.atleast1.entry i = x.entry i := by
  rcases h : x.shape with _ | ⟨d, s⟩
  · obtain ⟨k, i, rfl⟩ := List.exists_cons_of_ne_nil hi
    simp [Nd.entry, Nd.atleast1, h, proj]
  · rw [Nd.atleast1_of_ne (by rw [h]; simp)]

theorem inside_ne {S i : List ℕ} (hS : S ≠ []) (h : Inside S i) : i ≠ [] := by
  cases h with
  | nil => exact absurd rfl hS
  | cons _ _ => simp

theorem column_entry {c : List ℂ} {S i : List ℕ} (hS : S ≠ []) (h : Inside S i) :
    (columnArr c).entry i = c.getD (if c.length = 1 then 0 else i.headD 0) 0 := by
  obtain ⟨k, i, rfl⟩ := List.exists_cons_of_ne_nil (inside_ne hS h)
  simp only [Nd.entry, columnArr, proj, List.zipWith_cons_cons, List.headD_cons]

private theorem sum3 {β : Type} (ks : List β) (f : β → ℝ × ℝ × ℝ) :
    (ks.map f).sum = ((ks.map fun k => (f k).1).sum, (ks.map fun k => (f k).2.1).sum, (ks.map fun k => (f k).2.2).sum) := by
  induction ks with
  | nil => rfl
  | cons k ks ih => simp only [List.map_cons, List.sum_cons, ih]; rfl

/-- The evaluation up to the loop over coefficient lines. -/
private theorem arr_prefix {s : Coefs ℂ} (h : ColumnSet s) {r0 rss : ℝ} (h1 : r0 < rss) {pr pp pa : Nd ℝ}
    (hS : pp.shape ≠ []) (hpa : pa.shape = pp.shape) (hpr : StretchesTo pr.shape pp.shape) :
    ∃ (q : Nd ℝ) (th : Nd (List (ℝ × ℝ))), q.shape = pp.shape ∧ (∀ i, Inside pp.shape i → q.val i = pr.entry i) ∧
      th.shape = pp.shape ∧ (∀ i, Inside pp.shape i → th.val i = s.rowKeys.map fun k => (tv (pp.val i) k, td (pp.val i) k)) ∧
      evalSphericalArr s pr pp pa r0 rss = (do
        let F ← lineLoop r0 rss (q.map fun r => min r rss) pp pa th (s.rowKeys.map fun k => (k.1, k.2, s.getI k)) 0
          (fillLike 0 pp, fillLike 0 pp, fillLike 0 pp)
        pure (clampFields r0 rss q F.1, clampFields r0 rss q F.2.1, clampFields r0 rss q F.2.2)) := by
  have hw := WF_of_wellFormed h.wf
  have hb : ∀ k ∈ s.rowKeys, 0 ≤ k.2 ∧ k.2 ≤ k.1 := fun k hk => h.bounds ((mem_rowKeys hw k).1 hk)
  have hS' : pa.shape ≠ [] := by rw [hpa]; exact hS
  have hz : bshape pr.atleast1.shape (fillLike (1 : ℝ) pp).shape = some pp.shape := by
    change bshape pr.atleast1.shape pp.shape = some pp.shape
    rw [bshape_right_iff, Nd.atleast1_shape]; exact (stretch_atleast1 hS).2 hpr
  obtain ⟨th, e2, s2, v2⟩ := mapRes_ok (dflt := []) (f := calcAllTheta s.rowKeys) (x := pp)
    (g := fun θ => s.rowKeys.map fun k => (tv θ k, td θ k)) (fun i _ => calcAllTheta_ok h.rowKeys_ne hb _)
  refine ⟨⟨pp.shape, fun i => pr.atleast1.entry i * (fillLike (1 : ℝ) pp).entry i⟩, th, rfl, fun i hi => ?_, s2, v2, ?_⟩
  · dsimp only
    rw [entry_atleast1 _ (inside_ne hS hi)]
    exact mul_one _
  · rw [evalSphericalArr, asArrays_rows hw]
    simp only [bind, Except.bind, resAssert, if_pos h1, Nd.atleast1_of_ne hS, Nd.atleast1_of_ne hS', if_pos hpa.symm,
      zip_ok (fun a b : ℝ => a * b) hz, if_true]
    rw [if_neg (by simpa using h.rowKeys_ne), if_pos]
    · simp only [zip_fst_snd, zip_rows, e2, pure, Except.pure]
    · intro m hm
      obtain ⟨k, hk, rfl⟩ := List.mem_map.1 hm
      exact (hb k hk).1

/-- The evaluation at points of arrays. -/
theorem arr_ok {s : Coefs ℂ} (h : ColumnSet s) {r0 rss : ℝ} (h1 : r0 < rss) {pr pp pa : Nd ℝ}
    (hS : pp.shape ≠ []) (hpa : pa.shape = pp.shape) (hpr : StretchesTo pr.shape pp.shape)
    (hc : bshape [s.dflt.length] pp.shape = some pp.shape) :
    ∃ F, evalSphericalArr s pr pp pa r0 rss = .ok F ∧ Shaped pp.shape F ∧
      ∀ i, Inside pp.shape i → ∀ t, RadialSet t → pairs t = pairs s →
        (∀ k ∈ pairs s, coef t k.1 k.2 = coefCol (if s.dflt.length = 1 then 0 else i.headD 0) s k.1 k.2) →
        evalSpherical t (pr.entry i) (pp.val i) (pa.val i) r0 rss = .ok (F.1.val i, F.2.1.val i, F.2.2.val i) := by
  have hw := WF_of_wellFormed h.wf
  obtain ⟨q, th, hq, vq, hth, vth, e⟩ := arr_prefix h h1 hS hpa hpr
  obtain ⟨F, eF, sF, vF⟩ := lineLoop_ok (r0 := r0) (rss := rss) (pr := q.map fun r => min r rss) (pp := pp) (pa := pa)
    (S := pp.shape) hq rfl hpa (s := s) (fun k => by rw [hw.getI_length]; exact hc) [] s.rowKeys hth vth
    (F := (fillLike 0 pp, fillLike 0 pp, fillLike 0 pp)) ⟨rfl, rfl, rfl⟩
  refine ⟨(clampFields r0 rss q F.1, clampFields r0 rss q F.2.1, clampFields r0 rss q F.2.2), ?_, sF, ?_⟩
  · rw [e]
    simp only [List.length_nil] at eF
    rw [eF]; rfl
  · intro i hi t ht hp hco
    have v := vF i hi
    have h0 : at3 (fillLike (0 : ℝ) pp, fillLike (0 : ℝ) pp, fillLike (0 : ℝ) pp) i = 0 := rfl
    rw [h0, zero_add, sum3] at v
    have hz : ∀ k ∈ s.rowKeys, (columnArr (s.getI k)).entry i = coef t k.1 k.2 := by
      intro k hk
      rw [column_entry hS hi, hw.getI_length, hco k (by rw [pairs_eq, List.mem_toFinset]; exact (mem_rowKeys hw k).1 hk)]
      rfl
    have e1 : ∀ f : Key → ℂ → ℝ, (s.rowKeys.map fun k => f k ((columnArr (s.getI k)).entry i)).sum
        = ∑ k ∈ pairs t, f k (coef t k.1 k.2) := by
      intro f
      rw [List.map_congr_left (g := fun k => f k (coef t k.1 k.2)) (fun k hk => by rw [hz k hk]), sum_rowKeys hw, hp,
        pairs_eq]
    simp only [lineTerm] at v
    rw [e1 fun k z => -((rL k.1 ((q.map fun r => min r rss).val i) r0 rss).2 * tv (pp.val i) k * (phiLm k.2 z.re z.im (pa.val i)).1),
      e1 fun k z => -((rL k.1 ((q.map fun r => min r rss).val i) r0 rss).1 * td (pp.val i) k
        * (phiLm k.2 z.re z.im (pa.val i)).1 / (q.map fun r => min r rss).val i),
      e1 fun k z => -((rL k.1 ((q.map fun r => min r rss).val i) r0 rss).1 * tv (pp.val i) k
        * (phiLm k.2 z.re z.im (pa.val i)).2 / ((q.map fun r => min r rss).val i * Real.sin (pp.val i)))] at v
    have hm : (q.map fun r => min r rss).val i = min (pr.entry i) rss := by rw [← vq i hi]; rfl
    rw [hm] at v
    change at3 F i = (fR t r0 rss (min (pr.entry i) rss) (pp.val i) (pa.val i),
      fP t r0 rss (min (pr.entry i) rss) (pp.val i) (pa.val i), fA t r0 rss (min (pr.entry i) rss) (pp.val i) (pa.val i)) at v
    simp only [at3, Prod.mk.injEq] at v
    rw [evalSpherical_eq ht h1]
    simp only [clampFields, vq i hi, v.1, v.2.1, v.2.2]
    split_ifs with g1 g2 g3
    · linarith
    · rfl
    · rw [min_eq_right g3.le]
    · rw [min_eq_left (not_lt.1 g3)]

/-- Sets whose columns do not fit the last axis are refused. -/
theorem arr_error {s : Coefs ℂ} (h : ColumnSet s) {r0 rss : ℝ} (h1 : r0 < rss) {pr pp pa : Nd ℝ}
    (hS : pp.shape ≠ []) (hpa : pa.shape = pp.shape) (hpr : StretchesTo pr.shape pp.shape)
    (hc : bshape [s.dflt.length] pp.shape ≠ some pp.shape) :
    evalSphericalArr s pr pp pa r0 rss = .error .value := by
  have hw := WF_of_wellFormed h.wf
  obtain ⟨q, th, hq, vq, hth, vth, e⟩ := arr_prefix h h1 hS hpa hpr
  obtain ⟨k, ks, hk⟩ := List.exists_cons_of_ne_nil h.rowKeys_ne
  rw [e, hk, lineLoop_error (r0 := r0) (rss := rss) (pr := q.map fun r => min r rss) (pp := pp) (pa := pa)
    (S := pp.shape) hq rfl hpa (s := s) hS (by rw [hw.getI_length]; exact hc) ks hth ⟨rfl, rfl, rfl⟩]
  rfl

theorem columns_fit (n : ℕ) {S : List ℕ} (hS : S ≠ []) : bshape [n] S = some S ↔ n = 1 ∨ S.head? = some n := by
  obtain ⟨d, S, rfl⟩ := List.exists_cons_of_ne_nil hS
  rw [bshape_right_iff, List.head?_cons, Option.some_inj]
  constructor
  · rintro ⟨-, h⟩
    rcases h 0 (by simp) (by simp) with h | h
    · exact Or.inr h.symm
    · exact Or.inl h
  · intro h
    refine ⟨by simp, fun k hk _ => ?_⟩
    have : k = 0 := by simpa using hk
    subst this
    rcases h with h | h
    · exact Or.inr h
    · exact Or.inl h.symm

theorem _root_.Verif.Spec.RadialSet.columnSet {s : Coefs ℂ} (h : RadialSet s) : ColumnSet s := ⟨h.wf, h.nonempty, h.orders⟩

theorem arr_atleast1 (s : Coefs ℂ) (pr pp pa : Nd ℝ) (r0 rss : ℝ) :
    evalSphericalArr s pr pp pa r0 rss = evalSphericalArr s pr pp.atleast1 pa.atleast1 r0 rss := by
  have h : ∀ x : Nd ℝ, x.atleast1.atleast1 = x.atleast1 := fun x =>
    Nd.atleast1_of_ne (by rw [Nd.atleast1_shape]; split_ifs with h <;> simp [h])
  rw [evalSphericalArr, evalSphericalArr, h, h]

end Pfss

open Nd

/-- **C100.** On arrays of points of any shape the field at each point is the field of the single point: the polar and
azimuthal arrays have the same shape, the radii are an array of that shape or one that numpy can stretch to it. -/
theorem C100_pointwise (s : Coefs ℂ) (h : RadialSet s) (r0 rss : ℝ) (h1 : r0 < rss) (pr pp pa : Nd ℝ)
    (hS : pp.shape ≠ []) (hpa : pa.shape = pp.shape) (hpr : StretchesTo pr.shape pp.shape) :
    ∃ R P A, evalSphericalArr s pr pp pa r0 rss = .ok (R, P, A) ∧ R.shape = pp.shape ∧ P.shape = pp.shape ∧
      A.shape = pp.shape ∧ ∀ i, Inside pp.shape i →
        evalSpherical s (pr.entry i) (pp.val i) (pa.val i) r0 rss = .ok (R.val i, P.val i, A.val i) := by
  obtain ⟨⟨R, P, A⟩, e, ⟨sR, sP, sA⟩, v⟩ := arr_ok h.columnSet h1 hS hpa hpr ((columns_fit _ hS).2 (Or.inl h.single))
  refine ⟨R, P, A, e, sR, sP, sA, fun i hi => v i hi s h rfl fun k _ => ?_⟩
  rw [if_pos h.single, coef, coefCol, valueAt_eq, h.getI]
  rfl

/-- **C100.** Numbers are arrays of one point. -/
theorem C100_numbers (s : Coefs ℂ) (h : RadialSet s) (r0 rss : ℝ) (h1 : r0 < rss) (r θ φ : ℝ) :
    ∃ R P A, evalSphericalArr s ⟨[], fun _ => r⟩ ⟨[], fun _ => θ⟩ ⟨[], fun _ => φ⟩ r0 rss = .ok (R, P, A) ∧
      R.shape = [1] ∧ P.shape = [1] ∧ A.shape = [1] ∧
      evalSpherical s r θ φ r0 rss = .ok (R.val [0], P.val [0], A.val [0]) := by
  rw [arr_atleast1]
  obtain ⟨R, P, A, e, sR, sP, sA, v⟩ := C100_pointwise s h r0 rss h1 ⟨[], fun _ => r⟩ (Nd.atleast1 ⟨[], fun _ => θ⟩)
    (Nd.atleast1 ⟨[], fun _ => φ⟩) (by simp [Nd.atleast1]) rfl ⟨by simp [Nd.atleast1], fun k hk _ => by simp at hk⟩
  exact ⟨R, P, A, e, sR, sP, sA, v [0] (by
    change Inside [1] [0]
    exact List.Forall₂.cons (by norm_num) .nil)⟩

/-- **C100.** Polar and azimuthal arrays of different shapes are refused, whatever the set. -/
theorem C100_shapes (s : Coefs ℂ) (r0 rss : ℝ) (pr pp pa : Nd ℝ) (hp : pp.shape ≠ []) (ha : pa.shape ≠ [])
    (hne : pp.shape ≠ pa.shape) : evalSphericalArr s pr pp pa r0 rss = .error .assertion := by
  rw [evalSphericalArr, Nd.atleast1_of_ne hp, Nd.atleast1_of_ne ha]
  by_cases h1 : r0 < rss
  · simp only [bind, Except.bind, resAssert, if_pos h1, if_neg hne]; rfl
  · simp only [bind, Except.bind, resAssert, if_neg h1]; rfl

/-- **C100.** Radii that cannot be stretched to the shape of the angles are refused, whatever the set. -/
theorem C100_radii (s : Coefs ℂ) (r0 rss : ℝ) (pr pp pa : Nd ℝ) (hS : pp.shape ≠ []) (hpa : pa.shape = pp.shape)
    (hpr : ¬ StretchesTo pr.shape pp.shape) : ∃ e, evalSphericalArr s pr pp pa r0 rss = .error e := by
  by_cases h1 : r0 < rss
  · rw [evalSphericalArr, Nd.atleast1_of_ne hS, Nd.atleast1_of_ne (x := pa) (by rw [hpa]; exact hS)]
    have hq : bshape pr.atleast1.shape pp.shape ≠ some pp.shape := by
      rw [Ne, bshape_right_iff, Nd.atleast1_shape, stretch_atleast1 hS]; exact hpr
    rcases e : bshape pr.atleast1.shape pp.shape with _ | T
    · refine ⟨.value, ?_⟩
      have := zip_none (fun a b : ℝ => a * b) (x := pr.atleast1) (y := fillLike (1 : ℝ) pp) e
      simp only [bind, Except.bind, resAssert, if_pos h1, if_pos hpa.symm, this]
      rfl
    · refine ⟨.assertion, ?_⟩
      have := zip_ok (fun a b : ℝ => a * b) (x := pr.atleast1) (y := fillLike (1 : ℝ) pp) e
      have hT : T ≠ pp.shape := fun h => hq (by rw [e, h])
      simp only [bind, Except.bind, resAssert, if_pos h1, if_pos hpa.symm, this, if_neg hT]
      rfl
  · exact ⟨.assertion, by simp only [evalSphericalArr, bind, Except.bind, resAssert, if_neg h1]; rfl⟩

/-- **C100.** A set with several columns is refused except when the last axis of the points has one entry per column. -/
theorem C100_columns (s : Coefs ℂ) (h : ColumnSet s) (r0 rss : ℝ) (h1 : r0 < rss) (pr pp pa : Nd ℝ) (hS : pp.shape ≠ [])
    (hpa : pa.shape = pp.shape) (hpr : StretchesTo pr.shape pp.shape) :
    ((∃ F, evalSphericalArr s pr pp pa r0 rss = .ok F) ↔ s.dflt.length = 1 ∨ pp.shape.head? = some s.dflt.length) ∧
    (¬ (s.dflt.length = 1 ∨ pp.shape.head? = some s.dflt.length) → evalSphericalArr s pr pp pa r0 rss = .error .value) := by
  have herr : ¬ (s.dflt.length = 1 ∨ pp.shape.head? = some s.dflt.length) →
      evalSphericalArr s pr pp pa r0 rss = .error .value := fun hn =>
    arr_error h h1 hS hpa hpr fun hb => hn ((columns_fit _ hS).1 hb)
  refine ⟨⟨?_, fun hc => ?_⟩, herr⟩
  · rintro ⟨F, e⟩
    by_contra hn
    rw [herr hn] at e
    cases e
  · obtain ⟨F, e, -⟩ := arr_ok h h1 hS hpa hpr ((columns_fit _ hS).2 hc)
    exact ⟨F, e⟩

/-- **C100.** (Against the expectation that a point gets the field of the set.) In the remaining case no error is raised,
and the points are shared out among the columns: a point with last index `j` gets the field of column `j` alone. -/
theorem C100_shared_out (s : Coefs ℂ) (h : ColumnSet s) (hn : s.dflt.length ≠ 1) (r0 rss : ℝ) (h1 : r0 < rss)
    (pr pp pa : Nd ℝ) (hS : pp.shape.head? = some s.dflt.length) (hpa : pa.shape = pp.shape)
    (hpr : StretchesTo pr.shape pp.shape) (hpos : s.dflt.length ≠ 0) :
    ∃ R P A ts, evalSphericalArr s pr pp pa r0 rss = .ok (R, P, A) ∧ hsplit s = .ok ts ∧ R.shape = pp.shape ∧
      P.shape = pp.shape ∧ A.shape = pp.shape ∧
      ∀ j i, Inside pp.shape (j :: i) → ∃ t, ts[j]? = some t ∧ RadialSet t ∧
        evalSpherical t (pr.entry (j :: i)) (pp.val (j :: i)) (pa.val (j :: i)) r0 rss
          = .ok (R.val (j :: i), P.val (j :: i), A.val (j :: i)) := by
  have hw := WF_of_wellFormed h.wf
  have hS' : pp.shape ≠ [] := by intro e; rw [e] at hS; simp at hS
  obtain ⟨⟨R, P, A⟩, e, ⟨sR, sP, sA⟩, v⟩ := arr_ok h h1 hS' hpa hpr ((columns_fit _ hS').2 (Or.inr hS))
  obtain ⟨T, eT, hT⟩ := hsplit_spec hw s.dflt.length hpos (Nat.mod_self _)
  refine ⟨R, P, A, (List.range s.dflt.length).map T, e, ?_, sR, sP, sA, fun j i hi => ?_⟩
  · rw [hsplit, Option.getD_none]
    rw [hsplit, Option.getD_some] at eT
    exact eT
  · have hj : j < s.dflt.length := by
      cases hq : pp.shape with
      | nil => exact absurd hq hS'
      | cons d S =>
        rw [hq] at hi hS
        cases hi with
        | cons hk _ =>
          rw [List.head?_cons, Option.some_inj] at hS
          omega
    obtain ⟨wT, kT, dT, tT, gT⟩ := hT j hj
    have hkeys : ∀ k, k ∈ (T j).keys ↔ k ∈ s.keys := fun k => by rw [kT, mem_sortKeys]
    have hlen : ∀ xs : List ℂ, xs.length = s.dflt.length → sect xs s.dflt.length j = [xs.getD j 0] := by
      intro xs hx
      have h0 : xs.length / s.dflt.length = 1 := by rw [hx, Nat.div_self (by omega)]
      simp only [sect, h0, Nat.mul_one]
      rw [List.drop_eq_getElem_cons (by omega), List.take_succ_cons, List.take_zero]
      simp [List.getD_eq_getElem?_getD, hx, hj]
    have hst : ∀ l m : ℤ, stores (T j) l m ↔ stores s l m := fun l m => by
      rw [stores, stores, has_int, has_int]; exact hkeys _
    have hrad : RadialSet (T j) := by
      refine ⟨wellFormed_of_WF wT, ?_, ?_, fun l m hm => h.orders l m ((hst l m).1 hm)⟩
      · rw [dT, hlen _ rfl]; rfl
      · obtain ⟨l, m, hm⟩ := h.nonempty
        exact ⟨l, m, (hst l m).2 hm⟩
    refine ⟨T j, by simp [hj], hrad, v (j :: i) hi (T j) hrad ?_ fun k _ => ?_⟩
    · ext k
      rw [mem_pairs, mem_pairs, hst]
    · rw [if_neg hn, List.headD_cons, coef, coefCol, valueAt_eq, valueAt_eq, gT, hlen _ (hw.getI_length _)]
      rfl

/-- **C100.** The cartesian evaluation is pointwise as well: at every index it gives the spherical and cartesian
components of the field at that point, in arrays of the shape of the coordinates. -/
theorem C100_cartesian (s : Coefs ℂ) (h : RadialSet s) (r0 rss : ℝ) (h1 : r0 < rss) (px py pz : Nd ℝ)
    (hS : px.shape ≠ []) (hy : py.shape = px.shape) (hz : pz.shape = px.shape) :
    ∃ R P A X Y Z, evalCartesianArr s px py pz r0 rss = .ok ((R, P, A), (X, Y, Z)) ∧ R.shape = px.shape ∧
      P.shape = px.shape ∧ A.shape = px.shape ∧ X.shape = px.shape ∧ Y.shape = px.shape ∧ Z.shape = px.shape ∧
      ∀ i, Inside px.shape i → ∃ v : Fin 3 → ℝ,
        evalCartesian s (px.val i) (py.val i) (pz.val i) r0 rss = .ok ((R.val i, P.val i, A.val i), v) ∧
        v 0 = X.val i ∧ v 1 = Y.val i ∧ v 2 = Z.val i := by
  set p : Nd (ℝ × ℝ × ℝ) := ⟨px.shape, fun i => sphericalFromRect (px.val i) (py.val i) (pz.val i)⟩ with hp
  obtain ⟨R, P, A, e, sR, sP, sA, v⟩ := C100_pointwise s h r0 rss h1 (p.map Prod.fst) (p.map fun x => x.2.1)
    (p.map fun x => x.2.2) hS rfl ⟨le_rfl, fun k _ _ => Or.inl rfl⟩
  replace sR : R.shape = px.shape := sR
  replace sP : P.shape = px.shape := sP
  replace sA : A.shape = px.shape := sA
  set V : List ℕ → Fin 3 → ℝ := fun i => toCartesian (p.val i).2.1 (p.val i).2.2 (R.val i) (P.val i) (A.val i) with hV
  refine ⟨R, P, A, Nd.reshape 0 px.shape ((indices px.shape).map fun i => V i 0),
    Nd.reshape 0 px.shape ((indices px.shape).map fun i => V i 1),
    Nd.reshape 0 px.shape ((indices px.shape).map fun i => V i 2), ?_, sR, sP, sA, rfl, rfl, rfl, fun i hi => ⟨V i, ?_, ?_⟩⟩
  · rw [evalCartesianArr, Nd.atleast1_of_ne hS, Nd.atleast1_of_ne (x := py) (by rw [hy]; exact hS),
      Nd.atleast1_of_ne (x := pz) (by rw [hz]; exact hS)]
    simp only [bind, Except.bind, resAssert, if_pos h1, if_pos hy.symm, if_pos hz.symm, pure, Except.pure, ← hp, e,
      if_pos sR, if_pos sP, if_pos sA]
    have hrows : ∀ k : Fin 3, ((((R.flatten.zip (P.flatten.zip A.flatten)).zip ((p.map fun x => x.2.1).flatten.zip
        (p.map fun x => x.2.2).flatten)).map fun q => toCartesian q.2.1 q.2.2 q.1.1 q.1.2.1 q.1.2.2).map fun v => v k)
        = (indices px.shape).map fun i => V i k := by
      intro k
      have hpS : p.shape = px.shape := rfl
      simp only [Nd.flatten, sR, sP, sA, Nd.map, hpS, List.zip_map', List.map_map]
      rfl
    rw [hrows, hrows, hrows]
  · have := v i hi
    rw [Nd.entry_self (p.map Prod.fst) hi] at this
    rw [evalCartesian]
    simp only [bind, Except.bind, resAssert, if_pos h1, pure, Except.pure]
    have h2 : evalSpherical s (sphericalFromRect (px.val i) (py.val i) (pz.val i)).1
        (sphericalFromRect (px.val i) (py.val i) (pz.val i)).2.1 (sphericalFromRect (px.val i) (py.val i) (pz.val i)).2.2 r0 rss
        = .ok (R.val i, P.val i, A.val i) := this
    rw [h2]
  · simp only [Nd.reshape, List.getD_eq_getElem?_getD, List.getElem?_map, indices_flatIndex hi, Option.map_some,
      Option.getD_some, and_self]

/-! ### Cases meeting the hypotheses -/

private noncomputable def exPair : Coefs ℂ := ⟨[0, 0], .cplx, [((0, 0), [2, 3])], 0, 0⟩

private noncomputable def exMonoC (c : ℂ) : Coefs ℂ := ⟨[0], .cplx, [((0, 0), [c])], 0, 0⟩

private theorem exPair_set : ColumnSet exPair := by
  have hw : exPair.WF := by
    refine Reach.WF (Reach.append (s := Coefs.new [0, 0] .cplx) (.int 0) (.int 0) [2, 3] ?_ rfl)
    exact Reach.new _ _ (by simp)
  refine ⟨wellFormed_of_WF hw, ⟨0, 0, rfl⟩, fun l' m hm => ?_⟩
  rw [stores, Coefs.has_int] at hm
  simp [exPair, Coefs.keys] at hm
  omega

private theorem exMonoC_radial (c : ℂ) : RadialSet (exMonoC c) := by
  have hw : (exMonoC c).WF := by
    refine Reach.WF (Reach.append (s := Coefs.new [0] .cplx) (.int 0) (.int 0) [c] ?_ rfl)
    exact Reach.new _ _ (by simp)
  refine ⟨wellFormed_of_WF hw, rfl, ⟨0, 0, rfl⟩, fun l' m hm => ?_⟩
  rw [stores, Coefs.has_int] at hm
  simp [exMonoC, Coefs.keys] at hm
  omega

private theorem exMonoC_surface (c : ℂ) (θ φ : ℝ) :
    ∃ p a, evalSpherical (exMonoC c) 1 θ φ 1 3 = .ok (c.re, p, a) := by
  obtain ⟨p, a, e⟩ := C30_surface _ (exMonoC_radial c) 1 3 one_pos (by norm_num) θ φ
  refine ⟨p, a, e.trans ?_⟩
  have hp : pairs (exMonoC c) = {(0, 0)} := by rw [pairs_eq]; rfl
  have hc : coef (exMonoC c) 0 0 = c := rfl
  have hs : schmidt 0 0 θ = 1 := by
    simp [schmidt, legendrePZ, legendreP, rodNorm, rod, rodBase]
  simp only [hp, Finset.sum_singleton, hc, hs]
  simp

/-- **C100.** (Against the expectation.) The same point twice in one call gives two different fields: 2 and 3. -/
theorem C100_same_point_twice : ∃ s R P A, ColumnSet s ∧
    evalSphericalArr s ⟨[2], fun _ => 1⟩ ⟨[2], fun _ => 1⟩ ⟨[2], fun _ => 1⟩ 1 3 = .ok (R, P, A) ∧
    R.val [0] = 2 ∧ R.val [1] = 3 := by
  obtain ⟨⟨R, P, A⟩, e, -, v⟩ := arr_ok exPair_set (r0 := 1) (rss := 3) (by norm_num) (pr := ⟨[2], fun _ => 1⟩)
    (pp := ⟨[2], fun _ => 1⟩) (pa := ⟨[2], fun _ => 1⟩) (by simp) rfl ⟨le_rfl, fun k _ _ => Or.inl rfl⟩
    ((columns_fit _ (by simp)).2 (Or.inr rfl))
  have key : ∀ j, j < 2 → ∀ c : ℂ, [2, 3].getD j 0 = c → R.val [j] = c.re := by
    intro j hj c hc
    have h := v [j] (List.Forall₂.cons hj .nil) (exMonoC c) (exMonoC_radial c)
      (by rw [pairs_eq, pairs_eq]; rfl) (by
        intro k hk
        have hp : pairs exPair = {(0, 0)} := by rw [pairs_eq]; rfl
        rw [hp, Finset.mem_singleton] at hk
        subst hk
        rw [← hc]; rfl)
    obtain ⟨p, a, e⟩ := exMonoC_surface c 1 1
    have h2 : evalSpherical (exMonoC c) 1 1 1 1 3 = .ok (R.val [j], P.val [j], A.val [j]) := h
    rw [e, Except.ok.injEq] at h2
    exact (congrArg Prod.fst h2).symm
  refine ⟨exPair, R, P, A, exPair_set, e, ?_, ?_⟩
  · rw [key 0 (by norm_num) 2 rfl]; rfl
  · rw [key 1 (by norm_num) 3 rfl]; rfl

/-- A two by three array of angles with a row of three radii. -/
example : ∃ R P A, evalSphericalArr (exMonoC 2) ⟨[3], fun i => 1 + i.headD 0⟩ ⟨[3, 2], fun _ => 1⟩ ⟨[3, 2], fun _ => 2⟩ 1 3
      = .ok (R, P, A) ∧ R.val [0, 1] = 2 := by
  obtain ⟨R, P, A, e, -, -, -, v⟩ := C100_pointwise _ (exMonoC_radial 2) 1 3 (by norm_num) ⟨[3], fun i => 1 + i.headD 0⟩
    ⟨[3, 2], fun _ => 1⟩ ⟨[3, 2], fun _ => 2⟩ (by simp) rfl ⟨by simp, fun k hk _ => by
      have : k = 0 := by simpa using hk
      subst this; exact Or.inl rfl⟩
  refine ⟨R, P, A, e, ?_⟩
  have h := v [0, 1] (List.Forall₂.cons (by norm_num) (List.Forall₂.cons (by norm_num) .nil))
  have hr : (⟨[3], fun i => 1 + i.headD 0⟩ : Nd ℝ).entry [0, 1] = 1 := by simp [Nd.entry, proj]
  obtain ⟨p, a, e'⟩ := exMonoC_surface 2 1 2
  rw [hr] at h
  rw [e', Except.ok.injEq] at h
  exact (congrArg Prod.fst h).symm

/-- Two columns and three points: refused. -/
example : evalSphericalArr exPair ⟨[], fun _ => 1⟩ ⟨[3], fun _ => 1⟩ ⟨[3], fun _ => 2⟩ 1 3 = .error .value :=
  (C100_columns _ exPair_set 1 3 (by norm_num) _ ⟨[3], fun _ => 1⟩ ⟨[3], fun _ => 2⟩ (by simp) rfl
    ⟨by simp, fun k hk _ => by simp at hk⟩).2 (by simp [exPair])

/-- Two columns and two points: one column each. -/
example : ∃ R P A ts, evalSphericalArr exPair ⟨[], fun _ => 1⟩ ⟨[2], fun _ => 1⟩ ⟨[2], fun _ => 2⟩ 1 3 = .ok (R, P, A) ∧
    hsplit exPair = .ok ts := by
  obtain ⟨R, P, A, ts, h, h', -⟩ := C100_shared_out _ exPair_set (by simp [exPair]) 1 3 (by norm_num) ⟨[], fun _ => 1⟩
    ⟨[2], fun _ => 1⟩ ⟨[2], fun _ => 2⟩ rfl rfl ⟨by simp, fun k hk _ => by simp at hk⟩ (by simp [exPair])
  exact ⟨R, P, A, ts, h, h'⟩

example : evalSphericalArr exPair ⟨[], fun _ => 1⟩ ⟨[3], fun _ => 1⟩ ⟨[1], fun _ => 2⟩ 1 3 = .error .assertion :=
  C100_shapes _ _ _ _ ⟨[3], fun _ => 1⟩ ⟨[1], fun _ => 2⟩ (by simp) (by simp) (by simp)

example : ∃ e, evalSphericalArr exPair ⟨[2], fun _ => 1⟩ ⟨[3], fun _ => 1⟩ ⟨[3], fun _ => 2⟩ 1 3 = .error e :=
  C100_radii _ _ _ _ ⟨[3], fun _ => 1⟩ ⟨[3], fun _ => 2⟩ (by simp) rfl fun h => by
    rcases h.2 0 (by simp) (by simp) with h | h <;> simp at h

example : ∃ F, evalCartesianArr (exMonoC 2) ⟨[2, 2], fun _ => 1⟩ ⟨[2, 2], fun _ => 1⟩ ⟨[2, 2], fun i => i.headD 0⟩ 1 3 = .ok F := by
  obtain ⟨R, P, A, X, Y, Z, h, -⟩ := C100_cartesian _ (exMonoC_radial 2) 1 3 (by norm_num) ⟨[2, 2], fun _ => 1⟩
    ⟨[2, 2], fun _ => 1⟩ ⟨[2, 2], fun i => i.headD 0⟩ (by simp) rfl rfl
  exact ⟨_, h⟩

end Verif
