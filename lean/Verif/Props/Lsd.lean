import Verif.Model.Lsd
import Verif.Props.Cli
import Verif.Lemmas.Text
import Verif.Lemmas.Zdi

/-!
# C77, C78: LSD profiles
-/

namespace Verif
open Lsd Cli

/-- The columns of an LSD profile: the velocity, then intensity, circular polarisation and null, each followed by its
error. Parameter number `k` is in column `2 k + 1`. -/
def Spec.stokes : List Char := ['I', 'V', 'N']

/-- The table has the parameter and its error, and the error can be drawn. -/
def Spec.HasParam (refuses : Bool) (rows : List (List PyFloat)) (c : Char) : Prop :=
  ∃ k : ℕ, Spec.stokes[k]? = some c ∧
    ∀ r ∈ rows, ∃ e, r[2 * k + 2]? = some e ∧ (refuses = true → negative e = false)

/-- The last curve of the axes shows column `y` of the table, with column `y + 1` as its error, against column 0. -/
def Spec.ShowsColumn (ax : Ax) (rows : List (List PyFloat)) (y : ℕ) : Prop :=
  ∃ c : Curve, ax.curves.getLast? = some c ∧ c.x.length = rows.length ∧ c.y.length = rows.length ∧
    c.err.length = rows.length ∧ ∀ (j : ℕ) (r : List PyFloat), rows[j]? = some r →
      c.x[j]? = r[0]? ∧ c.y[j]? = r[y]? ∧ c.err[j]? = r[y + 1]?

open Spec

namespace Lsd

theorem modify_ne {α : Type} (l : List α) (f : α → α) {i j : ℕ} (h : i ≠ j) : (l.modify i f)[j]? = l[j]? := by
  rw [List.getElem?_modify]; simp [h]

theorem modify_at {α : Type} (l : List α) (f : α → α) (i : ℕ) : (l.modify i f)[i]? = l[i]?.map f := by
  rw [List.getElem?_modify]; simp

theorem column_ok {rows : List (List PyFloat)} {c : ℕ} (h : ∀ r ∈ rows, c < r.length) :
    column (.matrix rows) c = .ok (rows.map fun r => r.getD c .nan) := by
  rw [column]
  apply mapM_pure_ok
  intro r hr
  have := h r hr
  rw [List.getElem?_eq_getElem this, List.getD_eq_getElem _ _ this]
  rfl

theorem column_inv {d : Data} {c : ℕ} {v : List PyFloat} (h : column d c = .ok v) :
    ∃ rows, d = .matrix rows ∧ ∀ r ∈ rows, c < r.length := by
  cases d with
  | other => cases h
  | matrix rows =>
    refine ⟨rows, rfl, ?_⟩
    rw [column] at h
    induction rows generalizing v with
    | nil => simp
    | cons r rs ih =>
      rw [List.mapM_cons] at h
      rcases hr : r[c]? with _ | x
      · rw [hr] at h; cases h
      · rw [hr] at h
        rcases hm : (rs.mapM fun r => r[c]?.elim (.error Err.index) .ok : Res (List PyFloat)) with e | w
        · rw [hm] at h; cases h
        · intro r' hr'
          rcases List.mem_cons.1 hr' with rfl | hr'
          · exact (List.getElem?_eq_some_iff.1 hr).1
          · exact ih hm r' hr'

theorem column_total (d : Data) (c : ℕ) : (∃ v, column d c = .ok v) ∨ column d c = .error .index := by
  cases d with
  | other => exact .inr rfl
  | matrix rows =>
    rw [column]
    induction rows with
    | nil => exact .inl ⟨[], rfl⟩
    | cons r rs ih =>
      rw [List.mapM_cons]
      rcases r[c]? with _ | x
      · exact .inr rfl
      · rcases ih with ⟨v, ih⟩ | ih
        · rw [ih]; exact .inl ⟨_, rfl⟩
        · rw [ih]; exact .inr rfl

/-- What `drawOne` does to an axes. -/
def drawn (rows : List (List PyFloat)) (k : ℕ) (c : Char) (ax : Ax) : Ax :=
  { ax with
    curves := ax.curves ++ [⟨rows.map fun r => r.getD 0 .nan, rows.map fun r => r.getD k .nan,
      rows.map fun r => r.getD (k + 1) .nan⟩]
    ylabel := some ("Stokes $".toList ++ c :: "/I_\\mathrm{c}$".toList) }

theorem offset_iff {c : Char} {y : ℕ} : offset c = .ok y ↔ ∃ k : ℕ, stokes[k]? = some c ∧ y = 2 * k + 1 := by
  constructor
  · intro h
    unfold offset at h
    split at h <;> cases h
    · exact ⟨0, rfl, rfl⟩
    · exact ⟨1, rfl, rfl⟩
    · exact ⟨2, rfl, rfl⟩
  · rintro ⟨k, h, rfl⟩
    match k with
    | 0 => cases h; rfl
    | 1 => cases h; rfl
    | 2 => cases h; rfl
    | k + 3 => simp [stokes] at h

theorem errorbar_iff {refuses : Bool} {ax ax' : Ax} {x y e : List PyFloat} : errorbar refuses ax x y e = .ok ax' ↔
    (refuses = true → ∀ v ∈ e, negative v = false) ∧ ax' = { ax with curves := ax.curves ++ [⟨x, y, e⟩] } := by
  rw [errorbar]
  by_cases h : (refuses && e.any negative) = true
  · rw [if_pos h]
    simp only [Bool.and_eq_true, List.any_eq_true] at h
    constructor
    · rintro ⟨⟩
    · rintro ⟨h', -⟩
      obtain ⟨h1, v, hv, hn⟩ := h
      rw [h' h1 v hv] at hn
      cases hn
  · rw [if_neg h]
    simp only [Bool.and_eq_true, List.any_eq_true, not_and, not_exists, Bool.not_eq_true] at h
    constructor
    · intro e
      exact ⟨h, (Except.ok.inj e).symm⟩
    · rintro ⟨-, rfl⟩; rfl

theorem drawOne_ok {refuses : Bool} {rows : List (List PyFloat)} {c : Char} {k : ℕ} (hk : stokes[k]? = some c)
    (hr : ∀ r ∈ rows, ∃ e, r[2 * k + 2]? = some e ∧ (refuses = true → negative e = false)) {fig : Fig} {i : ℕ}
    (hi : i < fig.length) : drawOne refuses (.matrix rows) fig i c = .ok (fig.modify i (drawn rows (2 * k + 1) c)) := by
  have hl : ∀ r ∈ rows, 2 * k + 2 < r.length := fun r h => by
    obtain ⟨e, he, -⟩ := hr r h
    exact (List.getElem?_eq_some_iff.1 he).1
  rw [drawOne, List.getElem?_eq_getElem hi]
  simp only [Option.elim_some, bind, Except.bind]
  rw [column_ok fun r h => by have := hl r h; omega]
  simp only
  rw [offset_iff.2 ⟨k, hk, rfl⟩]
  simp only
  rw [column_ok fun r h => by have := hl r h; omega]
  simp only
  rw [column_ok fun r h => by have := hl r h; omega]
  simp only
  rw [errorbar_iff.2 ⟨fun h v hv => ?_, rfl⟩]
  · simp only [pure, Except.pure]
    rw [List.modify_eq_set_getElem? , List.getElem?_eq_getElem hi]
    rfl
  · obtain ⟨r, hr', rfl⟩ := List.mem_map.1 hv
    obtain ⟨e, he, hn⟩ := hr r hr'
    rw [List.getD_eq_getElem?_getD, he]
    exact hn h

theorem drawOne_inv {refuses : Bool} {data : Data} {c : Char} {fig fig' : Fig} {i : ℕ}
    (h : drawOne refuses data fig i c = .ok fig') : i < fig.length ∧ ∃ rows, data = .matrix rows ∧ HasParam refuses rows c := by
  rw [drawOne] at h
  rcases hi : fig[i]? with _ | ax
  · rw [hi] at h; cases h
  refine ⟨(List.getElem?_eq_some_iff.1 hi).1, ?_⟩
  rw [hi] at h
  simp only [Option.elim_some, bind, Except.bind] at h
  rcases hx : column data 0 with e | x
  · rw [hx] at h; cases h
  rw [hx] at h
  simp only at h
  rcases hk : offset c with e | y
  · rw [hk] at h; cases h
  obtain ⟨k, hk', rfl⟩ := offset_iff.1 hk
  rw [hk] at h
  simp only at h
  rcases hy : column data (2 * k + 1) with e | y
  · rw [hy] at h; cases h
  rw [hy] at h
  simp only at h
  rcases he : column data (2 * k + 1 + 1) with e | z
  · rw [he] at h; cases h
  rw [he] at h
  simp only at h
  obtain ⟨rows, rfl, hl⟩ := column_inv he
  rw [column_ok hl] at he
  cases he
  rcases hb : errorbar refuses ax x y (rows.map fun r => r.getD (2 * k + 1 + 1) .nan) with e | b
  · rw [hb] at h; cases h
  refine ⟨rows, rfl, k, hk', fun r hr => ⟨_, List.getElem?_eq_getElem (hl r hr), fun hh => ?_⟩⟩
  have := (errorbar_iff.1 hb).1 hh _ (List.mem_map_of_mem hr)
  rwa [List.getD_eq_getElem _ _ (hl r hr)] at this

theorem drawn_shows {rows : List (List PyFloat)} {k : ℕ} {c : Char} {ax : Ax} (h : ∀ r ∈ rows, k + 1 < r.length) :
    ShowsColumn (drawn rows k c ax) rows k := by
  refine ⟨⟨rows.map fun r => r.getD 0 .nan, rows.map fun r => r.getD k .nan, rows.map fun r => r.getD (k + 1) .nan⟩,
    by simp only [drawn, List.getLast?_concat], by simp, by simp, by simp, fun j r hr => ?_⟩
  have hm := List.mem_of_getElem? hr
  have hl := h r hm
  simp only [List.getElem?_map, hr, Option.map_some]
  rw [List.getD_eq_getElem _ _ (by omega : 0 < r.length), List.getD_eq_getElem _ _ (by omega : k < r.length),
    List.getD_eq_getElem _ _ hl]
  exact ⟨(List.getElem?_eq_getElem _).symm, (List.getElem?_eq_getElem _).symm, (List.getElem?_eq_getElem _).symm⟩

theorem drawAll_ok {refuses : Bool} {rows : List (List PyFloat)} (params : Text) {fig : Fig} {i : ℕ}
    (hp : ∀ c ∈ params, HasParam refuses rows c) (hl : i + params.length ≤ fig.length) :
    ∃ fig', drawAll refuses (.matrix rows) fig i params = .ok fig' ∧ fig'.length = fig.length ∧
      (∀ j, (j < i ∨ i + params.length ≤ j) → fig'[j]? = fig[j]?) ∧
      ∀ j c, params[j]? = some c → ∃ k ax, stokes[k]? = some c ∧ fig[i + j]? = some ax ∧
        fig'[i + j]? = some (drawn rows (2 * k + 1) c ax) := by
  induction params generalizing fig i with
  | nil => exact ⟨fig, rfl, rfl, fun _ _ => rfl, fun j c h => by simp at h⟩
  | cons c cs ih =>
    rw [List.length_cons] at hl
    obtain ⟨k, hk, hr⟩ := hp c (by simp)
    have hi : i < fig.length := by omega
    obtain ⟨fig', h1, h2, h3, h4⟩ := ih (fig := fig.modify i (drawn rows (2 * k + 1) c)) (i := i + 1)
      (fun c h => hp c (by simp [h])) (by rw [List.length_modify]; omega)
    refine ⟨fig', ?_, by rw [h2, List.length_modify], fun j hj => ?_, fun j c' hc' => ?_⟩
    · rw [drawAll, drawOne_ok hk hr hi]
      exact h1
    · rw [List.length_cons] at hj
      rw [h3 j (by omega), modify_ne _ _ (by omega)]
    · cases j with
      | zero =>
        cases hc'
        refine ⟨k, fig[i], hk, List.getElem?_eq_getElem hi, ?_⟩
        rw [show i + 0 = i from rfl, h3 i (by omega), modify_at, List.getElem?_eq_getElem hi]
        rfl
      | succ j =>
        obtain ⟨k', ax, e1, e2, e3⟩ := h4 j c' (by simpa using hc')
        rw [modify_ne _ _ (by omega)] at e2
        refine ⟨k', ax, e1, ?_, ?_⟩
        · rw [show i + (j + 1) = i + 1 + j by omega]; exact e2
        · rw [show i + (j + 1) = i + 1 + j by omega]; exact e3

theorem drawAll_inv {refuses : Bool} {data : Data} (params : Text) {fig fig' : Fig} {i : ℕ} (hne : params ≠ [])
    (h : drawAll refuses data fig i params = .ok fig') :
    ∃ rows, data = .matrix rows ∧ ∀ c ∈ params, HasParam refuses rows c := by
  induction params generalizing fig i with
  | nil => exact absurd rfl hne
  | cons c cs ih =>
    rw [drawAll] at h
    rcases h1 : drawOne refuses data fig i c with e | f
    · rw [h1] at h; cases h
    rw [h1] at h
    obtain ⟨-, rows, rfl, hc⟩ := drawOne_inv h1
    refine ⟨rows, rfl, fun c' hc' => ?_⟩
    rcases List.mem_cons.1 hc' with rfl | hc'
    · exact hc
    · obtain ⟨rows', e, h'⟩ := ih (List.ne_nil_of_mem hc') h
      cases e
      exact h' c' hc'

end Lsd

/-! ## C77 -/

/-- **C77.** `plot_lsd_profile` succeeds exactly if there is at least one parameter, the figure has enough axes, and the
table has each parameter. -/
theorem C77_profile_iff (refuses : Bool) (data : Data) (params : Text) (fig : Fig) :
    (∃ fig', plotProfile refuses data params fig = .ok fig') ↔
      params ≠ [] ∧ params.length ≤ fig.length ∧ ∃ rows, data = .matrix rows ∧ ∀ c ∈ params, HasParam refuses rows c := by
  rw [plotProfile]
  constructor
  · rintro ⟨fig', h⟩
    by_cases hl : params.length ≤ fig.length
    swap
    · rw [resAssert, if_neg hl] at h; cases h
    rw [resAssert, if_pos hl] at h
    simp only [bind, Except.bind, pure, Except.pure] at h
    rcases h1 : drawAll refuses data fig 0 params with e | f
    · rw [h1] at h; cases h
    rw [h1] at h
    simp only at h
    by_cases hne : params = []
    · rw [if_pos hne] at h; cases h
    exact ⟨hne, hl, drawAll_inv params hne h1⟩
  · rintro ⟨hne, hl, rows, rfl, hp⟩
    obtain ⟨f, h1, -⟩ := drawAll_ok params (i := 0) hp (by omega : 0 + params.length ≤ fig.length)
    rw [resAssert, if_pos hl]
    simp only [bind, Except.bind, pure, Except.pure, h1]
    rw [if_neg hne]
    exact ⟨_, rfl⟩

/-- **C77.** What `plot_lsd_profile` draws: axes number `j` gets parameter number `j` with its error against the velocity,
and its name, besides what it showed; the last of these axes says that the abscissa is the velocity; further axes are left alone. -/
theorem C77_profile (refuses : Bool) (rows : List (List PyFloat)) (params : Text) (fig fig' : Fig)
    (h : plotProfile refuses (.matrix rows) params fig = .ok fig') :
    fig'.length = fig.length ∧ (∀ j, params.length ≤ j → fig'[j]? = fig[j]?) ∧
    ∀ (j : ℕ) (c : Char), params[j]? = some c → ∃ old ax k, fig[j]? = some old ∧ fig'[j]? = some ax ∧
      stokes[k]? = some c ∧ ax.curves.dropLast = old.curves ∧ ShowsColumn ax rows (2 * k + 1) ∧ ax.ylabel = some ("Stokes $".toList ++ [c] ++ "/I_\\mathrm{c}$".toList) ∧
      (j + 1 = params.length → ax.xlabel = some "Doppler velocity".toList) := by
  obtain ⟨hne, hl, rows', e, hp⟩ := (C77_profile_iff refuses _ params fig).1 ⟨_, h⟩
  cases e
  obtain ⟨f, h1, h2, h3, h4⟩ := drawAll_ok params (i := 0) hp (by omega : 0 + params.length ≤ fig.length)
  rw [plotProfile, resAssert, if_pos hl] at h
  simp only [bind, Except.bind, pure, Except.pure, h1] at h
  rw [if_neg hne] at h
  cases h
  have hpos := List.length_pos_of_ne_nil hne
  refine ⟨by rw [List.length_modify, h2], fun j hj => ?_, fun j c hc => ?_⟩
  · rw [modify_ne _ _ (by omega), h3 j (by omega)]
  · obtain ⟨k, ax, e1, e2, e3⟩ := h4 j c hc
    rw [Nat.zero_add] at e2 e3
    have hs : ∀ r ∈ rows, 2 * k + 1 + 1 < r.length := by
      obtain ⟨k', hk', hr⟩ := hp c (List.mem_of_getElem? hc)
      have : k' = k := by
        have n : stokes.Nodup := by decide
        have a := (List.getElem?_eq_some_iff.1 hk')
        have b := (List.getElem?_eq_some_iff.1 e1)
        exact (List.Nodup.getElem_inj_iff n).1 (a.2.trans b.2.symm)
      subst this
      intro r h
      obtain ⟨e, he, -⟩ := hr r h
      exact (List.getElem?_eq_some_iff.1 he).1
    have hsh := drawn_shows (c := c) (ax := ax) hs
    by_cases hj : params.length - 1 = j
    · refine ⟨ax, { drawn rows (2 * k + 1) c ax with xlabel := some "Doppler velocity".toList }, k, e2, ?_, e1, by simp [drawn], hsh, ?_,
        fun _ => rfl⟩
      · rw [hj, modify_at, e3]; rfl
      · simp [drawn]
    · refine ⟨ax, drawn rows (2 * k + 1) c ax, k, e2, ?_, e1, by simp [drawn], hsh, by simp [drawn], fun h => by omega⟩
      rw [modify_ne _ _ hj, e3]

/-- **C77.** The program succeeds in making the figure exactly if the file is a table (at least two rows and columns), at
least two parameters are asked for, and the table has each of them. -/
theorem C77_figure_iff (U : Digits) (refuses : Bool) (o : Lsd.Options) (content : Text) :
    (∃ fig, figure U refuses o content = .ok fig) ↔
      2 ≤ o.params.length ∧ ∃ rows, genfromtxt U o.skip content = .ok (.matrix rows) ∧
        ∀ c ∈ o.params, HasParam refuses rows c := by
  rw [figure]
  rcases hg : genfromtxt U o.skip content with e | data
  · constructor
    · rintro ⟨fig, h⟩; cases h
    · rintro ⟨-, rows, h, -⟩; cases h
  simp only [bind, Except.bind, subplots]
  by_cases h0 : o.params.length = 0
  · rw [if_pos h0]
    constructor
    · rintro ⟨fig, h⟩; cases h
    · rintro ⟨h, -⟩; omega
  rw [if_neg h0]
  simp only
  have hiff := C77_profile_iff refuses data o.params (List.replicate o.params.length {})
  have hne : o.params ≠ [] := fun h => h0 (by rw [h]; rfl)
  constructor
  · rintro ⟨fig, h⟩
    rcases hp : plotProfile refuses data o.params (List.replicate o.params.length {}) with e | f
    · rw [hp] at h; cases h
    rw [hp] at h
    obtain ⟨-, -, rows, rfl, hr⟩ := hiff.1 ⟨f, hp⟩
    have hl := (C77_profile _ _ _ _ _ hp).1
    rw [List.length_replicate] at hl
    simp only [setTitle] at h
    by_cases h1 : f.length = 1
    · rw [if_pos h1] at h; cases h
    · exact ⟨by omega, rows, rfl, hr⟩
  · rintro ⟨h2, rows, e, hr⟩
    cases e
    obtain ⟨f, hf⟩ := hiff.2 ⟨hne, by simp, rows, rfl, hr⟩
    have hl := (C77_profile _ _ _ _ _ hf).1
    rw [List.length_replicate] at hl
    rw [hf]
    simp only [setTitle]
    rw [if_neg (by omega)]
    exact ⟨_, rfl⟩

/-- **C77.** What the program draws: one axes per parameter, with the parameter's column, its error and its name; the
first has a title with the name of the file, the last says that the abscissa is the velocity. -/
theorem C77_figure (U : Digits) (refuses : Bool) (o : Lsd.Options) (content : Text) (fig : Fig)
    (h : figure U refuses o content = .ok fig) :
    ∃ rows, genfromtxt U o.skip content = .ok (.matrix rows) ∧ fig.length = o.params.length ∧
      ∀ (j : ℕ) (c : Char), o.params[j]? = some c → ∃ ax k, fig[j]? = some ax ∧ stokes[k]? = some c ∧
        ShowsColumn ax rows (2 * k + 1) ∧ ax.curves.length = 1 ∧
        ax.ylabel = some ("Stokes $".toList ++ [c] ++ "/I_\\mathrm{c}$".toList) ∧
        (j = 0 → ax.title = some ("Data in ".toList ++ o.input)) ∧
        (j + 1 = o.params.length → ax.xlabel = some "Doppler velocity".toList) := by
  obtain ⟨h2, rows, hg, hr⟩ := (C77_figure_iff U refuses o content).1 ⟨fig, h⟩
  refine ⟨rows, hg, ?_⟩
  rw [figure, hg] at h
  simp only [bind, Except.bind, subplots] at h
  rw [if_neg (by omega)] at h
  simp only at h
  rcases hp : plotProfile refuses (.matrix rows) o.params (List.replicate o.params.length {}) with e | f
  · rw [hp] at h; cases h
  rw [hp] at h
  simp only [setTitle] at h
  obtain ⟨hl, -, hs⟩ := C77_profile _ _ _ _ _ hp
  rw [List.length_replicate] at hl
  rw [if_neg (by omega)] at h
  cases h
  refine ⟨by rw [List.length_modify, hl], fun j c hc => ?_⟩
  obtain ⟨old, ax, k, e0, e1, e2, ed, e3, e4, e5⟩ := hs j c hc
  have hone : ax.curves.length = 1 := by
    have h0 : old.curves = [] := by
      rw [List.eq_of_mem_replicate (List.mem_of_getElem? e0)]
    obtain ⟨cv, hcv, -⟩ := e3
    have hne : ax.curves ≠ [] := by rintro h; rw [h] at hcv; cases hcv
    rw [h0] at ed
    have := congrArg List.length ed
    rw [List.length_dropLast, List.length_nil] at this
    have := List.length_pos_of_ne_nil hne
    omega
  by_cases hj : 0 = j
  · subst hj
    refine ⟨{ ax with title := some ("Data in ".toList ++ o.input) }, k, ?_, e2, e3, hone, e4, fun _ => rfl, e5⟩
    rw [modify_at, e1]; rfl
  · refine ⟨ax, k, ?_, e2, e3, hone, e4, fun h => absurd h.symm hj, e5⟩
    rw [modify_ne _ _ hj, e1]

namespace Lsd

theorem main_run (U : Digits) (refuses : Bool) (render : Text → Fig → Res Text) (o : Lsd.Options) (d : Disk) :
    Lsd.main U refuses render o d = match d.read o.input with
      | .error e => .error e d
      | .ok content => match figure U refuses o content with
        | .error e => .error e d
        | .ok fig => match o.output with
          | none => .ok fig d
          | some name => match render name fig with
            | .error e => .error e d
            | .ok text => if d.writable (d.place name) = false then .error .noFile d
                else .ok fig (d.put (d.place name) text) := by
  rw [Lsd.main]
  change (lift (d.read o.input) >>= _ : Meth Disk Fig) d = _
  rcases d.read o.input with e | content
  · rfl
  rw [lift_ok]
  simp only
  rcases figure U refuses o content with e | fig
  · rfl
  rw [lift_ok]
  simp only
  rcases o.output with _ | name
  · rfl
  simp only
  rcases render name fig with e | t
  · rfl
  · rfl

end Lsd

/-- **C77 is violated.** With exactly one parameter, which the help text allows, the program raises TypeError for every
file that has the parameter. -/
theorem C77_one (U : Digits) (refuses : Bool) (render : Text → Fig → Res Text) (o : Lsd.Options) (c : Char)
    (ho : o.params = [c]) (d : Disk) (content : Text) (hd : d.read o.input = .ok content) (rows : List (List PyFloat))
    (hg : genfromtxt U o.skip content = .ok (.matrix rows)) (hc : HasParam refuses rows c) :
    Lsd.main U refuses render o d = .error .type d := by
  rw [Lsd.main_run, hd]
  simp only
  have : figure U refuses o content = .error .type := by
    rw [figure, hg, ho]
    simp only [bind, Except.bind, subplots, List.length_singleton, one_ne_zero, if_false]
    obtain ⟨f, hf⟩ := (C77_profile_iff refuses (.matrix rows) [c] (List.replicate 1 {})).2
      ⟨by simp, by simp, rows, rfl, by simpa using hc⟩
    have hl := (C77_profile _ _ _ _ _ hf).1
    rw [hf]
    simp only [setTitle]
    rw [if_pos (by simpa using hl)]
  rw [this]

/-- **C77.** The library function has no such problem: on a figure with one axes it draws any one parameter. -/
theorem C77_one_library (refuses : Bool) (rows : List (List PyFloat)) (c : Char) (ax : Ax) (hc : HasParam refuses rows c) :
    ∃ fig, plotProfile refuses (.matrix rows) [c] [ax] = .ok fig :=
  (C77_profile_iff refuses (.matrix rows) [c] [ax]).2 ⟨by simp, by simp, rows, rfl, by simpa using hc⟩

/-- **C77.** A letter other than I, V and N never gives a figure, nor does an empty list of parameters. -/
theorem C77_unknown (U : Digits) (refuses : Bool) (o : Lsd.Options) (content : Text)
    (h : o.params = [] ∨ ∃ c ∈ o.params, c ∉ stokes) : ∃ e, figure U refuses o content = .error e := by
  rcases hf : figure U refuses o content with e | fig
  · exact ⟨e, rfl⟩
  · obtain ⟨h2, rows, -, hr⟩ := (C77_figure_iff U refuses o content).1 ⟨fig, hf⟩
    rcases h with h | ⟨c, hc, hn⟩
    · rw [h] at h2; simp at h2
    · obtain ⟨k, hk, -⟩ := hr c hc
      exact absurd (List.mem_of_getElem? hk) hn

/-- **C77.** An error leaves the disk as it was; a run without an output name does so too; with one nothing but that file
is changed, and it holds the rendered figure. -/
theorem C77_disk (U : Digits) (refuses : Bool) (render : Text → Fig → Res Text) (o : Lsd.Options) (d : Disk) :
    match Lsd.main U refuses render o d with
    | .error _ d' => d' = d
    | .ok fig d' => (∃ content, d.read o.input = .ok content ∧ figure U refuses o content = .ok fig) ∧
      match o.output with
      | none => d' = d
      | some name => SameElsewhere d d' (d.place name) ∧ ∃ text, render name fig = .ok text ∧ d'.read name = .ok text := by
  rw [Lsd.main_run]
  rcases hr : d.read o.input with e | content
  · rfl
  simp only
  rcases hf : figure U refuses o content with e | fig
  · rfl
  simp only
  rcases o.output with _ | name
  · exact ⟨⟨content, rfl, hf⟩, rfl⟩
  simp only
  rcases hx : render name fig with e | t
  · rfl
  simp only
  split_ifs with h
  · rfl
  · exact ⟨⟨content, rfl, hf⟩, put_same _ _ _, t, hx, read_put _ _ _⟩

/-! ### Tables -/

/-- A line of a table: each token with the white space before it. -/
def Spec.lineText : List (Text × Text) → Text
  | [] => []
  | (w, t) :: r => w ++ (t ++ Spec.lineText r)

/-- The tokens are separated, and are neither empty nor comments; the white space has no line breaks. -/
structure Spec.IsLine (r : List (Text × Text)) : Prop where
  space : ∀ x ∈ r, AllSpace x.1 ∧ '\n' ∉ x.1 ∧ '\r' ∉ x.1
  token : ∀ x ∈ r, NoSpace x.2 ∧ x.2 ≠ [] ∧ '#' ∉ x.2
  apart : ∀ x ∈ r.tail, x.1 ≠ []

namespace Lsd

theorem line_split {r : List (Text × Text)} (h : IsLine r) (w : Text) (hw : AllSpace w) :
    pySplit (lineText r ++ w) = r.map Prod.snd := by
  induction r with
  | nil => exact pySplit_allSpace _ hw
  | cons x r ih =>
    obtain ⟨s, t⟩ := x
    have h' : IsLine r := ⟨fun x hx => h.space x (by simp [hx]), fun x hx => h.token x (by simp [hx]),
      fun x hx => h.apart x (List.mem_of_mem_tail hx)⟩
    have hs := h.space (s, t) (by simp)
    have ht := h.token (s, t) (by simp)
    rw [lineText, List.append_assoc, List.append_assoc, pySplit_token s t _ hs.1 ht.1 ht.2.1, ih h']
    · rfl
    · cases r with
      | nil =>
        cases w with
        | nil => exact .inl rfl
        | cons c w => exact .inr ⟨c, w, rfl, hw c (by simp)⟩
      | cons y r =>
        obtain ⟨s', t'⟩ := y
        have hne := h.apart (s', t') (by simp)
        have hsp := (h.space (s', t') (by simp)).1
        cases s' with
        | nil => exact absurd rfl hne
        | cons c s' => exact .inr ⟨c, _, rfl, hsp c (by simp)⟩

theorem line_mem {r : List (Text × Text)} (h : IsLine r) {c : Char} (hc : c ∈ lineText r) : c ≠ '\n' ∧ c ≠ '\r' ∧ c ≠ '#' := by
  induction r with
  | nil => simp [lineText] at hc
  | cons x r ih =>
    obtain ⟨s, t⟩ := x
    have h' : IsLine r := ⟨fun x hx => h.space x (by simp [hx]), fun x hx => h.token x (by simp [hx]),
      fun x hx => h.apart x (List.mem_of_mem_tail hx)⟩
    have hs := h.space (s, t) (by simp)
    have ht := h.token (s, t) (by simp)
    rw [lineText] at hc
    rcases List.mem_append.1 hc with hc | hc
    · refine ⟨fun e => hs.2.1 (e ▸ hc), fun e => hs.2.2 (e ▸ hc), fun e => ?_⟩
      have := hs.1 c hc
      rw [e] at this
      exact absurd this (by decide)
    rcases List.mem_append.1 hc with hc | hc
    · refine ⟨fun e => ?_, fun e => ?_, fun e => ht.2.2 (e ▸ hc)⟩ <;>
      · have := ht.1 c hc
        rw [e] at this
        exact absurd this (by decide)
    · exact ih h' hc

theorem line_tokens {r : List (Text × Text)} (h : IsLine r) : tokens (lineText r ++ ['\n']) = r.map Prod.snd := by
  rw [tokens, List.takeWhile_eq_self_iff.2, line_split h _ (by intro c hc; rw [List.mem_singleton.1 hc]; decide)]
  intro c hc
  rcases List.mem_append.1 hc with hc | hc
  · simpa using (line_mem h hc).2.2
  · rw [List.mem_singleton.1 hc]; decide

theorem lines_cons (a b : Text) (h : '\n' ∉ a) : lines (a ++ '\n' :: b) = (a ++ ['\n']) :: lines b := by
  induction a with
  | nil => rw [List.nil_append, lines, if_pos rfl]; rfl
  | cons c a ih =>
    rw [List.cons_append, lines, if_neg (fun e => h (by simp [e])), ih (fun h' => h (by simp [h']))]
    rfl

theorem lines_all (ls : List Text) (h : ∀ l ∈ ls, '\n' ∉ l) : lines (ls.flatMap fun l => l ++ ['\n']) = ls.map fun l => l ++ ['\n'] := by
  induction ls with
  | nil => rfl
  | cons l ls ih =>
    rw [List.flatMap_cons, List.append_assoc, List.singleton_append, lines_cons _ _ (h l (by simp)), ih fun l hl => h l (by simp [hl])]
    rfl

theorem univ_id (t : Text) (h : '\r' ∉ t) : univNewlines t = t := by
  induction t with
  | nil => rfl
  | cons c t ih =>
    rw [univ_char (fun e => h (by simp [e])), ih fun h' => h (by simp [h'])]

end Lsd

/-- **C77.** Reading a table: header lines with any content, then rows of tokens separated by white space. All rows
become rows of floats, what is not a number becomes nan. -/
theorem C77_table (U : Digits) (header : List Text) (hh : ∀ l ∈ header, '\n' ∉ l ∧ '\r' ∉ l) (rows : List (List (Text × Text)))
    (hr : ∀ r ∈ rows, IsLine r) (n : ℕ) (hn : 2 ≤ n) (hl : ∀ r ∈ rows, r.length = n) (h2 : 2 ≤ rows.length) :
    genfromtxt U header.length ((header ++ rows.map lineText).flatMap fun l => l ++ ['\n'])
      = .ok (.matrix (rows.map fun r => r.map fun x => (parseFloat U x.2).getD .nan)) := by
  have hb : ∀ l ∈ header ++ rows.map lineText, '\n' ∉ l ∧ '\r' ∉ l := by
    intro l hm
    rcases List.mem_append.1 hm with hm | hm
    · exact hh l hm
    · obtain ⟨r, hr', rfl⟩ := List.mem_map.1 hm
      exact ⟨fun h => (line_mem (hr r hr') h).1 rfl, fun h => (line_mem (hr r hr') h).2.1 rfl⟩
  have hu : univNewlines ((header ++ rows.map lineText).flatMap fun l => l ++ ['\n'])
      = (header ++ rows.map lineText).flatMap fun l => l ++ ['\n'] := by
    apply univ_id
    intro h
    obtain ⟨l, hm, h⟩ := List.mem_flatMap.1 h
    rcases List.mem_append.1 h with h | h
    · exact (hb l hm).2 h
    · simp at h
  have ht : ((lines ((header ++ rows.map lineText).flatMap fun l => l ++ ['\n'])).drop (header.length : ℤ).toNat).map tokens
      = rows.map fun r => r.map Prod.snd := by
    rw [lines_all _ fun l hm => (hb l hm).1, List.map_append, Int.toNat_natCast, List.drop_left' (by simp), List.map_map, List.map_map]
    exact List.map_congr_left fun r hr' => line_tokens (hr r hr')
  have hf : (rows.map fun r => r.map Prod.snd).filter (· ≠ []) = rows.map fun r => r.map Prod.snd := by
    apply List.filter_eq_self.2
    intro x hx
    obtain ⟨r, hr', rfl⟩ := List.mem_map.1 hx
    have := hl r hr'
    simp only [ne_eq, List.map_eq_nil_iff, decide_not, Bool.not_eq_eq_eq_not, Bool.not_true, decide_eq_false_iff_not]
    rintro rfl
    simp at this
    omega
  rw [genfromtxt, hu, ht, hf]
  clear hf ht hu hb hr
  match rows, h2, hl with
  | r :: r' :: rs, _, hl =>
    simp only [List.map_cons]
    rw [if_pos, if_pos]
    · simp [number, Function.comp_def]
    · simp [hl r (by simp), hn]
    · simp only [List.all_cons, List.length_map, hl r (by simp), hl r' (by simp), decide_true, Bool.true_and, List.all_map, List.all_eq_true]
      intro x hx
      simp [hl x (by simp [hx])]

/-- **C77.** A table that is read as one has at least two rows and two columns, and is rectangular: a file with a single
data row gives no figure, whatever is asked for. -/
theorem C77_matrix (U : Digits) (skip : ℤ) (content : Text) (rows : List (List PyFloat))
    (h : genfromtxt U skip content = .ok (.matrix rows)) :
    2 ≤ rows.length ∧ ∃ n, 2 ≤ n ∧ ∀ r ∈ rows, r.length = n := by
  rw [genfromtxt] at h
  split at h
  · cases h
  · rename_i r rs _
    by_cases h1 : (rs.all fun x => decide (x.length = r.length)) = true
    · rw [if_pos h1] at h
      by_cases h2 : rs ≠ [] ∧ 2 ≤ r.length
      · rw [if_pos h2] at h
        have e : (r :: rs).map (fun x => x.map (number U)) = rows := by injection h with h; injection h
        rw [← e]
        refine ⟨?_, r.length, h2.2, ?_⟩
        · have := List.length_pos_iff.2 h2.1
          simp; omega
        · intro x hx
          obtain ⟨y, hy, rfl⟩ := List.mem_map.1 hx
          rw [List.length_map]
          rcases List.mem_cons.1 hy with rfl | hy
          · rfl
          · simpa using List.all_eq_true.1 h1 y hy
      · rw [if_neg h2] at h; injection h with h; cases h
    · rw [if_neg h1] at h; cases h

/-! ### Cases meeting the hypotheses -/

private def lsdText : Text := "star, 2010\n 2 6\n -1 1 0.25 0.5 0.25 0 0.25\n 1.5 .75 0.25 -0.5 0.25 nan 25e-2\n".toList

private def lsdRows : List (List PyFloat) :=
  [[.fin true 1, .fin false 1, .fin false (1/4), .fin false (1/2), .fin false (1/4), .fin false 0, .fin false (1/4)],
   [.fin false (3/2), .fin false (3/4), .fin false (1/4), .fin true (1/2), .fin false (1/4), .nan, .fin false (1/4)]]

private def lsdDisk : Disk where
  place := fun n => n.length
  node := fun i => if i = 3 then some (some lsdText) else none
  writable := fun _ => true
  encodes := fun c => decide (c.toNat < 128)
  ascii := by intro c h; simpa using h

private theorem lsd_read : genfromtxt .asciiOnly 2 lsdText = .ok (.matrix lsdRows) := by decide +kernel

private theorem lsd_has (c : Char) (h : c ∈ stokes) : HasParam true lsdRows c := by
  simp only [stokes, List.mem_cons, List.not_mem_nil, or_false] at h
  rcases h with rfl | rfl | rfl
  · exact ⟨0, rfl, by intro r hr; simp only [lsdRows, List.mem_cons, List.not_mem_nil, or_false] at hr; rcases hr with rfl | rfl <;> exact ⟨_, rfl, fun _ => rfl⟩⟩
  · exact ⟨1, rfl, by intro r hr; simp only [lsdRows, List.mem_cons, List.not_mem_nil, or_false] at hr; rcases hr with rfl | rfl <;> exact ⟨_, rfl, fun _ => rfl⟩⟩
  · exact ⟨2, rfl, by intro r hr; simp only [lsdRows, List.mem_cons, List.not_mem_nil, or_false] at hr; rcases hr with rfl | rfl <;> exact ⟨_, rfl, fun _ => rfl⟩⟩

/-- The program draws the file with its defaults. -/
example : ∃ fig, figure .asciiOnly true { input := "lsd".toList } lsdText = .ok fig :=
  (C77_figure_iff _ _ _ _).2 ⟨by decide, lsdRows, lsd_read, fun c hc => lsd_has c (by revert hc; revert c; decide)⟩

/-- With one parameter it raises. -/
example : Lsd.main .asciiOnly true (fun _ _ => .ok []) { input := "lsd".toList, params := ['V'] } lsdDisk = .error .type lsdDisk :=
  C77_one _ _ _ _ 'V' rfl _ lsdText rfl lsdRows lsd_read (lsd_has 'V' (by decide))

/-- It raises for a table of one row. -/
example : genfromtxt .asciiOnly 2 "a\nb\n1 2 3\n".toList = .ok .other := by decide +kernel

/-- The lines of the table are such lines. -/
example : IsLine [(" ".toList, "-1".toList), (" \t".toList, "1e-3".toList)] :=
  ⟨by simp only [AllSpace]; decide, by simp only [NoSpace]; decide, by decide⟩

end Verif
