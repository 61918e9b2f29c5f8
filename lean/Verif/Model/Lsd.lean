import Verif.Model.Cli
import Verif.Model.Plots

/-!
# Model of `starwinds_magnetogram/plot_lsd.py` and `starwinds_magnetogram/bin/plot_lsd.py`

An LSD profile is a table of floats. A figure is the list of its axes, an axes the curves with error bars and the texts in
it. How `savefig` turns it into a file and how matplotlib chooses the limits of an axis are parameters. Grid lines, sizes
and line widths are not modelled, nor is the debugger option. The command line is in `Model.Argv`.
-/

namespace Verif
namespace Lsd
open Cli

/-- What `np.genfromtxt` returns: it drops the axes of length 1, so that a table of one row or one column, or an empty
one, is not two-dimensional (bin/plot_lsd.py:27). -/
inductive Data
  | matrix (rows : List (List PyFloat))
  | other
  deriving DecidableEq

/-- The tokens of a line (numpy's `LineSplitter` without delimiter): up to `#`, split at white space
(bin/plot_lsd.py:27). -/
def tokens (line : Text) : List Text := pySplit (line.takeWhile (· ≠ '#'))

/-- The float of a token; what is not a number becomes nan (bin/plot_lsd.py:27). -/
def number (U : Digits) (t : Text) : PyFloat := (parseFloat U t).getD .nan

/-- `np.genfromtxt(file, skip_header=skip)` (bin/plot_lsd.py:27): ValueError if not all lines have as many tokens. -/
def genfromtxt (U : Digits) (skip : ℤ) (content : Text) : Res Data :=
  match (((lines (univNewlines content)).drop skip.toNat).map tokens).filter (· ≠ []) with
  | [] => .ok .other
  | r :: rs =>
    if rs.all (fun x => x.length = r.length) then
      if rs ≠ [] ∧ 2 ≤ r.length then .ok (.matrix ((r :: rs).map fun x => x.map (number U))) else .ok .other
    else .error .value

/-- `data[:, c]` (plot_lsd.py:22, 123) -/
def column : Data → ℕ → Res (List PyFloat)
  | .matrix rows, c => rows.mapM fun r => r[c]?.elim (.error .index) .ok
  | .other, _ => .error .index

/-- One call of `errorbar` (plot_lsd.py:22, 123). -/
structure Curve where
  x : List PyFloat
  y : List PyFloat
  err : List PyFloat
  deriving DecidableEq

/-- An axes. `lim` are the limits of its ordinate if they have been set (plot_lsd.py:13-24). -/
structure Ax where
  curves : List Curve := []
  ylabel : Option Text := none
  xlabel : Option Text := none
  title : Option Text := none
  legend : Option Text := none
  lim : Option (ℚ × ℚ) := none
  deriving DecidableEq

/-- See plot_lsd.py:13-24. -/
abbrev Fig := List Ax

/-- Below zero (plot_lsd.py:22, 123). -/
def negative : PyFloat → Bool
  | .fin neg q => neg && decide (q ≠ 0)
  | .inf neg => neg
  | .nan => false

/-- `ax.errorbar(x, y, yerr=e)`. Newer versions of matplotlib refuse negative errors (`refuses`)
(plot_lsd.py:22, 123). -/
def errorbar (refuses : Bool) (ax : Ax) (x y e : List PyFloat) : Res Ax :=
  if refuses && e.any negative then .error .value else .ok { ax with curves := ax.curves ++ [⟨x, y, e⟩] }

/-- `row_offsets` (plot_lsd.py:18). -/
def offset : Char → Res ℕ
  | 'I' => .ok 1
  | 'V' => .ok 3
  | 'N' => .ok 5
  | _ => .error .key

/-- The body of the loop (plot_lsd.py:21-24): axes `i` gets parameter `c`. -/
def drawOne (refuses : Bool) (data : Data) (fig : Fig) (i : ℕ) (c : Char) : Res Fig := do
  let ax ← fig[i]?.elim (.error .index) .ok
  let x ← column data 0
  let k ← offset c
  let y ← column data k
  let e ← column data (k + 1)
  let ax ← errorbar refuses ax x y e
  pure (fig.set i { ax with ylabel := some ("Stokes $".toList ++ c :: "/I_\\mathrm{c}$".toList) })

/-- The loop (plot_lsd.py:20-24) from axes `i` on. -/
def drawAll (refuses : Bool) (data : Data) (fig : Fig) (i : ℕ) : Text → Res Fig
  | [] => .ok fig
  | c :: cs => do drawAll refuses data (← drawOne refuses data fig i c) (i + 1) cs

/-- `plot_lsd_profile` (plot_lsd.py:7-30) on the current figure. -/
def plotProfile (refuses : Bool) (data : Data) (params : Text) (fig : Fig) : Res Fig := do
  resAssert (params.length ≤ fig.length)
  let fig ← drawAll refuses data fig 0 params
  if params = [] then .error .unbound
  else .ok (fig.modify (params.length - 1) fun ax => { ax with xlabel := some "Doppler velocity".toList })

/-- `plt.subplots(n)`: the new figure (bin/plot_lsd.py:30). -/
def subplots (n : ℕ) : Res Fig := if n = 0 then .error .value else .ok (List.replicate n {})

/-- What `main` gets from the command line (bin/plot_lsd.py:19-22). -/
structure Options where
  input : Text
  output : Option Text := none
  params : Text := "VI".toList
  skip : ℤ := 2

/-- The title (bin/plot_lsd.py:32): for one axes `subplots` returns no array, and indexing raises TypeError. -/
def setTitle (input : Text) (fig : Fig) : Res Fig :=
  if fig.length = 1 then .error .type
  else .ok (fig.modify 0 fun ax => { ax with title := some ("Data in ".toList ++ input) })

/-- The figure (bin/plot_lsd.py:27-32) from the content of the file. -/
def figure (U : Digits) (refuses : Bool) (o : Options) (content : Text) : Res Fig := do
  let data ← genfromtxt U o.skip content
  let fig ← subplots o.params.length
  let fig ← plotProfile refuses data o.params fig
  setTitle o.input fig

/-- `main` (bin/plot_lsd.py:15-37). `render` is the content of the image file, or raises. -/
def main (U : Digits) (refuses : Bool) (render : Text → Fig → Res Text) (o : Options) : Meth Disk Fig := do
  let content ← lift ((← get).read o.input)
  let fig ← lift (figure U refuses o content)
  match o.output with
  | none => pure fig
  | some name => do
    let text ← lift (render name fig)
    fun d => if d.writable (d.place name) = false then .error .noFile d else .ok fig (d.put (d.place name) text)

/-! ### Stacks -/

/-- The argument `y_lim` (plot_lsd.py:136-144). -/
inductive YLim
  | unset
  | same
  | given (lo hi : ℚ)

/-- The axes (plot_lsd.py:109-115) and whether they are in a list: those of the current figure if there are as many as
profiles, or new ones. -/
def stackAxes (n : ℕ) (fig : Fig) : Res (Bool × Fig) :=
  if fig.length = n then .ok (true, fig)
  else do
    let fig ← subplots n
    pure (decide (n ≠ 1), fig)

/-- The legend (plot_lsd.py:127-128). -/
def legendAt (names : Option (List Text)) (i : ℕ) (old : Option Text) : Res (Option Text) :=
  match names with
  | none => .ok old
  | some ns => ns[i]?.elim (.error .index) fun t => .ok (some t)

/-- The body of the loop (plot_lsd.py:121-131). -/
def stackOne (refuses : Bool) (names : Option (List Text)) (fig : Fig) (i : ℕ) (data : Data) : Res Fig := do
  let ax ← fig[i]?.elim (.error .index) .ok
  let x ← column data 0
  let y ← column data 3
  let e ← column data 4
  let ax ← errorbar refuses ax x y e
  let legend ← legendAt names i ax.legend
  pure (fig.set i { ax with legend := legend, ylabel := some "$V/V_\\mathrm{c}$".toList })

/-- The loop (plot_lsd.py:120-131) from profile `i` on. -/
def stackAll (refuses : Bool) (names : Option (List Text)) (fig : Fig) (i : ℕ) : List Data → Res Fig
  | [] => .ok fig
  | d :: ds => do stackAll refuses names (← stackOne refuses names fig i d) (i + 1) ds

/-- `ax.get_ylim()`; `auto` are the limits matplotlib chooses for the curves
(plot_lsd.py:136-144). -/
def getYlim (auto : List Curve → ℚ × ℚ) (ax : Ax) : ℚ × ℚ := ax.lim.getD (auto ax.curves)

/-- The common limits (plot_lsd.py:136-140). -/
def sameLim (auto : List Curve → ℚ × ℚ) (fig : Fig) : Res (ℚ × ℚ) :=
  fig.head?.elim (.error .index) fun ax =>
    .ok (fig.foldl (fun l a => (min l.1 (getYlim auto a).1, max l.2 (getYlim auto a).2)) (getYlim auto ax))

/-- `ax.set_ylim` for all axes (plot_lsd.py:136-144). That matplotlib widens limits that are equal is not modelled. -/
def setLims (auto : List Curve → ℚ × ℚ) (fig : Fig) : YLim → Res Fig
  | .unset => .ok fig
  | .same => do
    let l ← sameLim auto fig
    pure (fig.map fun ax => { ax with lim := some l })
  | .given lo hi => .ok (fig.map fun ax => { ax with lim := some (lo, hi) })

/-- `plot_lsd_stack` (plot_lsd.py:97-146) on the current figure. An empty stack on a figure without axes: `plt.autoscale`
(line 118) makes one, which gets the limits if they are given; otherwise there is no `ax` in line 146. -/
def plotStack (refuses : Bool) (auto : List Curve → ℚ × ℚ) (stack : List Data) (names : Option (List Text)) (ylim : YLim)
    (fig : Fig) : Res Fig := do
  let (isList, fig) ← stackAxes stack.length fig
  if stack = [] then
    match ylim with
    | .unset => .error .unbound
    | .same => .error .index
    | .given lo hi => .ok [{ lim := some (lo, hi), xlabel := some "[km/s]".toList }]
  else if isList = false then .error .type
  else do
    let fig ← stackAll refuses names fig 0 stack
    let fig ← setLims auto fig ylim
    pure (fig.modify (stack.length - 1) fun ax => { ax with xlabel := some "[km/s]".toList })

end Lsd
end Verif
