import Verif.Model.Cli
import Verif.Model.Converter
import Verif.Model.Maps
import Verif.Model.Plots
import Verif.Model.Summary
import Verif.Model.Label

/-!
# Model of `starwinds_magnetogram/bin/plot_magnetogram.py`

The file is read as in `Model.Cli`; the numbers in it are then taken as exact numbers (infinities and nan as 0: the model
says nothing about files with them), and everything that is drawn is computed in exact arithmetic. A figure is represented
by the numbers and texts in it (`Picture`); how `savefig` turns it into the contents of a file is a parameter. The
command line is in `Model.Argv`; the debugger option is not modelled.
-/

namespace Verif
namespace PlotCmd
open Cli Geometry

/-- The number a float stands for (plot_magnetogram.py:30-41). -/
noncomputable def exactF : PyFloat → ℝ
  | .fin neg q => if neg then -(q : ℝ) else q
  | _ => 0

/-- The number a complex value stands for (plot_magnetogram.py:30-41). -/
noncomputable def exactC (z : PyComplex) : ℂ := ⟨exactF z.1, exactF z.2⟩

/-- The set with exact numbers (plot_magnetogram.py:30-41). -/
noncomputable def exact (s : Coefs PyComplex) : Coefs ℂ :=
  { dflt := s.dflt.map exactC
    dtype := s.dtype
    dict := s.dict.map fun kv => (kv.1, kv.2.map exactC)
    degreeMax := s.degreeMax
    orderMin := s.orderMin }

/-- What a figure shows (plot_magnetogram.py:51-66). -/
inductive Picture
  /-- `plot_zdi_components` -/
  | maps (radial polar azimuthal : Arr2 ℝ) (c : Maps.Components)
  /-- `plot_zdi_field`: title, `legend_str`, the values, and the numbers of `Maps.zdiField` -/
  | field (title symbol : Text) (values : Arr2 ℝ) (img : Maps.Panel) (marks : Maps.Marker × Maps.Marker) (mean : ℝ)
  /-- `plot_energy_by_degree` -/
  | byDegree (curves : List (ℕ × ℝ × ℝ) × List (ℕ × ℝ × ℝ) × List (ℕ × ℝ × ℝ))
  /-- `plot_energy_matrix`: the colour range -/
  | matrix (range : ℝ × ℝ)
  /-- `plot_energy_summary` -/
  | summary (s : Summary.Shown)

/-- `guess_star_name_from_filename` (plot_magnetogram.py:78-79). -/
def starName (input : Text) : Text := ((basename input).take ((basename input).length - 4)).drop 6

/-- `" ".join(parts)` (plot_magnetogram.py:56) -/
def joinSpace : List Text → Text
  | [] => []
  | [t] => t
  | t :: ts => t ++ ' ' :: joinSpace ts

/-- `" ".join(getter.__name__.split("_")[1:])` (plot_magnetogram.py:56). -/
def fieldName (name : Text) : Text := joinSpace ((Label.splitSep '_' name).drop 1)

/-- The methods by plot type (plot_magnetogram.py:45-49): the name of the method, the method, the symbol. -/
noncomputable def getter (z : Zdi) : String → Option (Text × (ℝ → ℝ → Res ℝ) × Text)
  | "radial" => some ("get_radial_field".toList, fun θ φ => .ok (z.radial θ φ), "B_r".toList)
  | "polar" => some ("get_polar_field".toList, z.polar, "B_\\phi".toList)
  | "azimuthal" => some ("get_azimuthal_field".toList, z.azimuthal, "B_\\theta".toList)
  | "strength" => some ("get_field_strength".toList, z.strength, "|B|".toList)
  | "azimuth" => some ("get_azimuthal_field".toList, z.azimuthal, "B_\\theta".toList)
  | _ => none

/-- The plots other than those of one field (plot_magnetogram.py:51-53, 59-66). `normalize` is the default of
matplotlib's `pie`. -/
noncomputable def otherPlot (normalize : Bool) (g : Geom) (z : Zdi) : String → Res Picture
  | "energy-by-degree" => do pure (.byDegree (← Plots.energyByDegree z true))
  | "energy-matrix" => do pure (.matrix (← Plots.plotEnergy z .total false))
  | "energy-summary" => do pure (.summary (← Summary.energySummary normalize z))
  | "map" => do
    let c ← Maps.zdiComponents z g
    let r ← evalAt g fun θ φ => .ok (z.radial θ φ)
    let p ← evalAt g z.polar
    let a ← evalAt g z.azimuthal
    pure (.maps r p a c)
  | _ => .error .value

/-- The plot (plot_magnetogram.py:51-66) with the default geometry. -/
noncomputable def draw (normalize : Bool) (z : Zdi) (star : Text) (plotType : String) : Res Picture := do
  let g ← Geom.init .none .none
  match getter z plotType with
  | some (name, f, symbol) => do
    let values ← evalAt g f
    let (img, marks, mean) ← Maps.zdiField f g
    pure (.field (star ++ ' ' :: fieldName name) symbol values img marks mean)
  | none => otherPlot normalize g z plotType

/-- The magnetogram (plot_magnetogram.py:33-41). -/
noncomputable def magnetogram (E : PyEnv) (type : String) (s : Coefs ℂ) : Res Zdi := do
  let u ← (if type = "pfss" then Converter.pfssToZdi (E.iter s.keys) s
    else if type = "zdi" then .ok s
    else .error .value : Res (Coefs ℂ))
  Zdi.fromCoefficients u

/-- What `main` gets from the command line (plot_magnetogram.py:23-26). -/
structure Options where
  input : Text
  output : Option Text := none
  plotType : String := "map"
  type : String := "zdi"

/-- `main` (plot_magnetogram.py:28-75). `render` makes the contents of an image file of the given name, or raises, for
instance for an unknown extension. The figure is the result, whether it is shown or saved. -/
noncomputable def main (E : PyEnv) (normalize : Bool) (render : Text → Picture → Res Text) (o : Options) :
    Meth Disk Picture := do
  let s ← load E o.input
  let z ← lift (magnetogram E o.type (exact s))
  let pic ← lift (draw normalize z (starName o.input) o.plotType)
  match o.output with
  | none => pure pic
  | some name => do
    let text ← lift (render name pic)
    fun d => if d.writable (d.place name) = false then .error .noFile d else .ok pic (d.put (d.place name) text)

end PlotCmd
end Verif
