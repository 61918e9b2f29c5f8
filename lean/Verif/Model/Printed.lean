import Verif.Model.Coefficients
import Verif.Py.Text

/-!
# Model of the printed forms of coefficient sets and ZDI magnetograms

What numpy makes of an array or a number is a parameter (`np.array_str`, `repr` of an array, `format` of a number): the text
depends on numpy's print options.
-/

namespace Verif
namespace Printed

variable {α : Type}

/-- `str` of a `Coefficients` (coefficients.py:73-80); `arr` is `np.array_str`, which is also what `str` of an array gives. -/
def strText (arr : List α → Text) (s : Coefs α) : Text :=
  if s.dict.length = 0 then
    "Empty spherical harmonics coefficients with element like ".toList ++ arr s.dflt ++ ".".toList
  else
    (sortKeys s.keys).foldl
      (fun t k => t ++ (intText k.1 ++ ", ".toList ++ intText k.2 ++ ", ".toList ++ arr (s.getI k) ++ "\n".toList))
      "Spherical harmonics coefficients:\n".toList

/-- The entries of a dict as `str(dict)` prints them, with `, ` between them (coefficients.py:82-83). -/
def entries (rep : List α → Text) : List (Key × List α) → Text
  | [] => []
  | [(k, v)] => "(".toList ++ intText k.1 ++ ", ".toList ++ intText k.2 ++ "): ".toList ++ rep v
  | (k, v) :: d => "(".toList ++ intText k.1 ++ ", ".toList ++ intText k.2 ++ "): ".toList ++ rep v ++ ", ".toList ++ entries rep d

/-- `repr` of a `Coefficients` (coefficients.py:82-83): `str(self.coefficients)`, a dict in the order of insertion; `rep` is
`repr` of an array. -/
def reprText (rep : List α → Text) (s : Coefs α) : Text := "{".toList ++ entries rep s.dict ++ "}".toList

/-- `str` of a `ZdiMagnetogram` (zdi_magnetogram.py:68-73): the five arrays are zipped; `num` is what an f-string makes of a
number. -/
def zdi (num : α → Text) (degrees orders : List ℤ) (alpha beta gamma : List α) : Text :=
  ((degrees.zip orders).zip (alpha.zip (beta.zip gamma))).foldl
    (fun s r => s ++ (intText r.1.1 ++ ", ".toList ++ intText r.1.2 ++ ": ".toList ++ num r.2.1 ++ ", ".toList ++ num r.2.2.1
      ++ ", ".toList ++ num r.2.2.2 ++ "\n".toList))
    "ZDI magnetogram\n".toList

end Printed
end Verif
