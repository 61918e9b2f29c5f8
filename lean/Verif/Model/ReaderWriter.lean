import Verif.Model.Coefficients
import Verif.Py.Text

/-!
# Model of `starwinds_magnetogram/reader_writer.py`

A file is the text it contains (decoding, the file system and logging are not modelled). Floats are the
binary64 values of `Verif.Py.Float`.
-/

namespace Verif

/-- A complex128 number: real and imaginary part (reader_writer.py:57-73). -/
abbrev PyComplex := PyFloat × PyFloat

/-- The sets that are read are complex128 throughout, and a set of a lower dtype that is written is
represented by complex numbers with a zero imaginary part, so `astype` is the identity here (reader_writer.py:57-73). -/
instance : Elem PyComplex where
  cast _ x := x
  cast_idem _ _ := rfl
  cast_mono _ _ _ _ _ := rfl

/-- What the model leaves open about the python it runs on (reader_writer.py:53-73). -/
structure PyEnv where
  /-- table of decimal digits -/
  digits : Digits
  /-- mixed real/complex arithmetic of python ≥ 3.14 -/
  mixed : Bool
  /-- the order in which a set of keys is iterated -/
  iter : List Key → List Key
  iter_ok : ∀ ks, IsSetIter (iter ks) ks

/-- `0j`, the default coefficient (coefficients.py:13). -/
def zeroJ : PyComplex := (.fin false 0, .fin false 0)

/-- Lines 56-60 of reader_writer.py: the four leading tokens of a stripped line (reader_writer.py:56-60). -/
def lineFields (U : Digits) (line : Text) : Res (ℤ × ℤ × PyFloat × PyFloat) := do
  let toks := pySplit line
  let t0 ← toks[0]?.elim (.error .index) .ok
  let l ← (parseInt U t0).elim (.error .value) .ok
  let t1 ← toks[1]?.elim (.error .index) .ok
  let m ← (parseInt U t1).elim (.error .value) .ok
  let t2 ← toks[2]?.elim (.error .index) .ok
  let re ← (parseFloat U t2).elim (.error .value) .ok
  let t3 ← toks[3]?.elim (.error .index) .ok
  let im ← (parseFloat U t3).elim (.error .value) .ok
  pure (l, m, re, im)

/-- The loop over the lines (reader_writer.py:53-73). `done ++ [cur]` is `coefficient_sets`. `IndexError` and
`ValueError` raised inside the `try` are caught, anything else propagates. -/
def readLoop (E : PyEnv) (done : List (Coefs PyComplex)) (cur : Coefs PyComplex) :
    List Text → Res (List (Coefs PyComplex))
  | [] => .ok (done ++ [cur])
  | line :: rest =>
    match lineFields E.digits line with
    | .error .index => readLoop E done cur rest                    -- lines 62-64
    | .error .value => readLoop E done cur rest                    -- lines 65-67
    | .error e => .error e
    | .ok (l, m, re, im) =>
      let (done, cur) :=
        if cur.has (.int l) (.int m) then (done ++ [cur], cur.emptyLike) else (done, cur)   -- lines 69-71
      match cur.append (.int l) (.int m) [PyFloat.complexOf E.mixed re im] with             -- line 73
      | .ok () cur => readLoop E done cur rest
      | .error e _ => .error e

/-- `read_magnetogram_file` (reader_writer.py:10-84) on the content of the file. -/
def readMagnetogram (E : PyEnv) (content : Text) : Res (Coefs PyComplex) := do
  let stripped := (lines (univNewlines content)).map strip         -- line 49
  let sets ← readLoop E [] (Coefs.new [zeroJ] .cplx) stripped      -- lines 51-73
  Coefs.hstack (E.iter (sets.flatMap Coefs.keys)) sets             -- line 84

/-- `"%3d  %3d  %13e  %13e"` (reader_writer.py:111). -/
def dataLine (d m : ℤ) (z : PyComplex) : Text :=
  padLeft 3 (intText d) ++ [' ', ' '] ++ padLeft 3 (intText m) ++ [' ', ' ']
    ++ padLeft 13 (fmtE z.1) ++ [' ', ' '] ++ padLeft 13 (fmtE z.2)

/-- `sep.join(parts)` (reader_writer.py:111-125). -/
def joinText (sep : Text) : List Text → Text
  | [] => []
  | [p] => p
  | p :: ps => p ++ sep ++ joinText sep ps

/-- `create_swmf_header` (reader_writer.py:130-149); `dlon` is the text of the float. -/
def swmfHeader (fileName : Text) (numDataLines : ℕ) (maxDegree : ℤ) (carrington : ℤ) (dlon : Text) : List Text :=
  [ fileName,
    joinText [' ', ' '] ["0".toList, "0.0".toList, "-2".toList, "3".toList, "2".toList],
    joinText [' ', ' '] [natText numDataLines, "1".toList],
    joinText [' ', ' '] [intText maxDegree, intText carrington, dlon],
    joinText [' ', ' '] ["n".toList, "m".toList, "g".toList, "h".toList, "nOrder".toList, "CR".toList,
      "dLon".toList] ]

/-- One pass of the inner loop (reader_writer.py:106-111): every data line is its own one-element list. -/
def dataRow (d m : ℤ) (data : List PyComplex) : Res (List Text) :=
  match data with
  | [z] => .ok [dataLine d m z]
  | _ => .error .assertion

/-- The data lines of one column (reader_writer.py:106-111). -/
def columnLines (c : Coefs PyComplex) (degreeMax orderMin : ℤ) : Res (List (List Text)) := do
  let (ls, ms, vs) ← c.asArrays true none (some degreeMax) (some orderMin) none
  (ls.zip (ms.zip vs)).mapM fun x => dataRow x.1 x.2.1 x.2.2

/-- `coefficient_data_lines` (reader_writer.py:101-111). -/
def dataBlocks (s : Coefs PyComplex) (degreeMax orderMin : ℤ) : Res (List (List Text)) := do
  let cols ← s.hsplit
  let parts ← cols.mapM fun c => columnLines c degreeMax orderMin
  pure parts.flatten

/-- `write_magnetogram_file` (reader_writer.py:87-127): the content written. `srcPath` is `__file__`;
`len(coefficient_data_lines[0])` of an empty list raises IndexError. -/
def writeMagnetogram (srcPath fileName : Text) (s : Coefs PyComplex) (degreeMax : Option ℤ := none)
    (orderMin : ℤ := 0) (swmf : Bool := false) : Res Text := do
  let degreeMax := degreeMax.getD s.degreeMax
  let blocks ← dataBlocks s degreeMax orderMin
  let header ←
    if swmf then
      match blocks with
      | [] => .error .index
      | b :: _ => .ok (swmfHeader fileName b.length degreeMax 0 "0.0".toList)
    else .ok ["Output of ".toList ++ srcPath, "Order:".toList ++ intText degreeMax]
  pure (joinText ['\n'] header ++ ['\n'] ++ blocks.flatMap fun b => joinText ['\n'] b ++ ['\n'])

end Verif
