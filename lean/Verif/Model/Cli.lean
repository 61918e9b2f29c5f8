import Verif.Model.ReaderWriter
import Verif.Py.Arith

/-!
# Model of `starwinds_magnetogram/bin/convert_magnetogram.py`

The file system maps path names to places and places to contents, so that two names may denote the same file. A file
that cannot be opened or decoded raises one exception, `noFile`; a character that the locale cannot encode raises
ValueError (UnicodeEncodeError) after the file has been opened, hence emptied. Other errors while writing (disk full)
and the debugger option are not modelled; the command line is in `Model.Argv`. The conversions are those of converter.py on
complex128 arrays with rounded products; the values of the factor functions are parameters here; `Model.FloatFactors` computes them.
-/

namespace Verif
namespace Cli

/-- The file system. `place` resolves a path name (relative to the current directory, through links)
(reader_writer.py:48, 120, convert_magnetogram.py:104). -/
structure Disk where
  place : Text → ℕ
  /-- `none`: nothing there; `some none`: a directory or something that is not readable text -/
  node : ℕ → Option (Option Text)
  /-- whether `open(_, 'w')` succeeds -/
  writable : ℕ → Bool
  /-- the characters of the locale's encoding; they include ASCII -/
  encodes : Char → Bool
  ascii : ∀ c : Char, c.toNat < 128 → encodes c = true

namespace Disk

/-- `os.path.exists` (convert_magnetogram.py:104-108). -/
def pathExists (d : Disk) (name : Text) : Bool := (d.node (d.place name)).isSome

/-- `open(name, 'r').read()` (reader_writer.py:48-49). -/
def read (d : Disk) (name : Text) : Res Text :=
  match d.node (d.place name) with
  | some (some t) => .ok t
  | _ => .error .noFile

/-- The file at a place now has the given content (reader_writer.py:120-125). -/
def put (d : Disk) (i : ℕ) (text : Text) : Disk :=
  { d with node := fun j => if j = i then some (some text) else d.node j }

/-- `with open(name, 'w') as f: f.write(...)` (reader_writer.py:120-125). Only the first `write`, that of the header, can
have characters outside ASCII; when it raises nothing has been written into the emptied file. -/
def write (name : Text) (text : Text) : Meth Disk Unit := fun d =>
  if d.writable (d.place name) = false then .error .noFile d
  else if text.all d.encodes = false then .error .value (d.put (d.place name) [])
  else .ok () (d.put (d.place name) text)

end Disk

/-- `os.path.basename` (POSIX): everything after the last slash (convert_magnetogram.py:98, plot_magnetogram.py:79). -/
def basename (t : Text) : Text := (t.reverse.takeWhile (· ≠ '/')).reverse

/-- `os.path.splitext`: the extension starts at the last dot of the last component, unless only dots precede it
(convert_magnetogram.py:100). -/
def splitext (t : Text) : Text × Text :=
  let b := basename t
  let tail := (b.reverse.takeWhile (· ≠ '.')).reverse
  let stem := b.take (b.length - tail.length - 1)
  if b.contains '.' && stem.any (· ≠ '.') then (t.take (t.length - tail.length - 1), '.' :: tail) else (t, [])

/-- The name made up when none is given (convert_magnetogram.py:98-102). -/
def madeName (input postfixText : Text) : Text :=
  let n := splitext (basename input)
  n.1 ++ ('_' :: postfixText) ++ n.2

/-- `_make_output_filename` (convert_magnetogram.py:92-110). -/
def outputName (d : Disk) (input : Text) (output : Option Text) (postfixText : Text) : Res Text :=
  match output with
  | none =>
    let name := madeName input postfixText
    if d.pathExists name then .error .value
    else if input = name then .error .value
    else .ok name
  | some name => if input = name then .error .value else .ok name

/-- The values of the factor functions of converter.py as computed: `forward_conversion_factor`, the same to the power
-1, and `_beta_inverse_conversion_factor`; they may raise (`np.sqrt` of an int that is too large) (converter.py:84-113,
128-130). -/
structure Factors where
  fwd : ℤ → ℤ → Res PyFloat
  inv : ℤ → ℤ → Res PyFloat
  beta : ℤ → ℤ → Res PyFloat

/-- `scale` (coefficients.py:273-282) of a complex128 set by float64 factors, which numpy converts to complex. -/
def scaleF (s : Coefs PyComplex) (f : ℤ → ℤ → Res PyFloat) : Res (Coefs PyComplex) := do
  let out ← s.copy
  s.keys.foldlM (fun o k => do
    let x ← f k.1 k.2
    @Coefs.imulAt _ _ ⟨PyFloat.cmul⟩ o k (x, .fin false 0)) out

/-- `convert_zdi_to_pfss` (converter.py:116-125). -/
def zdiToPfss (F : Factors) (s : Coefs PyComplex) : Res (Coefs PyComplex) := scaleF s F.fwd

/-- `convert_pfss_to_zdi` (converter.py:133-149). -/
def pfssToZdi (E : PyEnv) (F : Factors) (s : Coefs PyComplex) : Res (Coefs PyComplex) := do
  let alpha ← scaleF s F.inv
  let beta ← scaleF alpha F.beta
  let gamma ← alpha.zerosLike
  Coefs.hstack (E.iter ([alpha, beta, gamma].flatMap Coefs.keys)) [alpha, beta, gamma]

/-- What `main` gets from the command line (convert_magnetogram.py:16-32). -/
structure Options where
  input : Text
  output : Option Text := none
  pfssToZdi : Bool := false
  degreeMax : Option ℤ := none
  swmfHeader : Bool := true
  noConversion : Bool := false

/-- A call that does not touch the disk (convert_magnetogram.py:45-89). -/
def lift {α : Type} (r : Res α) : Meth Disk α :=
  match r with
  | .ok a => pure a
  | .error e => throw e

/-- The end of the three functions: make the name, build the text, write it (convert_magnetogram.py:45-59, 62-73,
76-89). -/
def save (src : Text) (o : Options) (postfixText : Text) (s : Coefs PyComplex) (swmf : Bool) : Meth Disk Unit := do
  let name ← lift (outputName (← get) o.input o.output postfixText)
  let text ← lift (writeMagnetogram src name s o.degreeMax 0 swmf)
  Disk.write name text

/-- `read_magnetogram_file` (reader_writer.py:10-84) on a file. -/
def load (E : PyEnv) (name : Text) : Meth Disk (Coefs PyComplex) := do
  let text ← lift ((← get).read name)
  lift (readMagnetogram E text)

/-- `no_conversion` (convert_magnetogram.py:45-59). -/
def noConversion (E : PyEnv) (src : Text) (o : Options) : Meth Disk Unit := do
  let s ← load E o.input
  if s.dflt.length ≠ 1 then throw .index
  save src o "wso".toList s o.swmfHeader

/-- `convert_zdi_to_pfss` (convert_magnetogram.py:62-73). `first, *_ = []` raises ValueError. -/
def convertZdiToPfss (E : PyEnv) (F : Factors) (src : Text) (o : Options) : Meth Disk Unit := do
  let s ← load E o.input
  let cols ← lift s.hsplit
  let radial ← lift (cols.head?.elim (.error .value) .ok)
  let p ← lift (zdiToPfss F radial)
  save src o "wso".toList p o.swmfHeader

/-- `convert_pfss_to_zdi` (convert_magnetogram.py:76-89). -/
def convertPfssToZdi (E : PyEnv) (F : Factors) (src : Text) (o : Options) : Meth Disk Unit := do
  let s ← load E o.input
  if s.dflt.length ≠ 1 then throw .index
  let z ← lift (pfssToZdi E F s)
  save src o "zdi".toList z false

/-- `main` (convert_magnetogram.py:34-42). `src` is `__file__` of reader_writer.py. -/
def main (E : PyEnv) (F : Factors) (src : Text) (o : Options) : Meth Disk Unit :=
  if o.noConversion then noConversion E src o
  else if o.pfssToZdi then convertPfssToZdi E F src o
  else convertZdiToPfss E F src o

end Cli
end Verif
