import Verif.Model.World
import Verif.Model.Regex

/-!
# `atomtoolkit/IO.py`: hyperfine CSV files and second configurations; `Atom.save` file names

Files are texts (`List Char`); opening, encoding and closing are not modelled.  The `csv` module is modelled with its
default dialect (`excel`): separator `,`, quote `"`, doubled quotes, line end `\r\n`, quoting only where needed.  The
limit on the length of a field and the check for NUL characters are left out.
-/

namespace AtomTk

namespace Csv

/-! ## Writing -/

/-- Whether `csv.writer` puts a field in quotes: it contains the separator, the quote or a line-end character. -/
def needsQuote (f : Str) : Bool := f.any fun c => c == ',' || c == '"' || c == '\r' || c == '\n'

/-- The text between quotes: every quote is doubled. -/
def escape : Str → Str
  | [] => []
  | c :: cs => if c = '"' then '"' :: '"' :: escape cs else c :: escape cs

/-- One field. -/
def writeField (f : Str) : Str := if needsQuote f then '"' :: (escape f ++ ['"']) else f

/-- Fields joined by commas. -/
def joinFields : List Str → Str
  | [] => []
  | [f] => writeField f
  | f :: fs => writeField f ++ ',' :: joinFields fs

/-- `writer.writerow`: a row made of one empty field is written as `""`. -/
def writeRow (r : List Str) : Str := (if r = [[]] then ['"', '"'] else joinFields r) ++ ['\r', '\n']

/-- `writer.writerows`. -/
def write (rows : List (List Str)) : Str := rows.flatMap writeRow

/-! ## Reading -/

/-- The lines of a file opened with `newline=''`: a line ends after `\n`, `\r` or `\r\n`, and the ends are kept. -/
def splitLines : Str → List Str
  | [] => []
  | '\n' :: cs => ['\n'] :: splitLines cs
  | '\r' :: '\n' :: cs => ['\r', '\n'] :: splitLines cs
  | '\r' :: cs => ['\r'] :: splitLines cs
  | c :: cs => match splitLines cs with
    | [] => [[c]]
    | l :: ls => (c :: l) :: ls

/-- States of the reader (`ParserState` in CPython's `_csv.c`; the states for escape characters and for unquoted
numbers are not used by this dialect). -/
inductive St
  | startRecord | startField | inField | inQuoted | quoteInQuoted | eatCrnl
  deriving DecidableEq, Repr

/-- The reader: state, field being read, fields finished. -/
structure Rd where
  st : St
  field : Str
  fields : List Str
  deriving DecidableEq, Repr

/-- `parse_reset`. -/
def Rd.reset : Rd := ⟨.startRecord, [], []⟩

/-- `parse_save_field`. -/
def Rd.save (r : Rd) (s : St) : Rd := ⟨s, [], r.fields ++ [r.field]⟩

/-- `parse_add_char`. -/
def Rd.add (r : Rd) (s : St) (c : Char) : Rd := ⟨s, r.field ++ [c], r.fields⟩

/-- A line-end character. -/
def isNl (c : Char) : Bool := c == '\n' || c == '\r'

/-- The `START_FIELD` case of `parse_process_char`. -/
def Rd.start (r : Rd) (c : Char) : Rd :=
  if isNl c then r.save .eatCrnl
  else if c = '"' then { r with st := .inQuoted }
  else if c = ',' then r.save .startField
  else r.add .inField c

/-- `parse_process_char` for a character.  After the end of a record any further character of the same line raises
`csv.Error`; lines of a file have nothing after their end (`splitLines_shape`), so that case is left without effect. -/
def Rd.step (r : Rd) (c : Char) : Rd :=
  match r.st with
  | .startRecord => if isNl c then { r with st := .eatCrnl } else r.start c
  | .startField => r.start c
  | .inField =>
    if isNl c then r.save .eatCrnl
    else if c = ',' then r.save .startField
    else r.add .inField c
  | .inQuoted => if c = '"' then { r with st := .quoteInQuoted } else r.add .inQuoted c
  | .quoteInQuoted =>
    if c = '"' then r.add .inQuoted c
    else if c = ',' then r.save .startField
    else if isNl c then r.save .eatCrnl
    else r.add .inField c
  | .eatCrnl => r

/-- `parse_process_char` for the end of a line. -/
def Rd.eol (r : Rd) : Rd :=
  match r.st with
  | .startRecord => r
  | .startField => r.save .startRecord
  | .inField => r.save .startRecord
  | .inQuoted => r
  | .quoteInQuoted => r.save .startRecord
  | .eatCrnl => { r with st := .startRecord }

/-- `Reader_iternext`, repeated: feed lines; a record is complete when the reader is back in `START_RECORD`; at the end
of the file an unfinished quoted or nonempty field is saved and its record returned. -/
def readLines : Rd → List Str → List (List Str)
  | r, [] => if r.field ≠ [] ∨ r.st = .inQuoted then [r.fields ++ [r.field]] else []
  | r, l :: ls =>
    let r' := (l.foldl Rd.step r).eol
    if r'.st = .startRecord then r'.fields :: readLines .reset ls else readLines r' ls

/-- The rows `csv.reader` gives for a file. -/
def read (s : Str) : List (List Str) := readLines .reset (splitLines s)

end Csv

namespace World

/-! ## Hyperfine constants -/

/-- How quantities are turned into text and back: `fmt v` is `str(Quantity(v, 'Hz'))`; `parse s` is `Q_(s)`, which may
raise, and otherwise gives a quantity that is `v` Hz (`some v`) or has another dimension (`none`).  `defTxt` and
`zeroTxt` are the texts of `def_A` and of `Q_(0.0, 'GHz')`. -/
structure QText where
  fmt : ℚ → Str
  parse : Str → Py (Option ℚ)
  defTxt : Str
  zeroTxt : Str

/-- The row written for a level (IO.py:252-254, 256-258).  The levels' constants are stored in Hz and
`level.hfA != Q_(0.0, 'GHz')` is the exact comparison with zero. -/
def hfRow (q : QText) (blank : Bool) (w : World) (i : Nat) : List Str :=
  if blank then [w.lname i, q.zeroTxt, q.zeroTxt, q.zeroTxt]
  else [w.lname i, if (w.lv i).hfA ≠ 0 then q.fmt (w.lv i).hfA else q.defTxt, q.fmt (w.lv i).hfB, q.fmt (w.lv i).hfC]

/-- `generate_hf_csv(atom, blank=…, def_A=…)` (IO.py:240-261): the text written. -/
def generateHf (q : QText) (blank : Bool) (w : World) : Str := Csv.write (w.g.levelAttrs.vals.map (hfRow q blank w))

/-- Which constant. -/
inductive Const
  | A | B | C
  deriving DecidableEq, Repr

/-- A level with one constant changed. -/
def setConst (l : ELevel) : Const → ℚ → ELevel
  | .A, v => { l with hfA := v }
  | .B, v => { l with hfB := v }
  | .C, v => { l with hfC := v }

/-- `atom.levels[name].hfX = Q_(text)` (IO.py:276-278; setters atom.py:311-313, 320-322, 329-331).  The right side is
evaluated first, then the lookup, then the setter converts to Hz.  Sublevels have no such property, so the assignment
only adds an attribute that nothing reads. -/
def assignConst (q : QText) (c : Const) (name text : Str) : PyM Unit := do
  let v ← PyM.lift (q.parse text)
  let r ← levelsGet name
  match r with
  | .fine i => match v with
    | some x => PyM.modify fun w => w.setLv i (setConst (w.lv i) c x)
    | none => PyM.raise .DimensionalityError
  | _ => pure ()

/-- The body of the `try` (IO.py:275-278): unpacking a row of another length raises `ValueError`. -/
def applyRowBody (q : QText) : List Str → PyM Unit
  | [n, a, b, c] => do
    assignConst q .A n a
    assignConst q .B n b
    assignConst q .C n c
  | _ => PyM.raise .ValueError

/-- `try … except KeyError: pass` (IO.py:274-280). -/
def applyRow (q : QText) (row : List Str) : PyM Unit := fun w =>
  match applyRowBody q row w with
  | (w', .error .KeyError) => (w', .ok ())
  | r => r

/-- The loop over the rows (IO.py:273-280). -/
def applyRows (q : QText) : List (List Str) → PyM Unit
  | [] => pure ()
  | r :: rs => do
    applyRow q r
    applyRows q rs

/-- `apply_hf_csv(atom, filename)` (IO.py:264-280) on the text of the file. -/
def applyHf (q : QText) (file : Str) : PyM Unit := applyRows q (Csv.read file)

end World

/-! ## File names -/

/-- `.atom` -/
def dotAtom : Str := ".atom".toList

/-- The file name `Atom.save` opens (atom.py:970-983): `name` is the atom's name, used when no file name is given.
`filename.split(".", -1)` splits at every dot. -/
def saveName (name : Str) (filename : Option Str) : Str :=
  let f := filename.getD name
  match pyIndex (splitOn1 '.' f) 1 with
  | .ok p => if p ≠ "atom".toList then f ++ dotAtom else f
  | .error _ => f ++ dotAtom

/-! ## Second configurations -/

open Regex

/-- `r'\((.+?)\)'` (IO.py:96). -/
def reGroup : Re := rcat [chr '(', .grp 1 (plusLazy isDot), chr ')']

/-- `r'\(.+?\)\(.+?\)'` (IO.py:95). -/
def reAdjacent : Re := rcat [chr '(', plusLazy isDot, chr ')', chr '(', plusLazy isDot, chr ')']

/-- `r'\(.+?\).+\(.+?\)'` (IO.py:97). -/
def reApart : Re := rcat [chr '(', plusLazy isDot, chr ')', plus isDot, chr '(', plusLazy isDot, chr ')']

/-- `template.format(*args)` for templates whose only replacement fields are `{}`: too few arguments raise
`IndexError`, surplus ones are ignored, `{{` and `}}` stand for single braces, a lone brace raises `ValueError`.  A
field with contents (`{0}`, `{x}`) is not modelled and counted as `ValueError`. -/
def pyFormat : Str → List Str → Py Str
  | [], _ => .ok []
  | '{' :: '}' :: cs, args => match args with
    | [] => .error .IndexError
    | a :: as => (pyFormat cs as).map (a ++ ·)
  | '{' :: '{' :: cs, args => (pyFormat cs args).map ('{' :: ·)
  | '}' :: '}' :: cs, args => (pyFormat cs args).map ('}' :: ·)
  | '{' :: _, _ => .error .ValueError
  | '}' :: _, _ => .error .ValueError
  | c :: cs, args => (pyFormat cs args).map (c :: ·)

/-- `reconstitute_conf(c0, c1)` (IO.py:88-100); `none` is a `c1` that is not a string, and the result `None`. -/
def reconstituteConf (c0 : Str) (c1 : Option Str) : Py (Option Str) :=
  match c1 with
  | none => .ok none
  | some c1 =>
    if (match? reAdjacent c1).isSome then
      (pyFormat (reSub reGroup "({})".toList c0) ((findall 1 reGroup c1).map fun g => g.headD [])).map some
    else if (match? reApart c1).isSome then .ok (some ((splitOn1 '(' c0).headD [] ++ c1))
    else .ok (some c1)

end AtomTk
