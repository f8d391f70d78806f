import Verif.Model.Table
import Verif.Model.Derived
import Verif.Model.IO

/-! # Tables from CSV files, and an atom with everything: IO.py:169-222, 287-315

`pd.read_csv` is not modelled: a file is the frame it returns, columns by name, each a list of cells.  The caller's
further keyword arguments of `read_csv` only change that frame.  Cells are texts, numbers or missing (`NaN`). -/

namespace AtomTk
namespace Load

/-- A cell. -/
inductive Cell
  | text (s : Str)
  | num (q : ℚ)
  | nan
  deriving DecidableEq

/-- A frame: columns by name. -/
abbrev Frame := Dict Str (List Cell)

/-- What a cell of a loaded table is: as it stood in the file, or a quantity, in Hz (`none` for a missing one). -/
inductive Val
  | raw (c : Cell)
  | qty (hz : Option ℚ)
  deriving DecidableEq

/-! ## `load_transition_data` -/

/-- `columns[new] = columns[old]` if only `old` is there (IO.py:180-183). -/
def synonym (new old : Str) (columns : Dict Str Str) : Dict Str Str :=
  match columns.get? new, columns.get? old with
  | none, some c => columns.set new c
  | _, _ => columns

/-- `df_file[columns[k]]` (IO.py:184-192). -/
def column (file : Frame) (columns : Dict Str Str) (k : Str) : Py (List Cell) := do
  let c ← columns.getE k
  file.getE c

/-- `{k: df_file[columns[k]] for k in ks}` (IO.py:184-185, 214). -/
def pick (file : Frame) (columns : Dict Str Str) : List Str → Py Frame
  | [] => .ok []
  | k :: ks => do
    let c ← column file columns k
    let r ← pick file columns ks
    .ok ((k, c) :: r)

/-- The columns a transition table must have (IO.py:184-185). -/
def wanted : List Str :=
  ["conf_l".toList, "term_l".toList, "j_l".toList, "conf_u".toList, "term_u".toList, "j_u".toList]

/-- A cell made a quantity in MHz (IO.py:191), in Hz.  What pint does with a text is a parameter. -/
def mhz (ofText : Str → Py Val) : Cell → Py Val
  | .num q => .ok (.qty (some (1000000 * q)))
  | .nan => .ok (.qty none)
  | .text s => ofText s

/-- `.astype('pint[MHz]')` (IO.py:191). -/
def mhzs (ofText : Str → Py Val) : List Cell → Py (List Val)
  | [] => .ok []
  | c :: cs => do
    let v ← mhz ofText c
    let vs ← mhzs ofText cs
    .ok (v :: vs)

/-- The table returned: the six columns, and frequency and rate (`none`: the column is filled with `None`). -/
structure TTable where
  keys : Frame
  freq : Option (List Val)
  A : Option (List Val)
  deriving DecidableEq

/-- `df["freq"]` (IO.py:186-189): the column as it is. -/
def freqCol (file : Frame) (columns : Dict Str Str) : Py (Option (List Val)) :=
  match columns.get? "freq".toList with
  | some c => (file.getE c).map fun l => some (l.map .raw)
  | none => .ok none

/-- `df["A"]` (IO.py:190-193). -/
def rateCol (ofText : Str → Py Val) (file : Frame) (columns : Dict Str Str) : Py (Option (List Val)) :=
  match columns.get? "A".toList with
  | some c => do
    let l ← file.getE c
    let v ← mhzs ofText l
    .ok (some v)
  | none => .ok none

/-- The `columns` of the caller after the call (IO.py:180-183): the dictionary passed is the one changed. -/
def columnsAfter (columns : Dict Str Str) : Dict Str Str :=
  synonym "A".toList "A_coeff".toList (synonym "freq".toList "frequency".toList columns)

/-- `load_transition_data(filename, columns)` (IO.py:169-194).  `"freq" not in None` raises `TypeError`. -/
def loadTransitions (ofText : Str → Py Val) (file : Frame) : Option (Dict Str Str) → Py TTable
  | none => .error .TypeError
  | some columns => do
    let cols := columnsAfter columns
    let ks ← pick file cols wanted
    let f ← freqCol file cols
    let a ← rateCol ofText file cols
    .ok ⟨ks, f, a⟩

/-! ## `load_level_data` -/

/-- The default `columns` (IO.py:209-210). -/
def defaultColumns : Dict Str Str :=
  ["configuration", "term", "j", "level (cm-1)", "lande", "leading percentages"].map fun s => (s.toList, s.toList)

/-- `Level (cm-1)` -/
def levelKey : Str := "Level (cm-1)".toList

/-- One cell of `.astype(float)` (IO.py:216, 219). -/
def cellFloat : Cell → Py (Option ℚ)
  | .num q => .ok (some q)
  | .nan => .ok none
  | .text s => (pyFloat s).map some

/-- `.astype(float)` (IO.py:216, 219). -/
def floats : List Cell → Py (List (Option ℚ))
  | [] => .ok []
  | c :: cs => do
    let v ← cellFloat c
    let vs ← floats cs
    .ok (v :: vs)

/-- `.str.replace(r'[^\d\.]+', '', regex=True)` (IO.py:218) for ASCII digits: `.str` gives `NaN` for what is no text. -/
def onlyDigits : Cell → Cell
  | .text s => .text (s.filter fun c => isDig c || c == '.')
  | _ => .nan

/-- The wavenumbers (IO.py:215-220). -/
def wavenumbers (l : List Cell) : Py (List (Option ℚ)) :=
  match floats l with
  | .error .ValueError => floats (l.map onlyDigits)
  | r => r

/-- The speed of light in cm/s: `pint.to('Hz')` of a wavenumber (IO.py:221, `__init__.py`:11-17). -/
def cCm : ℚ := 29979245800

/-- The table returned: the columns picked, and the two level columns. -/
structure LTable where
  cols : Frame
  cm : List (Option ℚ)
  hz : List (Option ℚ)
  deriving DecidableEq

/-- `load_level_data(filename, columns)` (IO.py:197-225).  The frame with lower-case names (IO.py:213) is thrown away. -/
def loadLevels (file : Frame) (columns : Option (Dict Str Str)) : Py LTable := do
  let cols := columns.getD defaultColumns
  let df ← pick file cols cols.keys
  let l ← df.getE levelKey
  let v ← wavenumbers l
  .ok ⟨df, v, v.map (Option.map (cCm * ·))⟩

end Load

namespace World

/-! ## `generate_full_from_dataframe` -/

/-- The keyword `hf_csv`: not given, something `open` refuses with `FileNotFoundError` or `TypeError`, or a file. -/
inductive HfArg
  | absent
  | unreadable
  | file (text : Str)

/-- The keywords for the transitions: `transitions_csv`, a table or `None` as `transitions_df`, or neither. -/
inductive TransArg
  | csv
  | df (rows : List TRow)
  | noDf
  | absent

/-- `try: ... except (FileNotFoundError, TypeError): pass` (IO.py:301-304). -/
def catchType (m : PyM Unit) : PyM Unit := fun w =>
  match m w with
  | (w', .error .TypeError) => (w', .ok ())
  | x => x

/-- IO.py:300-304. -/
def applyHfArg (q : QText) : HfArg → PyM Unit
  | .absent => pure ()
  | .unreadable => pure ()
  | .file text => catchType (applyHf q text)

/-- IO.py:305-313. -/
def transStep (σ : Ord') : TransArg → PyM Unit
  | .csv => PyM.raise .NotImplementedError
  | .df rows => populateDf σ rows
  | .noDf => populateTransitions [true, true, true]
  | .absent => populateTransitions [true, false, false]

/-- What is done to the atom after it is made from the table (IO.py:300-314). -/
def fullSteps (σ : Ord') (q : QText) (hf : HfArg) (tr : TransArg) : PyM Unit := do
  applyHfArg q hf
  transStep σ tr
  populateInternal

/-- `generate_full_from_dataframe(df, name, I, **kwargs)` (IO.py:287-315). -/
def generateFull (σ : Ord') (q : QText) (df : Table) (I B : ℚ) (num : Option Nat) (hf : HfArg) (tr : TransArg) : World × Py Unit :=
  match fromDataframe df I B num with
  | (w, .ok ()) => fullSteps σ q hf tr w
  | r => r

end World
end AtomTk
