import Verif.Model.IO
import Verif.Model.Table

/-!
# `_load_NIST_data` (IO.py:16-145): cleaning the table NIST returns

The download itself, the saving of the result and the conversion of the levels to quantities are not modelled; the input is
the table `pd.read_csv` gives, whose index labels are 0, 1, 2, ….  A cell is a text, or `none` where `read_csv` finds nothing
(NaN, on which `k.strip` raises).  `pd.to_numeric(…, errors='coerce')` is modelled with the decimal numbers `pyFloat` reads.
-/

namespace AtomTk
namespace Regex

/-- `\ *` -/
def spcs : Re := .rep false (fun c => c == ' ')
/-- `\ +` -/
def spcs1 : Re := plus (fun c => c == ' ')
/-- `\d+` -/
def digits : Re := plus isDig
/-- `.*` -/
def anyStar : Re := .rep false isDot

end Regex

namespace Nist
open Regex

/-- A row of the table as read. -/
structure RawRow where
  conf : Option Str
  term : Option Str
  J : Option Str
  level : Option Str
  lande : Option Str
  pct : Option Str

/-- The table as read: its rows, and whether it has the columns `Lande` and `Leading percentages`. -/
structure Raw where
  rows : List RawRow
  hasLande : Bool
  hasPct : Bool

/-- `k.strip(' ="?')` (IO.py:42). -/
def strip (s : Str) : Str := stripBy (fun c => c == ' ' || c == '=' || c == '"' || c == '?') s

/-- A cell after the cleaning (IO.py:42); NaN has no `strip`. -/
def cell : Option Str → Py Str
  | none => .error .AttributeError
  | some s => .ok (strip s)

/-- `r'[a-z] '` (IO.py:47). -/
def reLabel : Re := .seq (.cls isLow) (chr ' ')

/-- `pd.to_numeric(…, errors='coerce')` of a text. -/
def toNumeric (s : Str) : Option ℚ := (pyFloat s).toOption

/-- `r'\ *\d+\ +([^\ ]+)\ *.*\ :\ *\d+\ +.+?(?:\ +.+?)?\ *$'` (IO.py:64). -/
def reTerm : Re := rcat [spcs, digits, spcs1, .grp 1 (plus (fun c => c != ' ')), spcs, anyStar, chr ' ', chr ':', spcs, digits, spcs1,
  plusLazy isDot, .opt (.seq spcs1 (plusLazy isDot)), spcs, .eol]

/-- `r'\ *(\d+)\ +.+?\ *.*:\ *(\d+)\ +(.+?)(?:\ +(.+?))?\ *$'` (IO.py:71). -/
def rePct : Re := rcat [spcs, .grp 1 digits, spcs1, plusLazy isDot, spcs, anyStar, chr ':', spcs, .grp 2 digits, spcs1,
  .grp 3 (plusLazy isDot), .opt (.seq spcs1 (.grp 4 (plusLazy isDot))), spcs, .eol]

/-- `r'\<(.+?)\>'` (IO.py:75). -/
def reJ : Re := rcat [chr '<', .grp 1 (plusLazy isDot), chr '>']

/-- A row after the extraction of the leading percentages (IO.py:42-76).  `none` is NaN. -/
structure Mid where
  conf : Str
  term : Option Str
  J : Str
  level : Option ℚ
  lande : Option ℚ
  pct : Option Str
  pct2 : Option Str
  conf2 : Option Str
  term2 : Option Str
  term2int : Option (List Str)

/-- The term of a row (IO.py:47, 65-66): a term that is missing or a lone star is taken from the leading percentages. -/
def termOf (term pct : Str) : Option Str :=
  let t := reSub reLabel [] term
  if t = [] ∨ t = ['*'] then (search? reTerm pct).bind (fun c => c 1) else some t

/-- The Lande factor of a row; a table without the column gets `None` in all rows (IO.py:51-53). -/
def landeOf (hasLande : Bool) (r : RawRow) : Py (Option ℚ) := if hasLande then (cell r.lande).map toNumeric else .ok none

/-- The leading percentages of a row; a table without the column gets `'100.0'` in all rows (IO.py:58-59). -/
def pctOf (hasPct : Bool) (r : RawRow) : Py Str := if hasPct then cell r.pct else .ok "100.0".toList

/-- The columns of a row from its cleaned cells (IO.py:44-76). -/
def mkMid (conf term J level : Str) (lande : Option ℚ) (pct : Str) : Mid :=
  let m := search? rePct pct
  let conf2 := m.bind (fun c => c 3)
  let term2 := m.bind (fun c => c 4)
  { conf, term := termOf term pct, J, level := toNumeric level, lande, pct := m.bind (fun c => c 1), pct2 := m.bind (fun c => c 2),
    conf2, term2, term2int := if term2 = none then conf2.map (fun s => (findall 1 reJ s).map fun g => g.headD []) else none }

/-- The columns of one row (IO.py:42-76). -/
def midRow (hasLande hasPct : Bool) (r : RawRow) : Py Mid := do
  let conf ← cell r.conf
  let term ← cell r.term
  let J ← cell r.J
  let level ← cell r.level
  let lande ← landeOf hasLande r
  let pct ← pctOf hasPct r
  .ok (mkMid conf term J level lande pct)

/-- `'({}, {})'.format(*k)` (IO.py:79). -/
def jjTerm : List Str → Py Str
  | a :: b :: _ => .ok ('(' :: (a ++ ", ".toList ++ b ++ [')']))
  | _ => .error .IndexError

/-- The second term of one row, made from the values of `J` in its configuration. -/
def jjRow (m : Mid) : Mid := match m.term2int with
  | none => m
  | some k => { m with term2 := (jjTerm k).toOption }

/-- The second terms (IO.py:77-83): made for all rows that need one, or, after an `IndexError`, for none. -/
def jjTerms (ms : List Mid) : List Mid :=
  match (ms.filterMap (fun m => m.term2int)).mapM jjTerm with
  | .error _ => ms
  | .ok _ => ms.map jjRow

/-- A row of the result. -/
structure OutRow where
  level : ℚ
  J : Str
  lande : Option ℚ
  conf : Str
  term : Str
  pct : ℚ
  conf2 : Option Str
  term2 : Str
  pct2 : Option ℚ
  deriving DecidableEq, Repr

/-- The columns of the result for a row with a level (IO.py:85-86, 102-107). -/
def mkOut (m : Mid) (conf2 : Option Str) (level : ℚ) : OutRow :=
  { level, J := m.J, lande := m.lande, conf := m.conf, term := m.term.getD [], pct := (m.pct.bind toNumeric).getD 100, conf2,
    term2 := m.term2.getD [], pct2 := m.pct2.bind toNumeric }

/-- The rest of one row (IO.py:85-107); `none` for a row without a level, which is dropped (IO.py:111). -/
def outRow (m : Mid) : Py (Option OutRow) := do
  let conf2 ← reconstituteConf m.conf m.conf2
  .ok (m.level.map (mkOut m conf2))

/-- `(df['Term'] == 'Limit').idxmax()` (IO.py:118): the label of the first ionization limit; where there is none, the label of the
first row. -/
def limitLabel (l : List (Nat × OutRow)) : Py Nat :=
  match l.find? (fun p => p.2.term = "Limit".toList), l with
  | some p, _ => .ok p.1
  | none, p :: _ => .ok p.1
  | none, [] => .error .ValueError

/-- `df.J.str.replace(" or", ",")`, `.str.split(",")` and `explode` (IO.py:120-122). -/
def splitJ (r : OutRow) : List OutRow := (splitOn1 ',' (pyReplace " or".toList [','] r.J)).map fun j => { r with J := j }

/-- `_load_NIST_data` (IO.py:42-145) from the table as read.  `loc[:n - 1]` keeps the rows with a label less than `n`. -/
def clean (t : Raw) : Py (List OutRow) := do
  let ms ← t.rows.mapM (midRow t.hasLande t.hasPct)
  let rows ← (jjTerms ms).mapM outRow
  let l := (rows.zipIdx).filterMap fun p => p.1.map fun r => (p.2, r)
  let n ← limitLabel l
  .ok ((l.filter fun p => p.1 < n).flatMap fun p => splitJ p.2)

/-- A row as `Atom.from_dataframe` reads it: the level in Hz is `29979245800` times the wave number.  A row without a Lande factor is
NaN there, which `Row` does not have; it is given as `lande`. -/
def OutRow.toRow (r : OutRow) (lande : ℚ) : Row :=
  { comps := [⟨some r.conf, some r.term, r.pct⟩, ⟨r.conf2, some r.term2, r.pct2.getD 0⟩], J := .str r.J,
    level := r.level * 29979245800, lande := r.lande.getD lande }

end Nist
end AtomTk
