import Verif.Model.World
import Verif.Spec.Atom

/-! # Loading tables: `Atom.from_dataframe`, `Atom.populate_transitions_df`

atom.py:362-372, 998-1021, 1066-1084; term.py:153-163.  A dataframe is the dictionary from its index labels to its rows; the
columns `Configuration*`, `Term*`, `Percentage*` come in equal number and are kept together.  A cell of a configuration
column is a text or not (pandas: NaN).  Not modelled: a NaN in the columns J, Level and Lande; rows of a transition table that name sublevels. -/

namespace AtomTk
open Util

/-- One configuration / term / percentage triple of a row. -/
structure Comp where
  conf : Option Str
  term : Option Str
  pct : ℚ

/-- A row of a level table; the level in Hz. -/
structure Row where
  comps : List Comp
  J : FArg
  level : ℚ
  lande : ℚ

/-- A level table, by index label. -/
abbrev Table := Dict Nat Row

/-- The terms of a row (term.py:159-162): a component whose configuration is not a text is left out; a term that is not a text
raises on `'*' in term`. -/
def Row.terms (r : Row) : List Comp → Py (List Term)
  | [] => .ok []
  | c :: cs =>
    match c.conf, c.term with
    | none, _ => r.terms cs
    | some _, none => .error .TypeError
    | some cf, some tm => do
      let t ← Term.mk' cf tm r.J .none .none c.pct
      let ts ← r.terms cs
      .ok (t :: ts)

/-- The leading term of the `MultiTerm` of a row (term.py:153-163). -/
def Row.term (r : Row) : Py Term := do
  let ts ← r.terms r.comps
  (MultiTerm.mk' ts).attr id

namespace World

/-- The body of the loop of `Atom.from_dataframe` (atom.py:1015-1019): a label not in the index raises `KeyError`. -/
def addRow (df : Table) (i : Nat) : PyM Unit := do
  let r ← PyM.lift (df.getE i)
  let t ← PyM.lift r.term
  let e ← newLevel t r.level r.lande 0 0 0 none
  addLevel e false none

/-- `try: ... except KeyError: pass` -/
def catchKey (m : PyM Unit) : PyM Unit := fun w =>
  match m w with
  | (w', .error .KeyError) => (w', .ok ())
  | x => x

/-- The loop of `Atom.from_dataframe` (atom.py:1014-1020). -/
def addRows (df : Table) : List Nat → PyM Unit
  | [] => pure ()
  | i :: is => do
    catchKey (addRow df i)
    addRows df is

/-- `Atom.from_dataframe` (atom.py:998-1021). -/
def fromDataframe (df : Table) (I B : ℚ) (num : Option Nat) : World × Py Unit :=
  addRows df (List.range (num.getD df.length)) (emptyAtom I B)

/-- A row of a transition table.  `freq` is a quantity (in Hz) or `None`. -/
structure TRow where
  confL : Str
  termL : Str
  jL : FArg
  confU : Str
  termU : Str
  jU : FArg
  freq : Option ℚ
  A : AArg

/-- `float(x)` (atom.py:1073-1074). -/
def toFloat : FArg → Py ℚ
  | .none => .error .TypeError
  | .str s => pyFloat s
  | .num q => .ok q

/-- `f'{conf} {term}{j}'` (atom.py:1076-1077). -/
def tableName (conf term : Str) (j : ℚ) : Str := conf ++ ' ' :: term ++ numToFrac j

/-- A new transition between what two lookups returned (atom.py:1080-1082).  A `Transition` between sublevels, which takes a table with F or mF in the term
column, is not modelled: `NotImplementedError` stands for it. -/
def addBetween (σ : Ord') (f : Option ℚ) (A : AArg) : Ref → Ref → PyM Unit
  | .fine i, .fine j => do
    let t ← newTrans i j f A none
    addTransition σ t
  | _, _ => PyM.raise .NotImplementedError

/-- The `try` block (atom.py:1075-1082). -/
def rowBody (σ : Ord') (n1 n2 : Str) (f : Option ℚ) (A : AArg) : PyM Unit := do
  let r1 ← levelsGet n1
  let r2 ← levelsGet n2
  addBetween σ f A r1 r2

/-- One row (atom.py:1072-1084). -/
def transRow (σ : Ord') (r : TRow) : PyM Unit := do
  let jl ← PyM.lift (toFloat r.jL)
  let ju ← PyM.lift (toFloat r.jU)
  catchKey (rowBody σ (tableName r.confL r.termL jl) (tableName r.confU r.termU ju) r.freq r.A)

/-- `Atom.populate_transitions_df` (atom.py:1066-1084). -/
def populateDf (σ : Ord') : List TRow → PyM Unit
  | [] => pure ()
  | r :: rs => do
    transRow σ r
    populateDf σ rs

end World
end AtomTk
