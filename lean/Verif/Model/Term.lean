import Verif.Model.Parse

/-! # `atomtoolkit/term.py` -/

namespace AtomTk
open Util

/-- A `Term` object (term.py:23-28).  Slots that are determined by others at construction (`parity`, `J_frac`,
`name`, ...) are functions below. -/
structure Term where
  conf : Str
  term : Str
  J : Option ℚ
  F : Option ℚ
  mF : Option ℚ
  percentage : ℚ
  qn : QNums
  deriving DecidableEq

namespace Term

/-- `Term.__init__` (term.py:30-67).  `quantum_nums=None` makes it parse; `J`, `F`, `mF` may be text. -/
def mk' (conf term : Str) (J F mF : FArg) (percentage : ℚ := 100) (qn : Option QNums := none) : Py Term := do
  let J ← fracToFloat J
  let F ← fracToFloat F
  let mF ← fracToFloat mF
  let q ← match qn with
    | some q => Except.ok q
    | none => getQuantumNums conf term
  .ok ⟨conf, term, J, F, mF, percentage, q⟩

/-- `self.parity` (term.py:45). -/
def parity (t : Term) : Int := if '*' ∈ t.term then -1 else 1

/-- The text an f-string shows for `float_to_frac` of an optional number (`None` shows as `None`). -/
def fracText : Option ℚ → Str
  | none => ['N', 'o', 'n', 'e']
  | some q => numToFrac q

/-- `' F='` / `' mF='` and friends. -/
def fEq : Str := ['F', '=']
/-- `'mF='` -/
def mfEq : Str := ['m', 'F', '=']

/-- `self.term_name` (term.py:53-60). -/
def termName (t : Term) : Str :=
  t.term ++ fracText t.J
    ++ (match t.F with | some f => ' ' :: fEq ++ numToFrac f | none => [])
    ++ (match t.mF with | some m => ' ' :: mfEq ++ numToFrac m | none => [])

/-- `self.short_name` (term.py:54-60). -/
def shortName (t : Term) : Str :=
  match t.mF with
  | some m => mfEq ++ numToFrac m
  | none => match t.F with
    | some f => fEq ++ numToFrac f
    | none => t.term ++ fracText t.J

/-- `self.name` (term.py:62). -/
def name (t : Term) : Str := t.conf ++ ' ' :: t.termName

/-- `self.coupling` (term.py:64). -/
def coupling (t : Term) : Coupling := getTermCoupling t.term

/-- `Term.__eq__` (term.py:76-80). -/
def eq (a b : Term) : Bool := decide (a.qn = b.qn) && decide (a.conf = b.conf) && decide (a.term = b.term)

/-- A number or `None` passed back to the constructor. -/
def argOf : Option ℚ → FArg
  | none => .none
  | some q => .num q

/-- `Term.make_term_copy` (term.py:82-93). -/
def makeCopy (t : Term) (F mF : FArg) : Py Term :=
  match t.F with
  | some f => mk' t.conf t.term (argOf t.J) (.num f) mF t.percentage (some t.qn)
  | none => mk' t.conf t.term (argOf t.J) F mF t.percentage (some t.qn)

end Term

/-- A `MultiTerm` (term.py:101-112): its sorted component list. -/
structure MultiTerm where
  terms : List Term
  deriving DecidableEq

namespace MultiTerm

/-- `MultiTerm.__init__` (term.py:103-112): `sorted(..., key=percentage, reverse=True)`, which keeps the order of
equal keys. -/
def mk' (ts : List Term) : MultiTerm := ⟨pySorted (fun a b => decide (b.percentage ≤ a.percentage)) ts⟩

/-- Reading a `Term` attribute (term.py:114-122): that of `terms[0]`. -/
def attr {α : Type _} (m : MultiTerm) (f : Term → α) : Py α :=
  match m.terms with
  | t :: _ => .ok (f t)
  | [] => .error .IndexError

/-- `terms_dict` (term.py:112): keyed by percentage. -/
def termsDict (m : MultiTerm) : Dict ℚ Term := Dict.ofList (m.terms.map (fun t => (t.percentage, t)))

/-- `self[i] == other[i] for i in range(len(self))` (term.py:143): the list of comparisons, raising when `other`
is shorter. -/
def eqList : List Term → List Term → Py Bool
  | [], _ => .ok true
  | _ :: _, [] => .error .IndexError
  | a :: as, b :: bs => do
    let r ← eqList as bs
    .ok (a.eq b && r)

/-- `MultiTerm.__eq__` against a `MultiTerm` (term.py:140-143). -/
def eq (a b : MultiTerm) : Py Bool := eqList a.terms b.terms

/-- `MultiTerm.__eq__` against a `Term`. -/
def eqTerm (a : MultiTerm) (t : Term) : Py Bool :=
  match a.terms with
  | x :: _ => .ok (x.eq t)
  | [] => .error .IndexError

/-- `MultiTerm.make_term_copy` (term.py:145-152). -/
def makeCopy (m : MultiTerm) (F mF : FArg) : Py MultiTerm := do
  let ts ← m.terms.mapM (fun t => t.makeCopy F mF)
  .ok (mk' ts)

end MultiTerm
end AtomTk
