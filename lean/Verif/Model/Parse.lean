import Verif.Model.Util
import Verif.Model.Regex

/-! # `atomtoolkit/util.py:133-267`: parsing configurations and term symbols -/

namespace AtomTk.Util
open AtomTk Regex

/-- The nine quantum numbers `(lc, sc, lo, so, jc, jo, l, s, k)`; `none` is Python's `None`. -/
structure QNums where
  lc : Option ℚ := none
  sc : Option ℚ := none
  lo : Option ℚ := none
  so : Option ℚ := none
  jc : Option ℚ := none
  jo : Option ℚ := none
  l : Option ℚ := none
  s : Option ℚ := none
  k : Option ℚ := none
  deriving DecidableEq, Repr

/-- `let_to_l` as a number. -/
def letNum (s : Str) : Py (Option ℚ) := do
  let l ← letToL s
  .ok (l.map (fun n => (n : ℚ)))

/-- `(float(x) - 1) / 2`. -/
def spinOf (s : Str) : Py (Option ℚ) := do
  let q ← pyFloat s
  .ok (some ((q - 1) / 2))

/-- `r'(\d+)([A-Z])'` (util.py:160). -/
def reLS : Re := rcat [.grp 1 (plus isDig), .grp 2 (.cls isUp)]

/-- `r'(\d+)([A-Z])\*?(?:<(.+?)>)?'` (util.py:181). -/
def reJKconf : Re :=
  rcat [.grp 1 (plus isDig), .grp 2 (.cls isUp), .opt (chr '*'), .opt (rcat [chr '<', .grp 3 (plusLazy isDot), chr '>'])]

/-- `r'(\d+)\[(.+?)]'` (util.py:188). -/
def reJKterm : Re := rcat [.grp 1 (plus isDig), chr '[', .grp 2 (plusLazy isDot), chr ']']

/-- `r'(?:(\d+)([A-Za-z])|\(.+?\))\*?<(.+?)>'` (util.py:211, 213). -/
def reJJ : Re :=
  rcat [.alt (rcat [.grp 1 (plus isDig), .grp 2 (.cls (fun c => isUp c || isLow c))])
        (rcat [chr '(', plusLazy isDot, chr ')']),
      .opt (chr '*'), chr '<', .grp 3 (plusLazy isDot), chr '>']

/-- `r'\((\d+)([A-Z])\*?\)'` (util.py:251). -/
def reLKconf : Re := rcat [chr '(', .grp 1 (plus isDig), .grp 2 (.cls isUp), .opt (chr '*'), chr ')']

/-- `r'([A-Z])\*? ?(\d+)\[(.+?)]'` (util.py:258). -/
def reLKterm : Re :=
  rcat [.grp 1 (.cls isUp), .opt (chr '*'), .opt (chr ' '), .grp 2 (plus isDig), chr '[', .grp 3 (plusLazy isDot), chr ']']

/-- `parse_LS_term` (util.py:150-163). -/
def parseLS (term : Str) : Py QNums :=
  match findall 2 reLS term with
  | [[ss, ls]] => do
    let s ← spinOf ss
    let l ← letNum ls
    .ok { l := l, s := s }
  | _ => .error .ValueError

/-- `conf[-1]` as a string. -/
def lastStr (conf : Str) : Py Str :=
  match conf.getLast? with
  | some c => .ok [c]
  | none => .error .IndexError

/-- `parse_JK_term` (util.py:166-197). -/
def parseJK (conf term : Str) : Py QNums := do
  let (scs, lcs, jcs, los) ← match findall 3 reJKconf conf with
    | [[scs, lcs, jcs], [_, los, _]] => Except.ok (scs, lcs, jcs, los)
    | [[scs, lcs, jcs]] => do
      let los ← lastStr conf
      Except.ok (scs, lcs, jcs, los)
    | _ => Except.error PyErr.ValueError
  match findall 2 reJKterm term with
  | [[sos, ks]] => do
    let jc ← fracToFloat (.str jcs)
    let k ← fracToFloat (.str ks)
    let sc ← spinOf scs
    let so ← spinOf sos
    let lc ← letNum lcs
    let lo ← letNum los
    .ok { lc := lc, sc := sc, lo := lo, so := so, jc := jc, k := k }
  | _ => .error .ValueError

/-- The spin of one JJ group (util.py:221-232): from the multiplicity for an upper-case letter, 0 for a lower-case
one, `None` when the group has no letter. -/
def jjSpin (ss ls : Str) : Py (Option ℚ) :=
  match ls with
  | [c] => if isUp c then spinOf ss else if isLow c then .ok (some 0) else .ok none
  | _ => .ok none

/-- `parse_JJ_term` (util.py:200-234). -/
def parseJJ (conf term : Str) : Py QNums :=
  let parts := findall 3 reJJ conf
  let parts := if parts = [] then findall 3 reJJ term else parts
  match parts with
  | [[scs, lcs, jcs], [sos, los, jos]] => do
    let jc ← fracToFloat (.str jcs)
    let jo ← fracToFloat (.str jos)
    let lc ← letNum lcs
    let lo ← letNum los
    let sc ← jjSpin scs lcs
    let so ← jjSpin sos los
    .ok { lc := lc, sc := sc, lo := lo, so := so, jc := jc, jo := jo }
  | _ => .error .ValueError

/-- `parse_LK_term` (util.py:237-267). -/
def parseLK (conf term : Str) : Py QNums := do
  let (scs, lcs, los) ← match findall 2 reLKconf conf with
    | [[scs, lcs], [_, los]] => Except.ok (scs, lcs, los)
    | [[scs, lcs]] => do
      let los ← lastStr conf
      Except.ok (scs, lcs, los)
    | _ => Except.error PyErr.ValueError
  match findall 3 reLKterm term with
  | [[ls, sos, ks]] => do
    let k ← fracToFloat (.str ks)
    let sc ← spinOf scs
    let so ← spinOf sos
    let l ← letNum ls
    let lc ← letNum lcs
    let lo ← letNum los
    .ok { lc := lc, sc := sc, lo := lo, so := so, l := l, k := k }
  | _ => .error .ValueError

/-- `get_quantum_nums` (util.py:133-147). -/
def getQuantumNums (conf term : Str) : Py QNums :=
  match getTermCoupling term with
  | .LS => parseLS term
  | .JK => parseJK conf term
  | .JJ => parseJJ conf term
  | .LK => parseLK conf term
  | .unknown => .ok {}

end AtomTk.Util
