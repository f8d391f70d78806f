import Verif.Model.Py

/-! # `atomtoolkit/util.py`: letters and fractions -/

namespace AtomTk.Util
open AtomTk

/-- `'SPDFGHIKLMNOQRTUVWXYZ'` (util.py:18, 31, 121). -/
def orbitals : Str :=
  ['S','P','D','F','G','H','I','K','L','M','N','O','Q','R','T','U','V','W','X','Y','Z']

/-- `str.upper` of one character.  ASCII letters, plus the two non-ASCII characters whose upper case is an
ASCII letter (dotless i and long s).  Simplification: every other character is left alone, which cannot
change whether the result is in the table. -/
def pyUpper (c : Char) : Char :=
  if 97 ≤ c.toNat ∧ c.toNat ≤ 122 then Char.ofNat (c.toNat - 32)
  else if c.toNat = 0x131 then 'I'
  else if c.toNat = 0x17F then 'S'
  else c

/-- `str.index` of a one-character string in a string. -/
def indexOf (c : Char) : Str → Option Nat
  | [] => none
  | x :: xs => if x = c then some 0 else (indexOf c xs).map (· + 1)

/-- `let_to_l` (util.py:9-18), on strings. -/
def letToL (s : Str) : Py (Option Nat) :=
  match s with
  | [] => .ok none
  | [c] => match indexOf (pyUpper c) orbitals with
    | some i => .ok (some i)
    | none => .error .ValueError
  | _ => .error .ValueError

/-- The Python values `l_to_let` distinguishes: `int` (or a numpy number), `float`, `str`. -/
inductive LArg
  | int (i : Int)
  | float (q : ℚ)
  | npfloat (q : ℚ)
  | str (s : Str)

/-- `l_to_let` (util.py:21-31).  `type(l) is float` is false for numpy floats, which are truncated. -/
def lToLet : LArg → Py Char
  | .int i => pyIndex orbitals i
  | .float q => if q.den = 1 then pyIndex orbitals (pyInt q) else .error .ValueError
  | .npfloat q => pyIndex orbitals (pyInt q)
  | .str _ => .error .TypeError

/-- Arguments of `frac_to_float` / `float_to_frac`: `None`, a string, or a number. -/
inductive FArg
  | none
  | str (s : Str)
  | num (q : ℚ)

/-- `frac_to_float` (util.py:34-50).  `frac is (None or '')` is `frac is ''`; `None` falls through to the
last line and is returned unchanged. -/
def fracToFloat : FArg → Py (Option ℚ)
  | .none => .ok none
  | .str [] => .ok none
  | .str s =>
    if '/' ∈ s then
      match splitOn1 '/' s with
      | [f1, f2] => do
        let a ← pyFloat f1
        let b ← pyFloat f2
        if b = 0 then .error .ZeroDivisionError else .ok (some (a / b))
      | _ => .error .ValueError
    else do
      let a ← pyFloat s
      .ok (some a)
  | .num q => .ok (some q)

/-- The number-to-text part of `float_to_frac` (util.py:68-71). -/
def numToFrac (f : ℚ) : Str :=
  if pyMod (2 * f) 2 = 0 then intStr (pyInt f) else intStr (pyInt (f * 2)) ++ ['/', '2']

/-- `float_to_frac` (util.py:53-71). -/
def floatToFrac : FArg → Py (Option Str)
  | .none => .ok none
  | .str s =>
    if '/' ∈ s then .ok (some s)
    else do
      let f ← pyFloat s
      .ok (some (numToFrac f))
  | .num q => .ok (some (numToFrac q))

/-- Coupling schemes returned by `get_term_coupling`. -/
inductive Coupling
  | LS | JJ | JK | LK | unknown
  deriving DecidableEq, Repr

/-- `get_term_coupling` (util.py:116-130). -/
def getTermCoupling (term : Str) : Coupling :=
  if '[' ∈ term then
    match term with
    | c :: _ => if c ∈ orbitals then .LK else .JK
    | [] => .JK
  else if '(' ∈ term then .JJ
  else if term.length > 1 then .LS
  else .unknown

end AtomTk.Util
