import Verif.Model.Py

/-!
# The fragment of Python's `re` used by the code

Backtracking matcher.  `run r s c` lists every way `r` can match a prefix of `s`, in the order in which Python's
engine tries them, as pairs (captured groups, rest of the text).  The first entry is the match Python reports.
Repetition is needed only for single-character classes (`\d+`, `.+`, `.+?`).
-/

namespace AtomTk.Regex
open AtomTk

/-- Captured groups by number. -/
abbrev Caps := Nat → Option Str

/-- No group captured. -/
def Caps.none : Caps := fun _ => Option.none

/-- Regular expressions: one character of a class, sequence, alternation, greedy (`lzy = false`) or lazy
repetition of a class, greedy optional part, capturing group, the end `$`. -/
inductive Re
  | eps
  | cls (p : Char → Bool)
  | seq (a b : Re)
  | alt (a b : Re)
  | rep (lzy : Bool) (p : Char → Bool)
  | opt (a : Re)
  | grp (n : Nat) (a : Re)
  | eol

/-- The remainders after `p*` on `s`, in the order tried (longest first when greedy). -/
def repRun (lzy : Bool) (p : Char → Bool) : Str → List Str
  | [] => [[]]
  | x :: xs =>
    if p x then
      if lzy then (x :: xs) :: repRun lzy p xs else repRun lzy p xs ++ [x :: xs]
    else [x :: xs]

/-- All matches of a prefix, in priority order. -/
def run : Re → Str → Caps → List (Caps × Str)
  | .eps, s, c => [(c, s)]
  | .cls p, s, c => match s with
    | x :: xs => if p x then [(c, xs)] else []
    | [] => []
  | .seq a b, s, c => (run a s c).flatMap (fun r => run b r.2 r.1)
  | .alt a b, s, c => run a s c ++ run b s c
  | .rep l p, s, c => (repRun l p s).map (fun t => (c, t))
  | .opt a, s, c => run a s c ++ [(c, s)]
  | .grp n a, s, c => (run a s c).map (fun r =>
      (fun m => if m = n then some (s.take (s.length - r.2.length)) else r.1 m, r.2))
  | .eol, s, c => if s = [] ∨ s = ['\n'] then [(c, s)] else []

/-- `re.match`: the match Python reports, anchored at the start. -/
def match? (r : Re) (s : Str) : Option (Caps × Str) := (run r s Caps.none).head?

/-- `re.search`: the match at the first position that has one. -/
def search? (r : Re) : Str → Option Caps
  | [] => (match? r []).map Prod.fst
  | x :: xs => match match? r (x :: xs) with
    | some m => some m.1
    | none => search? r xs

/-- Scan for non-overlapping matches from the left; the fuel is the length of the text plus one.  An empty match
(none of the patterns used can produce one) would be reported and the scan moved on by one character. -/
def scanF (r : Re) : Nat → Str → List (Caps × Str)
  | 0, _ => []
  | f + 1, s =>
    match match? r s with
    | some (c, t) =>
      if t.length < s.length then (c, s.take (s.length - t.length)) :: scanF r f t
      else (c, []) :: (match s with | [] => [] | _ :: xs => scanF r f xs)
    | none => match s with
      | [] => []
      | _ :: xs => scanF r f xs

/-- `re.findall` for a pattern with `k ≥ 1` groups: the texts of the groups of every match; a group that took no
part in the match gives `''`. -/
def findall (k : Nat) (r : Re) (s : Str) : List (List Str) :=
  (scanF r (s.length + 1) s).map (fun m => (List.range k).map (fun i => (m.1 (i + 1)).getD []))

/-- `re.sub(r, rep, s)` for a replacement text without group references. -/
def subF (r : Re) (rep : Str) : Nat → Str → Str
  | 0, s => s
  | f + 1, s =>
    match match? r s with
    | some (_, t) =>
      if t.length < s.length then rep ++ subF r rep f t
      else rep ++ (match s with | [] => [] | x :: xs => x :: subF r rep f xs)
    | none => match s with
      | [] => []
      | x :: xs => x :: subF r rep f xs

/-- `re.sub`. -/
def reSub (r : Re) (rep s : Str) : Str := subF r rep (s.length + 1) s

/-! Character classes and abbreviations. -/

/-- `[A-Z]` -/
def isUp (c : Char) : Bool := decide (65 ≤ c.toNat) && decide (c.toNat ≤ 90)
/-- `[a-z]` -/
def isLow (c : Char) : Bool := decide (97 ≤ c.toNat) && decide (c.toNat ≤ 122)
/-- `.`: anything but a newline. -/
def isDot (c : Char) : Bool := c != '\n'
/-- One given character. -/
def chr (c : Char) : Re := .cls (fun x => x == c)
/-- `p+` -/
def plus (p : Char → Bool) : Re := .seq (.cls p) (.rep false p)
/-- `p+?` -/
def plusLazy (p : Char → Bool) : Re := .seq (.cls p) (.rep true p)
/-- Sequence of several parts. -/
def rcat : List Re → Re
  | [] => .eps
  | [r] => r
  | r :: rs => .seq r (rcat rs)

end AtomTk.Regex
