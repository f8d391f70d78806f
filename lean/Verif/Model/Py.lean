import Mathlib.Algebra.Order.Field.Rat
import Mathlib.Data.Rat.Floor

/-!
# Python basics used by the model

Strings are lists of characters, exceptions are values, dictionaries are insertion-ordered association
lists.  Nothing here is Atom-Toolkit code: these are the language and library features the code relies on.
-/

namespace AtomTk

/-- Python `str`, as a list of characters. -/
abbrev Str := List Char

/-- The exception classes the modelled code can raise. -/
inductive PyErr
  | ValueError | TypeError | KeyError | IndexError | AttributeError | ZeroDivisionError
  | AssertionError | NetworkXError | DimensionalityError | NotImplementedError | OverflowError | NameError
  | FileNotFoundError | UnpicklingError | OSError
  deriving DecidableEq, Repr

/-- A Python computation that either returns or raises. -/
abbrev Py (α : Type _) := Except PyErr α

/-! ## Integers as text -/

/-- One decimal digit as a character. -/
def digitChr (d : Nat) : Char := Char.ofNat (48 + d)

/-- `str(n)` for a natural number; the fuel `f` bounds the number of digits. -/
def natStrF : Nat → Nat → Str
  | 0, n => [digitChr (n % 10)]
  | f + 1, n => if n < 10 then [digitChr n] else natStrF f (n / 10) ++ [digitChr (n % 10)]

/-- `str(n)` for a natural number. -/
def natStr (n : Nat) : Str := natStrF n n

/-- `str(i)` for an integer. -/
def intStr : Int → Str
  | .ofNat n => natStr n
  | .negSucc n => '-' :: natStr (n + 1)

/-- ASCII decimal digit (`\d` and the digits accepted by `float`; Unicode digits are not modelled). -/
def isDig (c : Char) : Bool := decide (48 ≤ c.toNat) && decide (c.toNat ≤ 57)

/-- The number written by a digit string, most significant digit first. -/
def natVal (s : Str) : Nat := s.foldl (fun a c => 10 * a + (c.toNat - 48)) 0

/-! ## Numbers -/

/-- Python `int(x)` on a number: truncation towards zero. -/
def pyInt (x : ℚ) : Int := Int.tdiv x.num x.den

/-- Python `a % b` on floats: the remainder with the sign of `b`. -/
def pyMod (a b : ℚ) : ℚ := a - b * (⌊a / b⌋ : ℤ)

/-- White space stripped by `float(...)`. -/
def isSpc (c : Char) : Bool := c == ' ' || c == '\t' || c == '\n' || c == '\r'

/-- `s.strip(chars)` for a character predicate. -/
def stripBy (p : Char → Bool) (s : Str) : Str := ((s.dropWhile p).reverse.dropWhile p).reverse

/-- Unsigned decimal number `digits`, `digits.digits`, `digits.` or `.digits`. -/
def parseUDec (s : Str) : Option ℚ :=
  let ip := s.takeWhile isDig
  match s.dropWhile isDig with
  | [] => if ip = [] then none else some (natVal ip : ℚ)
  | '.' :: fp =>
    if fp.all isDig && !(ip.isEmpty && fp.isEmpty) then
      some ((natVal ip : ℚ) + (natVal fp : ℚ) / (10 : ℚ) ^ fp.length)
    else none
  | _ => none

/-- Python `float(s)` on a string.  Simplification: exponents, underscores, `inf` and `nan` spellings are not
modelled (they are treated as malformed). -/
def pyFloat (s : Str) : Py ℚ :=
  let r := match stripBy isSpc s with
    | '-' :: t => (parseUDec t).map (fun q => -q)
    | '+' :: t => parseUDec t
    | t => parseUDec t
  match r with
  | some q => .ok q
  | none => .error .ValueError

/-! ## Strings -/

/-- `s.split(c)` for a one-character separator: always at least one piece. -/
def splitOn1 (c : Char) : Str → List Str
  | [] => [[]]
  | x :: xs => if x = c then [] :: splitOn1 c xs
    else match splitOn1 c xs with
      | [] => [[x]]
      | p :: ps => (x :: p) :: ps

/-- `pat in s` (substring test). -/
def isIn (pat : Str) : Str → Bool
  | [] => pat.isEmpty
  | x :: xs => pat.isPrefixOf (x :: xs) || isIn pat xs

/-- Split a string at the last occurrence of `pat`: the text before and after it. -/
def rsplit1 (pat : Str) : Str → Option (Str × Str)
  | [] => if pat.isEmpty then some ([], []) else none
  | x :: xs =>
    match rsplit1 pat xs with
    | some (a, b) => some (x :: a, b)
    | none => if pat.isPrefixOf (x :: xs) then some ([], (x :: xs).drop pat.length) else none

/-- `s.rsplit(pat, maxsplit=n)` for a non-empty separator. -/
def rsplit (pat : Str) : Nat → Str → List Str
  | 0, s => [s]
  | n + 1, s =>
    match rsplit1 pat s with
    | none => [s]
    | some (a, b) => rsplit pat n a ++ [b]

/-- `s.replace(pat, rep)` for a non-empty `pat`; the fuel is the length of the string. -/
def replaceF (pat rep : Str) : Nat → Str → Str
  | 0, s => s
  | _ + 1, [] => []
  | f + 1, x :: xs =>
    if pat.isPrefixOf (x :: xs) then rep ++ replaceF pat rep f ((x :: xs).drop pat.length)
    else x :: replaceF pat rep f xs

/-- `s.replace(pat, rep)`. -/
def pyReplace (pat rep s : Str) : Str := replaceF pat rep (s.length + 1) s

/-! ## Dictionaries -/

/-- Python `dict`: insertion-ordered association list (keys kept unique by `set`). -/
abbrev Dict (κ : Type _) (α : Type _) := List (κ × α)

namespace Dict
variable {κ α : Type _} [DecidableEq κ]

/-- `d.get(k)` -/
def get? (d : Dict κ α) (k : κ) : Option α :=
  match d with
  | [] => none
  | (k', v) :: t => if k' = k then some v else get? t k

/-- `d[k] = v`: overwrite in place, or append at the end. -/
def set (d : Dict κ α) (k : κ) (v : α) : Dict κ α :=
  match d with
  | [] => [(k, v)]
  | (k', v') :: t => if k' = k then (k', v) :: t else (k', v') :: set t k v

/-- `del d[k]` (no effect when absent). -/
def del (d : Dict κ α) (k : κ) : Dict κ α := d.filter (fun p => p.1 ≠ k)

/-- `d.keys()` in order. -/
def keys (d : Dict κ α) : List κ := d.map Prod.fst

/-- `d.values()` in order. -/
def vals (d : Dict κ α) : List α := d.map Prod.snd

/-- `k in d` -/
def has (d : Dict κ α) (k : κ) : Bool := (get? d k).isSome

/-- `d[k]`, raising `KeyError`. -/
def getE (d : Dict κ α) (k : κ) : Py α :=
  match get? d k with
  | some v => .ok v
  | none => .error .KeyError

/-- `{k: v for (k, v) in l}`: later entries overwrite earlier ones in place. -/
def ofList (l : List (κ × α)) : Dict κ α := l.foldl (fun d p => d.set p.1 p.2) []

end Dict

/-! ## Sorting and ranges -/

/-- Stable insertion of `x` into a list sorted by `le` (before the first element it is `le` to). -/
def insSorted {α : Type _} (le : α → α → Bool) (x : α) : List α → List α
  | [] => [x]
  | y :: ys => if le x y then x :: y :: ys else y :: insSorted le x ys

/-- Python `sorted` (stable): `le x y` means `x` may come before `y`. -/
def pySorted {α : Type _} (le : α → α → Bool) : List α → List α
  | [] => []
  | x :: xs => insSorted le x (pySorted le xs)

/-- `np.arange(a, b)` with unit step: `ceil(b - a)` values `a, a+1, ...`. -/
def arange (a b : ℚ) : List ℚ := (List.range (⌈b - a⌉).toNat).map (fun (i : Nat) => a + (i : ℚ))

/-- `np.arange(a, b, step)`. -/
def arangeStep (a b step : ℚ) : List ℚ :=
  (List.range (⌈(b - a) / step⌉).toNat).map (fun (i : Nat) => a + step * (i : ℚ))

/-- `l[i]` with Python's negative indices, raising `IndexError`. -/
def pyIndex {α : Type _} (l : List α) (i : Int) : Py α :=
  let j := if i < 0 then i + l.length else i
  if j < 0 then .error .IndexError
  else match l[j.toNat]? with
    | some v => .ok v
    | none => .error .IndexError

/-- `itertools.product(xs, ys)`. -/
def product {α β : Type _} (xs : List α) (ys : List β) : List (α × β) :=
  xs.flatMap (fun x => ys.map (fun y => (x, y)))

end AtomTk
