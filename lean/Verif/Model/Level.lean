import Verif.Model.Term

/-! # `atomtoolkit/atom.py`, levels: the formulas (state is in `Model/World.lean`) -/

namespace AtomTk
open Util

/-- Float division, raising on a zero divisor.  (With numpy operands Python would produce `nan`/`inf` instead of
raising; either way the result is not a usable number.) -/
def pyDiv (a b : ℚ) : Py ℚ := if b = 0 then .error .ZeroDivisionError else .ok (a / b)

/-- `mu_B = 1.39962449361e6 Hz/G` (`__init__.py:27`). -/
def muB : ℚ := 139962449361 / 100000

/-- The values of `F` in `EnergyLevel.populate_sublevels` (atom.py:286):
`np.arange(abs(J - I), J + I + 1)`. -/
def hfFs (I J : ℚ) : List ℚ := arange |J - I| (J + I + 1)

/-- The values of `mF` in `HFLevel.populate_sublevels` (atom.py:404): `np.arange(-F, F + 1)`. -/
def zMs (F : ℚ) : List ℚ := arange (-F) (F + 1)

/-- Keys of the hyperfine sublevel dictionary, `f'F={util.float_to_frac(f)}'` (atom.py:289). -/
def fKey (F : ℚ) : Str := Term.fEq ++ numToFrac F

/-- Keys of the Zeeman sublevel dictionary, `f'mF={util.float_to_frac(mf)}'` (atom.py:407). -/
def mKey (m : ℚ) : Str := Term.mfEq ++ numToFrac m

/-- `EnergyLevel.populate_sublevels` (atom.py:281-289): key to F. -/
def hfDict (I J : ℚ) : Dict Str ℚ := (hfFs I J).foldl (fun d f => d.set (fKey f) f) []

/-- `HFLevel.populate_sublevels` (atom.py:401-407): key to mF. -/
def zDict (F : ℚ) : Dict Str ℚ := (zMs F).foldl (fun d m => d.set (mKey m) m) []

/-- `IdotJ` (atom.py:419). -/
def iDotJ (I J F : ℚ) : ℚ := 1 / 2 * (F * (F + 1) - J * (J + 1) - I * (I + 1))

/-- `FE2` (atom.py:423-427). -/
def fE2 (I J F : ℚ) : Py ℚ :=
  if J ≤ 1 / 2 ∨ I ≤ 1 / 2 then .ok 0
  else
    let x := iDotJ I J F
    pyDiv (3 * x ^ 2 + 3 / 2 * x - I * (I + 1) * J * (J + 1)) (2 * I * (2 * I - 1) * J * (2 * J - 1))

/-- `FM3` (atom.py:429-434).  The denominator is the code's, `I(I-1)J(J-1)(2J-1)`. -/
def fM3 (I J F : ℚ) : Py ℚ :=
  if J ≤ 1 ∨ I ≤ 1 then .ok 0
  else
    let x := iDotJ I J F
    pyDiv (10 * x ^ 3 + 20 * x ^ 2
        + 2 * x * (-3 * I * (I + 1) * J * (J + 1) + I * (I + 1) + J * (J + 1) + 3)
        - 5 * I * (I + 1) * J * (J + 1))
      (I * (I - 1) * J * (J - 1) * (2 * J - 1))

/-- `HFLevel.compute_hf_shift` (atom.py:409-435). -/
def hfShift (A B C I J F : ℚ) : Py ℚ := do
  let e2 ← fE2 I J F
  let m3 ← fM3 I J F
  .ok (A * iDotJ I J F + B * e2 + C * m3)

/-- `HFLevel.compute_gF` (atom.py:460-470). -/
def compGF (gJ I J F : ℚ) : Py ℚ :=
  if F ≠ 0 then pyDiv (gJ * (F * (F + 1) + J * (J + 1) - I * (I + 1))) (2 * F * (F + 1)) else .ok 0

/-- `ZLevel.shift_Hz` (atom.py:499-503). -/
def zShift (gF mF quad B : ℚ) : ℚ := gF * mF * muB * B + quad * B ^ 2

/-- The summand of `EnergyLevel.compute_gJ` (atom.py:357-358) for one component `(l, s, weight)`. -/
def gjPart (J l s w : ℚ) : Py ℚ := do
  let r ← pyDiv (10023 / 10000 * (J * (J + 1) + s * (s + 1) - l * (l + 1))) (2 * J * (J + 1))
  .ok (w * (1 + r))

/-- `sum(percents * (...))` (atom.py:357-358). -/
def gjSum (J : ℚ) : List (ℚ × ℚ × ℚ) → Py ℚ
  | [] => .ok 0
  | (l, s, w) :: r => do
    let a ← gjPart J l s w
    let b ← gjSum J r
    .ok (a + b)

/-- `EnergyLevel.compute_gJ` (atom.py:333-360).  `lead` is the leading component: the code reads `l`, `s` (and the
other quantum numbers) from it for every component.  `conv` stands for the JJ/JK/LK conversions of
transition_strengths.py, returning (l, s, amplitude) triples.  `None` in an LS component cannot occur for parsed
terms; it is an error here. -/
def compGJ (conv : Coupling → Term → List (ℚ × ℚ × ℚ)) (lead : Term) : List (ℚ × Term) → ℚ → Py ℚ
  | [], total => .ok total
  | (pct, t) :: rest, total =>
    match t.coupling with
    | .unknown => .ok 0
    | .LS => match lead.qn.l, lead.qn.s, t.J with
      | some l, some s, some J => do
        let v ← gjSum J [(l, s, 1)]
        compGJ conv lead rest (total + pct * v)
      | _, _, _ => .error .TypeError
    | c => match t.J with
      | some J => do
        let v ← gjSum J (conv c lead)
        compGJ conv lead rest (total + pct * v)
      | none => .error .TypeError

/-- `EnergyLevel.compute_gJ` of a multi-term. -/
def multiGJ (conv : Coupling → Term → List (ℚ × ℚ × ℚ)) (m : MultiTerm) : Py ℚ :=
  match m.terms with
  | lead :: _ => compGJ conv lead m.termsDict 0
  | [] => .ok 0

end AtomTk
