import Verif.Model.Wavelength

/-!
# Quantities with units

Everywhere else a quantity is its value in Hz (gauss for the field).  Here are the assignments as the caller makes them, with a pint quantity: a number and
a unit.  The conversions are pint's, with its context `spectroscopy` enabled (`__init__.py:12-18`, see Model/Wavelength); the context applies to
`Quantity.to` only, while the sum and the difference of two quantities of different dimension raise `DimensionalityError`.  A python number is assumed as the
magnitude, so that division by zero raises.
-/

namespace AtomTk

/-- pint's `planck_constant` in J s. -/
def hPlanck : ℚ := 662607015 / 10 ^ 42

/-- A unit: a multiple of Hz, of the metre, of 1/m, of the joule, of the gauss, or of something else. -/
inductive UnitQ
  | freq (k : ℚ)
  | length (k : ℚ)
  | wnum (k : ℚ)
  | energy (k : ℚ)
  | field (k : ℚ)
  | other
  deriving DecidableEq

/-- A pint quantity. -/
structure Qty where
  mag : ℚ
  unit : UnitQ

namespace Qty

/-- `q.to(Hz).magnitude` (atom.py:129, 259-260, 313, 321, 329): from a wavenumber by way of the wavelength. -/
def toHz (q : Qty) : Py ℚ :=
  match q.unit with
  | .freq k => .ok (q.mag * k)
  | .length k => pyDiv cLight (q.mag * k)
  | .wnum k => do
    let l ← pyDiv 1 (q.mag * k)
    pyDiv cLight l
  | .energy k => .ok (q.mag * k / hPlanck)
  | _ => .error .DimensionalityError

/-- `q.to(ureg.gauss).magnitude` (atom.py:888, 968). -/
def toGauss (q : Qty) : Py ℚ :=
  match q.unit with
  | .field k => .ok (q.mag * k)
  | _ => .error .DimensionalityError

/-- `(f * Hz).to(unit).magnitude`: `level.level` (atom.py:122-125) or `transition.freq` (atom.py:595-597) read in a unit. -/
def ofHz (f : ℚ) : UnitQ → Py ℚ
  | .freq k => .ok (f / k)
  | .length k => do
    let l ← pyDiv cLight f
    .ok (l / k)
  | .wnum k => do
    let l ← pyDiv cLight f
    let n ← pyDiv 1 l
    .ok (n / k)
  | .energy k => .ok (f * hPlanck / k)
  | _ => .error .DimensionalityError

end Qty

namespace World

/-- `EnergyLevel(term, level=E, lande=g, alias=..., hfA=A, hfB=B, hfC=C)` (atom.py:246-264). -/
def newLevelQ (t : Term) (E : Qty) (lande : ℚ) (A B C : Qty) (ali : Option Str) : PyM Nat := do
  let e ← PyM.lift E.toHz
  let a ← PyM.lift A.toHz
  let b ← PyM.lift B.toHz
  let c ← PyM.lift C.toHz
  newLevel t e lande a b c ali

/-- `level.level = q`: for an `EnergyLevel` a conversion (atom.py:127-129); for a sublevel the difference to the present energy (atom.py:450-458). -/
def setLevelQ (r : Ref) (q : Qty) : PyM Unit := fun w =>
  match r with
  | .fine i => match q.toHz with
    | .ok f => (w.setE i f, .ok ())
    | .error e => (w, .error e)
  | .hyp j => match w.hHz j with
    | .error e => (w, .error e)
    | .ok _ => match q.unit with
      | .freq k => setHLevel j (q.mag * k) w
      | _ => (w, .error .DimensionalityError)
  | .zee z => match w.zHz z with
    | .error e => (w, .error e)
    | .ok _ => match q.unit with
      | .freq k => setZLevel z (q.mag * k) w
      | _ => (w, .error .DimensionalityError)

/-- `level.hfA = q` (atom.py:311-313). -/
def setHfAQ (i : Nat) (q : Qty) : PyM Unit := do
  let v ← PyM.lift q.toHz
  PyM.modify fun w => w.setLv i { w.lv i with hfA := v }

/-- `level.hfB = q` (atom.py:319-321). -/
def setHfBQ (i : Nat) (q : Qty) : PyM Unit := do
  let v ← PyM.lift q.toHz
  PyM.modify fun w => w.setLv i { w.lv i with hfB := v }

/-- `level.hfC = q` (atom.py:327-329). -/
def setHfCQ (i : Nat) (q : Qty) : PyM Unit := do
  let v ← PyM.lift q.toHz
  PyM.modify fun w => w.setLv i { w.lv i with hfC := v }

/-- `atom.B = q` (atom.py:966-968). -/
def setBQ (q : Qty) : PyM Unit := do
  let v ← PyM.lift q.toGauss
  PyM.modify fun w => { w with B := v }

/-- `HFTransition.set_frequency(q)` (atom.py:800-802): the difference to the present frequency. -/
def hSetFreqQ (σ : Ord') (x : HTr) (q : Qty) : PyM Unit := fun w =>
  match w.hFreq x with
  | .error e => (w, .error e)
  | .ok _ => match q.unit with
    | .freq k => hSetFreq σ x (q.mag * k) w
    | _ => (w, .error .DimensionalityError)

/-- `ZTransition.set_frequency(q)` (atom.py:847-849). -/
def zSetFreqQ (σ : Ord') (x : ZTr) (q : Qty) : PyM Unit := fun w =>
  match w.zFreq x with
  | .error e => (w, .error e)
  | .ok _ => match q.unit with
    | .freq k => zSetFreq σ x (q.mag * k) w
    | _ => (w, .error .DimensionalityError)

end World
end AtomTk
