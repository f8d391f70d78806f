import Verif.Model.Derived
import Verif.Model.SubTrans

/-!
# Linewidths set after construction

`transition.A` is a plain attribute.  The constructor converts what it is given to Hz (atom.py:577-578, 604-611), but an assignment, such as the README's
`repump_935.A = Q_(120, 'kHz')`, keeps the quantity as it is.  `state_lifetime` adds quantities (atom.py:1105), `compute_branching_ratios` adds their
magnitudes (atom.py:1123, 1128).

The rates as the transitions hold them are a table beside the world, `Rates`; all are taken to be frequencies.
-/

namespace AtomTk

/-- A rate: a number and the size of its unit in Hz. -/
structure RateQ where
  mag : ℚ
  unit : ℚ
  deriving DecidableEq

/-- The attribute `A` of every transition. -/
abbrev Rates := Nat → Option RateQ

namespace World

/-- The attributes as the constructors left them: in Hz (atom.py:578, 610-611). -/
def builtRates (w : World) : Rates := fun t => (w.tr t).A.map (fun a => ⟨a, 1⟩)

/-- Read the `A` of the transitions listed; `noA` is what a missing one raises. -/
def ratesQ (w : World) (A : Rates) (rd : RateQ → ℚ) (noA : PyErr) : List Nat → Py (List ℚ)
  | [] => .ok []
  | t :: ts =>
    if (w.tr t).built then
      match A t with
      | some q => do
        let r ← ratesQ w A rd noA ts
        .ok (rd q :: r)
      | none => .error noA
    else .error .AttributeError

/-- `total_A` in `Atom.state_lifetime` (atom.py:1104-1105), in Hz: pint adds quantities of different units, and 0. -/
def totalAQ (A : Rates) (key : Str) : PyM ℚ := do
  let d ← linkedLevels key
  let r ← levelsGet key
  let w ← PyM.get
  let as ← PyM.lift (w.ratesQ A (fun q => q.mag * q.unit) .TypeError ((d.filter (fun p => Ref.fine (w.tr p.2).upper = r)).map (·.2)))
  pure as.sum

/-- `Atom.state_lifetime` (atom.py:1098-1108). -/
noncomputable def stateLifetimeQ (A : Rates) (key : Str) : PyM Time := do
  let tot ← totalAQ A key
  if tot = 0 then pure .inf
  else pure (.sec (1 / ((tot : ℝ) / (2 * Real.pi))))

/-- `Atom.compute_branching_ratios` (atom.py:1110-1129), of the magnitudes. -/
def branchingQ (A : Rates) (key : Str) : PyM (Dict Str (Option ℚ)) := do
  let d ← linkedLevels key
  let w ← PyM.get
  let downs := d.filter (fun p => w.lname (w.tr p.2).upper = key)
  let as ← PyM.lift (w.ratesQ A RateQ.mag .AttributeError (downs.map (·.2)))
  pure ((downs.map (·.1)).zip (as.map (fun a => ratio a as.sum)))

/-- `transition.A = a`, in Hz, or `None`, for the hyperfine transitions computed afterwards (atom.py:756, 767). -/
def setA (w : World) (t : Nat) (a : Option ℚ) : World := w.setTr t { w.tr t with A := a }

end World
end AtomTk
