import Verif.Model.World
import Mathlib.Analysis.Real.Pi.Bounds

/-! # Quantities derived from an atom: lifetimes, branching ratios, `populate_transitions`

atom.py:1023-1054 and 1098-1129. -/

namespace AtomTk
namespace World

/-- The A coefficients of the transitions listed; `noA` is what a missing one raises.  (A half-constructed transition has
no attribute `A`.) -/
def rates (w : World) (noA : PyErr) : List Nat → Py (List ℚ)
  | [] => .ok []
  | t :: ts =>
    if (w.tr t).built then
      match (w.tr t).A with
      | some a => do
        let r ← rates w noA ts
        .ok (a :: r)
      | none => .error noA
    else .error .AttributeError

/-- `total_A` in `Atom.state_lifetime` (atom.py:1104-1105), in Hz: `sum` of the A coefficients of the linked transitions whose
`E_upper` is the level; adding `None` raises `TypeError`. -/
def totalA (key : Str) : PyM ℚ := do
  let d ← linkedLevels key
  let r ← levelsGet key
  let w ← PyM.get
  let as ← PyM.lift (w.rates .TypeError ((d.filter (fun p => Ref.fine (w.tr p.2).upper = r)).map (·.2)))
  pure as.sum

/-- A time in seconds, possibly infinite. -/
inductive Time
  | inf
  | sec (x : ℝ)

/-- `Atom.state_lifetime` (atom.py:1098-1108). -/
noncomputable def stateLifetime (key : Str) : PyM Time := do
  let tot ← totalA key
  if tot = 0 then pure .inf
  else pure (.sec (1 / ((tot : ℝ) / (2 * Real.pi))))

/-- `t.magnitude / totalAs` (atom.py:1128): `none` stands for the not-a-number or infinity of a numpy division by
zero. -/
def ratio (a tot : ℚ) : Option ℚ := if tot = 0 then none else some (a / tot)

/-- `Atom.compute_branching_ratios` (atom.py:1110-1129).  `A.magnitude` on `None` raises `AttributeError`, which the handler,
written for `TypeError`, does not catch. -/
def branching (key : Str) : PyM (Dict Str (Option ℚ)) := do
  let d ← linkedLevels key
  let w ← PyM.get
  let downs := d.filter (fun p => w.lname (w.tr p.2).upper = key)
  let as ← PyM.lift (w.rates .AttributeError (downs.map (·.2)))
  pure ((downs.map (·.1)).zip (as.map (fun a => ratio a as.sum)))

/-! ## `populate_transitions` -/

/-- `allowed_deltas` (atom.py:1032-1036): `allowed[i // 2] or allowed[i // 2 + 1]`. -/
def allowedDeltas (allowed : List Bool) : List Nat → Py (List Nat)
  | [] => .ok []
  | i :: is => do
    let a ← pyIndex allowed (i / 2 : Nat)
    let b ← if a then .ok true else pyIndex allowed ((i / 2 : Nat) + 1)
    let r ← allowedDeltas allowed is
    .ok (if b then i :: r else r)

/-- The keys of `js` (atom.py:1039-1040). -/
def jGrid : List ℚ := arangeStep 0 21 (1/2)

/-- `js[J]` (atom.py:1039-1040). -/
def withJ (w : World) (J : ℚ) : List Nat := w.g.levelAttrs.vals.filter (fun i => (w.lv i).term.J = some J)

/-- `level_pairs` (atom.py:1041-1046); `list(js.keys())[:int(-(delta_j * 2 + 1))]`. -/
def levelPairs (w : World) (δ : Nat) : List (Nat × Nat) :=
  (jGrid.take (jGrid.length - (2 * δ + 1))).flatMap (fun j => product (w.withJ j) (w.withJ (j + δ)))

/-- The loop over the pairs (atom.py:1047-1054): the lookup raises or returns a transition, never `None`, so that the
body of the `if` is not reached. -/
def checkPairs : List (Nat × Nat) → PyM Unit
  | [] => pure ()
  | (a, b) :: rest => fun w => (do
      let _ ← transGet (w.lname a) (w.lname b)
      checkPairs rest : PyM Unit) w

/-- `Atom.populate_transitions` (atom.py:1023-1054). -/
def populateTransitions (allowed : List Bool) : PyM Unit := fun w =>
  match allowedDeltas allowed (List.range allowed.length) with
  | .error e => (w, .error e)
  | .ok ds => checkPairs (ds.flatMap w.levelPairs) w

end World
end AtomTk
