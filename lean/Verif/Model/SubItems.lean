import Verif.Model.SubTrans
import Verif.Model.IO

/-! # Subtransitions as a dictionary; saving and loading an atom

atom.py:664-702 (`BaseTransition` as a dictionary of its subtransitions) and atom.py:970-996 (`Atom.save`, `Atom.load`).

The dictionary `_subtransitions` (atom.py:555) is passed and returned: the methods that compute it when it is empty
(`lazy_compute_subtransitions`, atom.py:517-531) return what they leave.  `pop` is the computation: `hSubs` for a `Transition`,
`zSubs` for an `HFTransition`, `noSubs` for a `ZTransition`.

Simplifications: views (`keys()`, `items()`) are the lists of what they contain; `pickle.dump` and `pickle.load` are taken to
be inverse to each other, so that a file is the object written to it; file names are compared as text, and every file can be
opened for writing. -/

namespace AtomTk
open Util Strengths

/-- The dictionary of the subtransitions. -/
abbrev SubDict (τ : Type) := Dict (Str × Str) τ

section
variable {τ : Type}

/-! ## Methods that compute nothing -/

/-- `transition[key] = value` (atom.py:677-678). -/
def subSet (d : SubDict τ) (key : Str × Str) (v : τ) : SubDict τ := d.set key v

/-- `del transition[key]` (atom.py:680-681). -/
def subDel (d : SubDict τ) (key : Str × Str) : Py (SubDict τ) :=
  if d.has key then .ok (d.del key) else .error .KeyError

/-! ## Lazy methods -/

/-- `len(transition)` (atom.py:666-668). -/
def subLen (pop : SubDict τ → PyM (SubDict τ)) (d : SubDict τ) : PyM (SubDict τ × Nat) := do
  let d ← pop d
  pure (d, d.length)

/-- `list(transition)` (atom.py:683-685), `list(transition.keys())` (atom.py:695-697). -/
def subKeys' (pop : SubDict τ → PyM (SubDict τ)) (d : SubDict τ) : PyM (SubDict τ × List (Str × Str)) := do
  let d ← pop d
  pure (d, d.keys)

/-- `list(transition.values())` (atom.py:687-689), `transition.subtransitions()` (atom.py:691-693). -/
def subVals (pop : SubDict τ → PyM (SubDict τ)) (d : SubDict τ) : PyM (SubDict τ × List τ) := do
  let d ← pop d
  pure (d, d.vals)

/-- `list(transition.items())` (atom.py:699-701). -/
def subItems (pop : SubDict τ → PyM (SubDict τ)) (d : SubDict τ) : PyM (SubDict τ × List ((Str × Str) × τ)) := do
  let d ← pop d
  pure (d, d)

/-- `key in transition`: there is no `__contains__`, so that the keys are run through (atom.py:683-685). -/
def subHas (pop : SubDict τ → PyM (SubDict τ)) (d : SubDict τ) (key : Str × Str) : PyM (SubDict τ × Bool) := do
  let d ← pop d
  pure (d, decide (key ∈ d.keys))

/-- `transition[key]` (atom.py:670-675), with the dictionary it leaves. -/
def subGet (pop : SubDict τ → PyM (SubDict τ)) (d : SubDict τ) (key : Str × Str) : PyM (SubDict τ × τ) := do
  let d ← pop d
  let x ← PyM.lift (subItem d key)
  pure (d, x)

/-- The wrapper for a `ZTransition`: Zeeman levels have no sublevels (atom.py:487-489, 495-496), so that the first assertion
fails (atom.py:525). -/
def noSubs (d : SubDict τ) : PyM (SubDict τ) :=
  if d.length = 0 then PyM.raise .AssertionError else pure d

end

/-! ## Files -/

/-- What a file holds: a pickled atom, another pickled object, or something that cannot be unpickled. -/
inductive Pickle
  | atom (name : Str) (w : World)
  | other
  | junk

/-- The files that exist. -/
abbrev Disk := Dict Str Pickle

/-- `Atom.save` (atom.py:970-983) for an atom of the name given; `filename` may be `None`. -/
def saveAtom (disk : Disk) (name : Str) (w : World) (filename : Option Str) : Disk :=
  disk.set (saveName name filename) (.atom name w)

/-- `Atom.load` (atom.py:985-996). -/
def loadAtom (disk : Disk) (filename : Str) : Py (Str × World) :=
  match disk.get? filename with
  | none => .error .FileNotFoundError
  | some .junk => .error .UnpicklingError
  | some .other => .error .OSError
  | some (.atom name w) => .ok (name, w)

end AtomTk
