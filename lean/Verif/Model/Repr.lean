import Verif.Model.TransKeys
import Verif.Model.Items

/-! # Printed forms

`repr` of the objects.  What is modelled is the content of the text: the name of the class, the name, the numbers and counts in it;
how python prints a number is not. -/

namespace AtomTk

/-- The parts of `'<{class}(name = {name}, level={level}, {count} sublevels)>'` (atom.py:77-78). -/
structure LevelText where
  cls : Str
  name : Str
  level : ℚ
  count : Nat
  deriving DecidableEq

/-- The parts of `'LevelStructure containing {count} levels of type {class}'` (atom_helpers.py:22-23) and of the same for transitions
(atom_helpers.py:99-100). -/
structure ListText where
  count : Nat
  cls : Str
  deriving DecidableEq

/-- The parts of `'<{class}({name}, freq={freq}, A={A}>'` (atom.py:587-588). -/
structure TransText where
  cls : Str
  name : Str
  freq : ℚ
  rate : Option ℚ
  deriving DecidableEq

/-- `MultiTerm.__repr__` (term.py:123-124) returns a `MultiTerm`; python's `repr` then raises. -/
def multiRepr (_ : MultiTerm) : Py Str := .error .TypeError

namespace World

/-- `BaseLevel.__repr__` (atom.py:77-78): `len(self._sublevels)` does not compute the sublevels. -/
def levelRepr (w : World) : Ref → Py LevelText
  | .fine i => .ok ⟨"EnergyLevel".toList, w.lname i, w.eHz i, (w.lv i).subs.length⟩
  | .hyp j => do
    let E ← w.hHz j
    .ok ⟨"HFLevel".toList, (w.hf j).term.name, E, (w.hf j).subs.length⟩
  | .zee k => do
    let E ← w.zHz k
    .ok ⟨"ZLevel".toList, (w.zl k).term.name, E, 0⟩

/-- `BaseLevel.__str__` (atom.py:74-75). -/
def levelStr (w : World) : Ref → Str
  | .fine i => w.lname i
  | .hyp j => (w.hf j).term.name
  | .zee k => (w.zl k).term.name

/-- `LevelStructure.__repr__` (atom_helpers.py:22-23): `list(self.values())[0]`. -/
def levelsRepr (w : World) : Py ListText := do
  let _ ← pyIndex w.g.levelAttrs.vals 0
  .ok ⟨w.g.levelAttrs.length, "EnergyLevel".toList⟩

/-- `TransitionStructure.__repr__` (atom_helpers.py:99-100). -/
def transRepr (w : World) : Py ListText := do
  let _ ← pyIndex w.transVals 0
  .ok ⟨w.transLen, "Transition".toList⟩

/-- `BaseTransition.__repr__` (atom.py:587-588) with the default name (atom.py:572-574). -/
def transText (w : World) (t : Nat) : TransText :=
  ⟨"Transition".toList, w.lname (w.tr t).e1 ++ " → ".toList ++ w.lname (w.tr t).e2, w.freqHz t, (w.tr t).A⟩

/-- `Atom.__repr__` (atom.py:909-910): spin and number of levels. -/
def atomRepr (w : World) : ℚ × Nat := (w.I, w.g.levelAttrs.length)

end World
end AtomTk
