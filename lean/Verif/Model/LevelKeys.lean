import Verif.Model.Trigger
import Verif.Model.TransKeys

/-!
# Levels as keys of `atom.levels` and `atom.transitions`

The README's example looks a transition up by two levels: `a.transitions[b12, d32]` (README.md, "Example usage").  `__getitem__` of both structures
(atom_helpers.py:25-58, 104-140) is written for texts; here is what the same lines do with a level.

A level has `__iter__` and no `__contains__`, `__eq__` or `__hash__` (atom.py:43-228): `'mF=' in key` goes through the keys of its sublevels, and it is
equal to itself only, so that it is neither an alias nor the name of a node.
-/

namespace AtomTk
open Strengths
namespace World

/-- `LevelStructure.__getitem__` with a level (atom_helpers.py:43-58).  A level has no `rsplit`. -/
def levelsGetLevel (r : Ref) : PyM Ref := do
  let ks ← refKeys r
  if Term.mfEq ∈ ks then PyM.raise .AttributeError
  else do
    let ks ← refKeys r
    if mJeq ∈ ks then PyM.raise .AttributeError
    else do
      let ks ← refKeys r
      if Term.fEq ∈ ks then PyM.raise .AttributeError
      else PyM.raise .KeyError

/-- An entry of the pair given to `TransitionStructure.__getitem__`: a text or a level. -/
inductive LKey
  | name (s : Str)
  | level (r : Ref)

/-- `self.atom.levels[key[0]]` (atom_helpers.py:121). -/
def levelsGetK : LKey → PyM Ref
  | .name s => levelsGet s
  | .level r => levelsGetLevel r

/-- `TransitionStructure.__getitem__` with a pair of texts or levels (atom_helpers.py:118-140).  The levels of both entries are looked up first; with a
level among them that never succeeds (`C169_never`), and what would follow is left out. -/
noncomputable def transGetK (W : Wig) (sd : SubDicts) : LKey → LKey → PyM TRef
  | .name a, .name b => transLookup W sd a b
  | k0, k1 => do
    let _ ← levelsGetK k0
    let _ ← levelsGetK k1
    PyM.raise .KeyError

end World
end AtomTk
