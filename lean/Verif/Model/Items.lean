import Verif.Model.World

/-! # Dictionary methods, deletion, and the constructor of `Atom`

atom.py:187-224 (sublevels as a dictionary), atom_helpers.py:142-160 (assigning to and deleting from the transitions) and
atom.py:876-907 (`Atom.__init__`).

Simplifications: assigning a sublevel object by hand (`level[key] = sublevel`, atom.py:200-202) is in `Model/Assign`; views
(`keys()`, `items()`) are the lists of what they contain; the graphs of the sublevels are not kept. -/

namespace AtomTk
open Util

/-- `G.remove_edge(u, v)` of networkx: one direction, then the other unless it is the same. -/
def Graph.removeEdge (g : Graph) (u v : Str) : Py Graph :=
  if (g.adj u v).isSome then
    .ok (g.map fun p => (p.1, ⟨p.2.level, if p.1 = u then p.2.nbrs.del v else if p.1 = v then p.2.nbrs.del u else p.2.nbrs⟩))
  else .error .NetworkXError

namespace World

/-! ## Sublevels of a fine-structure level -/

/-- `level.items()` (atom.py:223-224). -/
def lvItems (i : Nat) : PyM (List (Str × Nat)) := do
  lazyHF i
  let w ← PyM.get
  pure (w.lv i).subs

/-- `level.keys()`, `list(level)` (atom.py:207-208, 219-220). -/
def lvKeys (i : Nat) : PyM (List Str) := do
  lazyHF i
  let w ← PyM.get
  pure (w.lv i).subs.keys

/-- `level.values()`, `level.sublevels()` (atom.py:211-216). -/
def lvSubs (i : Nat) : PyM (List Nat) := do
  lazyHF i
  let w ← PyM.get
  pure (w.lv i).subs.vals

/-- `len(level)` (atom.py:188-189). -/
def lvLen (i : Nat) : PyM Nat := do
  lazyHF i
  let w ← PyM.get
  pure (w.lv i).subs.length

/-- `del level[key]` (atom.py:204-205): nothing is computed first. -/
def lvDel (i : Nat) (key : Str) : PyM Unit := fun w =>
  if (w.lv i).subs.has key then (w.setLv i { w.lv i with subs := (w.lv i).subs.del key }, .ok ()) else (w, .error .KeyError)

/-! ## Sublevels of a hyperfine level -/

/-- `level.items()` (atom.py:223-224). -/
def hfItems (j : Nat) : PyM (List (Str × Nat)) := do
  lazyZ j
  let w ← PyM.get
  pure (w.hf j).subs

/-- `level.keys()`, `list(level)` (atom.py:207-208, 219-220). -/
def hfKeys (j : Nat) : PyM (List Str) := do
  lazyZ j
  let w ← PyM.get
  pure (w.hf j).subs.keys

/-- `level.values()`, `level.sublevels()` (atom.py:211-216). -/
def hfSubs (j : Nat) : PyM (List Nat) := do
  lazyZ j
  let w ← PyM.get
  pure (w.hf j).subs.vals

/-- `len(level)` (atom.py:188-189). -/
def hfLen (j : Nat) : PyM Nat := do
  lazyZ j
  let w ← PyM.get
  pure (w.hf j).subs.length

/-- `del level[key]` (atom.py:204-205). -/
def hfDel (j : Nat) (key : Str) : PyM Unit := fun w =>
  if (w.hf j).subs.has key then (w.setHf j { w.hf j with subs := (w.hf j).subs.del key }, .ok ()) else (w, .error .KeyError)

/-! ## Assigning to and deleting from `atom.transitions` -/

/-- `transitions[key] = t`: Python calls `__setitem__(key, t)`, which takes one argument (atom_helpers.py:142). -/
def transSet (_key : Str × Str) (_t : Nat) : PyM Unit := PyM.raise .TypeError

/-- `del transitions[key]`: Python calls `__delitem__(key)`, which takes two arguments (atom_helpers.py:145). -/
def transDel (_key : Str × Str) : PyM Unit := PyM.raise .TypeError

/-- `transitions.__delitem__(level1, level2)` (atom_helpers.py:145-146), called as a method. -/
def transDelCall (a b : Str) : PyM Unit := fun w =>
  match w.g.removeEdge a b with
  | .ok g => ({ w with g := g }, .ok ())
  | .error e => (w, .error e)

/-- `transitions.append(t)` (atom_helpers.py:160-161). -/
def transAppend (σ : Ord') (t : Nat) : PyM Unit := addTransition σ t

/-! ## `Atom(name, I, B, levels, transitions)` -/

/-- `for level in levels: self.add_level(level)` (atom.py:902-904). -/
def addLevels : List Nat → PyM Unit
  | [] => pure ()
  | i :: is => do
    addLevel i false none
    addLevels is

/-- `for transition in transitions: self.add_transition(transition)` (atom.py:905-907). -/
def addTransitions (σ : Ord') : List Nat → PyM Unit
  | [] => pure ()
  | t :: ts => do
    addTransition σ t
    addTransitions σ ts

/-- The atom of the state made anew, with empty graphs and no aliases (atom.py:886-900).  Level and transition objects made
before are kept. -/
def blank (I B : ℚ) : PyM Unit := PyM.modify fun w => { w with I := I, B := B, g := [], lalias := [], talias := [] }

/-- `Atom(name, I=..., B=..., levels=..., transitions=...)` (atom.py:876-907); `I` as text or number has become a number
(`Util.fracToFloat`). -/
def newAtom (σ : Ord') (I B : ℚ) (levels ts : List Nat) : PyM Unit := do
  blank I B
  addLevels levels
  addTransitions σ ts

end World
end AtomTk
