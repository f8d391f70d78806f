import Verif.Spec.Atom

/-!
# Two atoms

Two `Atom` objects, called `false` and `true`, that share the heap of level and transition objects.  A call is run in the world made of the
heap and one of the two atoms.  The atom of a level is the one it was added to last (atom.py:179-180); its sublevels have the same one:
those there are get it with the level (atom.py:183-185), later ones take it from the level (atom.py:281-289, 392-395).

Simplification, besides those of Model/World: two atoms are the case in which objects can be shared; more are not modelled.
-/

namespace AtomTk
open Util

/-- The fields of an `Atom` (atom.py:876-900). -/
structure Site where
  I : ℚ
  B : ℚ
  g : Graph
  lalias : Dict Str Ref
  talias : Dict Str Nat
  warned : Nat

/-- The state: all objects (the fields of `heap` that belong to an atom are not used), the two atoms, and `level.atom` of each level. -/
structure Two where
  heap : World
  site : Bool → Site
  owner : Nat → Option Bool

namespace Two
open World

/-- The world as the atom `k` sees it. -/
def view (s : Two) (k : Bool) : World :=
  { s.heap with I := (s.site k).I, B := (s.site k).B, g := (s.site k).g, lalias := (s.site k).lalias, talias := (s.site k).talias,
                warned := (s.site k).warned }

/-- The state after a call that left the world `w` of the atom `k`. -/
def put (s : Two) (k : Bool) (w : World) : Two :=
  { s with heap := w, site := fun b => if b = k then ⟨w.I, w.B, w.g, w.lalias, w.talias, w.warned⟩ else s.site b }

/-- The level a reference belongs to (atom.py:266-268, 389-390, 485-486). -/
def base (w : World) : Ref → Nat
  | .fine i => i
  | .hyp j => (w.hf j).parent
  | .zee z => (w.hf (w.zl z).parent).parent

/-- `level.atom`, or the given atom for a level in none, in which case the call makes no use of it. -/
def atomOf (s : Two) (k : Bool) (i : Nat) : Bool := (s.owner i).getD k

/-- The level whose sublevels `levels[key]` looks at (atom_helpers.py:43-57). -/
def baseKey (w : World) (key : Str) : Option Nat :=
  match w.lalias.get? key with
  | some r => some (base w r)
  | none =>
    w.g.levelAttrs.get? (if isIn Term.mfEq key = true then (rsplit spc 2 key).headD [] else
      if isIn mJeq key = true then (rsplit spcMJ 1 key).headD [] else
      if isIn Term.fEq key = true then (rsplit spc 1 key).headD [] else key)

/-- The atom used by a call.  For the methods of an atom it is `k`.  Otherwise it is the atom of the level: `level[key]`
(atom.py:281-289), `level.alias = x` (atom.py:154-157), setting the energy of a sublevel (atom.py:415-458, 499-503), `Transition(a, b)`
(atom.py:564-566), `t.set_frequency(f)` (atom.py:744). -/
def target (s : Two) (k : Bool) : Op → Bool
  | .getSub r _ => s.atomOf k (base s.heap r)
  | .setAlias r _ => s.atomOf k (base s.heap r)
  | .setHEnergy j _ => s.atomOf k (base s.heap (.hyp j))
  | .setZEnergy z _ => s.atomOf k (base s.heap (.zee z))
  | .newTrans a _ _ _ _ => s.atomOf k a
  | .setFrequency _ t _ => s.atomOf k (s.heap.tr t).e1
  | _ => k

/-- `level.add_to_atom(atom)` sets the atom of the level (atom.py:180). -/
def claim (s : Two) (k : Bool) : Op → Nat → Option Bool
  | .addLevel i _ _ => upd s.owner i (some k)
  | .setItem _ i => upd s.owner i (some k)
  | _ => s.owner

/-- The world in which a lookup in the atom `k` computes sublevels: names and aliases of `k`, the spin of the atom of the level. -/
def lookupWorld (s : Two) (k : Bool) (key : Str) : World :=
  match baseKey (s.view k) key with
  | some i => { s.view k with I := (s.site (s.atomOf k i)).I }
  | none => s.view k

/-- A lookup leaves the atoms as they are. -/
def putHeap (s : Two) (w : World) : Two := { s with heap := w }

/-- A call. -/
def run (k : Bool) (op : Op) (s : Two) : Two × Py Unit :=
  match op with
  | .getLevel key => (s.putHeap (op.run (s.lookupWorld k key)).1, (op.run (s.lookupWorld k key)).2)
  | op => ({ s.put (s.target k op) (op.run (s.view (s.target k op))).1 with owner := s.claim k op }, (op.run (s.view (s.target k op))).2)

/-- A history of calls, each with the atom it concerns. -/
def runAll : List (Bool × Op) → Two → Two
  | [], s => s
  | (k, op) :: l, s => runAll l (run k op s).1

/-- `level_Hz` of a level of any kind, computed with the atom of the level. -/
def hz (s : Two) (r : Ref) : Py ℚ := (s.view (s.atomOf false (base s.heap r))).refHz r

/-- Two atoms without levels. -/
def empty (I B I' B' : ℚ) : Two :=
  ⟨emptyAtom I B, fun k => if k then ⟨I', B', [], [], [], 0⟩ else ⟨I, B, [], [], [], 0⟩, fun _ => none⟩

end Two
end AtomTk
