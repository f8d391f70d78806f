import Verif.Model.Items

/-!
# What can be passed to `enforce_consistency`

`World.enforce` (Model/World.lean) has the two arguments the library itself passes: none, and the pair of names of a transition.  Here is the
parameter as the caller may use it (atom.py:1131-1148): `None`, a pair of names, a name, or one of the objects the signature names.

Levels and transitions have `__len__` and `__iter__` (atom.py:188-190, 207-209, 665-667, 684-686), so `if node_or_trans` is false for an object without
sublevels, and `node_or_trans in subgraph.edges()`, which unpacks its argument into two names, unpacks the keys of the sublevels.
-/

namespace AtomTk
namespace World

/-- The argument `node_or_trans` (atom.py:1131): `None`, a pair of names, a text, a level with these keys of sublevels, or a transition with so many
subtransitions (they are taken to be computed already). -/
inductive Trigger
  | all
  | pair (p : Str × Str)
  | name (s : Str)
  | keys (ks : List Str)
  | trans (k : Nat)

/-- `not node_or_trans or node_or_trans in subgraph or node_or_trans in subgraph.edges()` (atom.py:1145-1148).  The empty text is false.  What is no
node of the subgraph is unpacked into two names by `in subgraph.edges()`: `ValueError` if it does not have exactly two entries.  The entries of a text
are its characters, those of a level the keys of its sublevels, those of a transition pairs, which are no nodes. -/
def triggeredT (g : Graph) (es : List (Str × Str)) (c : List Str) : Trigger → Py Bool
  | .all => .ok true
  | .pair p => .ok (inComp g es c p)
  | .name s =>
    if s = [] ∨ s ∈ c then .ok true
    else match s with
      | [a, b] => .ok (inComp g es c ([a], [b]))
      | _ => .error .ValueError
  | .keys ks =>
    match ks with
    | [] => .ok true
    | [a, b] => .ok (inComp g es c (a, b))
    | _ => .error .ValueError
  | .trans k =>
    match k with
    | 0 => .ok true
    | 2 => .ok false
    | _ => .error .ValueError

/-- The loop over the components (atom.py:1144-1169). -/
def enfCompsT (σ : Ord') (es : List (Str × Str)) (trig : Trigger) : List (List Str) → PyM Unit
  | [] => pure ()
  | c :: cs => fun w =>
    match triggeredT w.g es c trig with
    | .error e => (w, .error e)
    | .ok true => (do
      enfComp σ es c
      enfCompsT σ es trig cs : PyM Unit) w
    | .ok false => enfCompsT σ es trig cs w

/-- `Atom.enforce_consistency(node_or_trans)` (atom.py:1131-1169). -/
def enforceT (σ : Ord') (trig : Trigger) : PyM Unit := fun w =>
  match w.setEdges with
  | .error e => (w, .error e)
  | .ok es =>
    let V := endpoints es
    enfCompsT σ es trig (Graph.compsFrom V (fun n => subNbrs w.g es n) (σ .comps V) []) w

/-- `iter(level)` (atom.py:207-209): the keys of the sublevels, computed if there are none yet.  A Zeeman level has none (atom.py:488-497). -/
def refKeys : Ref → PyM (List Str)
  | .fine i => lvKeys i
  | .hyp j => hfKeys j
  | .zee _ => pure []

/-- `Atom.enforce_consistency(level)` (atom.py:1131-1169).  The truth of the level is asked for in the loop only: without a set transition its sublevels
are not computed. -/
def enforceLevel (σ : Ord') (r : Ref) : PyM Unit := fun w =>
  match w.setEdges with
  | .error e => (w, .error e)
  | .ok es =>
    let V := endpoints es
    match Graph.compsFrom V (fun n => subNbrs w.g es n) (σ .comps V) [] with
    | [] => (w, .ok ())
    | c :: cs => (do
      let ks ← refKeys r
      enfCompsT σ es (.keys ks) (c :: cs) : PyM Unit) w

end World
end AtomTk
