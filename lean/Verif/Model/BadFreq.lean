import Verif.Model.Units

/-!
# Frequencies that cannot be converted

`World.setFrequency` (Model/World.lean) is given a frequency in Hz.  The caller may give any quantity, or a number without unit: `set_frequency` stores what
it is given, unseen, as `set_freq` (atom.py:743, and the constructor, atom.py:580), and only `enforce_consistency` converts it, when its walk comes to the
transition: `t.set_freq.to(Hz).magnitude` (atom.py:1160).  A zero wavelength, a wrong dimension, or a number without unit raise there.

The frequencies that raise are kept in a table beside the world, `Bad`; for them the field `setFreq` of the transition holds the bare number, of which only the
truth value is used (atom.py:740).
-/

namespace AtomTk

/-- The transitions whose `set_freq` cannot be converted, with the error its conversion raises. -/
abbrev Bad := Nat → Option PyErr

/-- What is given as a frequency. -/
inductive FreqArg
  | qty (q : Qty)
  | num (x : ℚ)

namespace FreqArg

/-- The error of `freq.to(Hz)` (atom.py:1160): a number has no `to`. -/
def err : FreqArg → Option PyErr
  | .qty q => match q.toHz with
    | .ok _ => none
    | .error e => some e
  | .num _ => some .AttributeError

/-- The value in Hz, or the bare number. -/
def held : FreqArg → ℚ
  | .qty q => match q.toHz with
    | .ok f => f
    | .error _ => q.mag
  | .num x => x

end FreqArg

namespace World

/-- The loop body of the search (atom.py:1159-1169), the conversion included. -/
def enfEdgeB (bad : Bad) (u v : Str) : PyM Unit := fun w =>
  match w.g.adj u v with
  | none => (w, .error .KeyError)
  | some t =>
    match (w.tr t).setFreq with
    | none => (w, .error .AttributeError)
    | some _ =>
      match bad t with
      | some e => (w, .error e)
      | none => enfEdge u v w

/-- `for edge in search` (atom.py:1158). -/
def enfEdgesB (bad : Bad) : List (Str × Str) → PyM Unit
  | [] => pure ()
  | (u, v) :: rest => do
    enfEdgeB bad u v
    enfEdgesB bad rest

/-- One component (atom.py:1149-1169). -/
def enfCompB (bad : Bad) (σ : Ord') (es : List (Str × Str)) (c : List Str) : PyM Unit := fun w =>
  match lowestLoop w (withLevels w.g (σ (.low c) c)) none none with
  | .error e => (w, .error e)
  | .ok none => (w, .ok ())
  | .ok (some s) => enfEdgesB bad (Graph.dfsEdges c (fun n => σ (.nbrs c n) (subNbrs w.g es n)) s) w

/-- The loop over the components (atom.py:1144-1148). -/
def enfCompsB (bad : Bad) (σ : Ord') (es : List (Str × Str)) (trig : Option (Str × Str)) : List (List Str) → PyM Unit
  | [] => pure ()
  | c :: cs => fun w =>
    if triggered w.g es c trig then (do
      enfCompB bad σ es c
      enfCompsB bad σ es trig cs : PyM Unit) w
    else enfCompsB bad σ es trig cs w

/-- `Atom.enforce_consistency` (atom.py:1131-1169). -/
def enforceB (bad : Bad) (σ : Ord') (trig : Option (Str × Str)) : PyM Unit := fun w =>
  match w.setEdges with
  | .error e => (w, .error e)
  | .ok es =>
    let V := endpoints es
    enfCompsB bad σ es trig (Graph.compsFrom V (fun n => subNbrs w.g es n) (σ .comps V) []) w

/-- `Transition.set_frequency(freq)` (atom.py:738-744), on the atom and the table of frequencies that raise. -/
def setFrequencyQ (σ : Ord') (t : Nat) (q : FreqArg) (s : World × Bad) : (World × Bad) × Py Unit :=
  let w := s.1
  if (w.tr t).built then
    let w := if truthy (w.tr t).setFreq = true ∧ (w.lv (w.tr t).upper).fixed = true ∧ (w.lv (w.tr t).lower).fixed = true
      then w.setFixed (w.tr t).upper false else w
    let w := w.setTr t { w.tr t with setFreq := some q.held }
    let bad := upd s.2 t q.err
    if (w.lv (w.tr t).e1).inAtom then
      let r := enforceB bad σ (some (w.lname (w.tr t).e1, w.lname (w.tr t).e2)) w
      ((r.1, bad), r.2)
    else ((w, bad), .error .AttributeError)
  else (s, .error .AttributeError)

/-- `Transition(E1, E2, freq=..., A=..., alias=...)` (atom.py:542-582): the frequency is stored as it is given (atom.py:580). -/
def newTransQ (a b : Nat) (q : Option FreqArg) (A : AArg) (ali : Option Str) (s : World × Bad) : (World × Bad) × Py Nat :=
  let r := newTrans a b (q.map FreqArg.held) A ali s.1
  ((r.1, upd s.2 s.1.ntr (q.bind FreqArg.err)), r.2)

/-- `Atom.add_transition` with a `Transition` object (atom.py:954-960). -/
def addTransitionQ (σ : Ord') (t : Nat) (s : World × Bad) : (World × Bad) × Py Unit :=
  match trAddToAtom t s.1 with
  | (w, .error e) => ((w, s.2), .error e)
  | (w, .ok ()) =>
    match regTAlias t w with
    | (w, .error e) => ((w, s.2), .error e)
    | (w, .ok ()) =>
      if (w.tr t).built then
        match (w.tr t).setFreq with
        | some _ => (((enforceB s.2 σ none w).1, s.2), (enforceB s.2 σ none w).2)
        | none => ((w, s.2), .ok ())
      else ((w, s.2), .error .AttributeError)

/-- `Atom.add_transition((E1, E2), freq=..., A=..., alias=...)` (atom.py:951-960) with two levels. -/
def addPairQ (σ : Ord') (a b : Nat) (q : Option FreqArg) (A : AArg) (ali : Option Str) (s : World × Bad) : (World × Bad) × Py Nat :=
  match newTransQ a b q A ali s with
  | (s, .error e) => (s, .error e)
  | (s, .ok t) =>
    match addTransitionQ σ t s with
    | (s, .ok ()) => (s, .ok t)
    | (s, .error e) => (s, .error e)

end World
end AtomTk
