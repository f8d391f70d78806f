import Verif.Model.Linked
import Verif.Model.TransKeys

/-!
# Transitions between sublevels in the graph of levels

`add_transition` with a pair of names builds `Transition(self.levels[a], self.levels[b])` (atom.py:949-950), whatever the names stand for.  With the names of
hyperfine or Zeeman levels the `Transition` is an edge between the names of the sublevels in the graph of the fine-structure levels (atom.py:722-725, 647),
whose two nodes have no attribute `'level'`.

`SubW` is the atom with these transitions: they are numbered with the others, so that the graph and `set_freq` are those of the world (the remaining
fields of `World.tr` are meaningless for them), and a table beside the world holds their ends.

Simplifications: no `A`, `name` or `alias` is given; `allowed_types` of such a transition is not kept; the levels are in the atom.
-/

namespace AtomTk
open Util Strengths

/-- The ends of a `Transition` between any two levels (atom.py:560-566). -/
structure SubT where
  e1 : Ref
  e2 : Ref
  lower : Ref
  upper : Ref
  deriving DecidableEq

/-- An atom with transitions between sublevels: the ends of those transitions, and the attribute `fixed` (atom.py:69) of sublevels. -/
structure SubW where
  w : World
  sub : Nat → Option SubT
  fixed : Ref → Bool

/-- `isinstance(level, HFLevel)` -/
def Ref.isSub : Ref → Bool
  | .fine _ => false
  | _ => true

namespace World

/-- `level.name` (atom.py:68). -/
def refName (w : World) : Ref → Str
  | .fine i => w.lname i
  | .hyp j => w.hFull j
  | .zee k => w.zFull k

end World

namespace SubW
open World

/-- No transition between sublevels. -/
def of (w : World) : SubW := ⟨w, fun _ => none, fun _ => false⟩

/-- `level.fixed` -/
def isFixed (s : SubW) : Ref → Bool
  | .fine i => (s.w.lv i).fixed
  | r => s.fixed r

/-- `level.fixed = True` (atom.py:1169) -/
def pin (s : SubW) : Ref → SubW
  | .fine i => { s with w := s.w.setFixed i true }
  | r => { s with fixed := fun r' => if r' = r then true else s.fixed r' }

/-- `level.level_Hz = v` (atom.py:1166-1168): `HFLevel` overrides the property without a setter (atom.py:441-443). -/
def putHz (s : SubW) (r : Ref) (v : ℚ) : Py SubW :=
  match r with
  | .fine i => .ok { s with w := s.w.setE i v }
  | _ => .error .AttributeError

/-- The three branches for one transition (atom.py:1163-1168). -/
def step (s : SubW) (l u : Ref) (f : ℚ) : Py SubW := do
  let bad ← (if s.isFixed l && s.isFixed u then do
      let a ← s.w.refHz l
      let b ← s.w.refHz u
      .ok (decide (f ≠ |a - b|))
    else .ok false : Py Bool)
  if bad then .ok { s with w := { s.w with warned := s.w.warned + 1 } }
  else if s.isFixed u then do
    let b ← s.w.refHz u
    s.putHz l (b - f)
  else do
    let a ← s.w.refHz l
    s.putHz u (a + f)

/-- The loop body of the search (atom.py:1161-1169). -/
def enfEdge (u v : Str) (s : SubW) : SubW × Py Unit :=
  match s.w.g.adj u v with
  | none => (s, .error .KeyError)
  | some t =>
    match s.sub t with
    | none => ({ s with w := (World.enfEdge u v s.w).1 }, (World.enfEdge u v s.w).2)
    | some x =>
      match (s.w.tr t).setFreq with
      | none => (s, .error .AttributeError)
      | some f =>
        match s.step x.lower x.upper f with
        | .error e => (s, .error e)
        | .ok s' => ((s'.pin x.upper).pin x.lower, .ok ())

/-- `for edge in search` (atom.py:1160). -/
def enfEdges : List (Str × Str) → SubW → SubW × Py Unit
  | [], s => (s, .ok ())
  | (u, v) :: rest, s =>
    match enfEdge u v s with
    | (s', .ok ()) => enfEdges rest s'
    | (s', .error e) => (s', .error e)

/-- One component (atom.py:1149-1169). -/
def enfComp (σ : Ord') (es : List (Str × Str)) (c : List Str) (s : SubW) : SubW × Py Unit :=
  match lowestLoop s.w (withLevels s.w.g (σ (.low c) c)) none none with
  | .error e => (s, .error e)
  | .ok none => (s, .ok ())
  | .ok (some k) => enfEdges (Graph.dfsEdges c (fun n => σ (.nbrs c n) (subNbrs s.w.g es n)) k) s

/-- The loop over the components (atom.py:1144-1148). -/
def enfComps (σ : Ord') (es : List (Str × Str)) (trig : Option (Str × Str)) : List (List Str) → SubW → SubW × Py Unit
  | [], s => (s, .ok ())
  | c :: cs, s =>
    if triggered s.w.g es c trig then
      match enfComp σ es c s with
      | (s', .ok ()) => enfComps σ es trig cs s'
      | (s', .error e) => (s', .error e)
    else enfComps σ es trig cs s

/-- `Atom.enforce_consistency` (atom.py:1131-1169). -/
def enforce (σ : Ord') (trig : Option (Str × Str)) (s : SubW) : SubW × Py Unit :=
  match s.w.setEdges with
  | .error e => (s, .error e)
  | .ok es =>
    enfComps σ es trig (Graph.compsFrom (endpoints es) (fun n => subNbrs s.w.g es n) (σ .comps (endpoints es)) []) s

/-- `Transition(E1, E2, freq=...)` (atom.py:542-582) between two levels of any kind: `E_lower` and `E_upper` from the energies, the edge between the
names. -/
def newSub (a b : Ref) (freq : Option ℚ) (s : SubW) : SubW × Py Nat :=
  match s.w.refHz b, s.w.refHz a with
  | .ok eb, .ok ea =>
    let x : SubT := ⟨a, b, if eb > ea then a else b, if eb > ea then b else a⟩
    let t := s.w.ntr
    ({ s with w := { s.w with ntr := t + 1,
                              tr := upd s.w.tr t ⟨0, 0, 0, 0, true, none, (false, false, false), freq, none, []⟩,
                              g := s.w.g.addEdge (s.w.refName x.lower) (s.w.refName x.upper) t },
              sub := upd s.sub t (some x) }, .ok t)
  | .error e, _ => (s, .error e)
  | _, .error e => (s, .error e)

/-- `transition.add_to_atom(self)` (atom.py:643-650) for such a transition, whose subtransitions have not been asked for. -/
def regSub (t : Nat) (s : SubW) : SubW :=
  match s.sub t with
  | some x => { s with w := { s.w with g := s.w.g.addEdge (s.w.refName x.lower) (s.w.refName x.upper) t } }
  | none => s

/-- `Atom.add_transition((E1, E2), freq=...)` (atom.py:951-960) with two levels of any kind: levels are no names, so that the pair is never a key. -/
def addRefs (σ : Ord') (a b : Ref) (freq : Option ℚ) (s : SubW) : SubW × Py Nat :=
  match newSub a b freq s with
  | (s, .error e) => (s, .error e)
  | (s, .ok t) =>
    match freq with
    | none => (s.regSub t, .ok t)
    | some _ =>
      match (s.regSub t).enforce σ none with
      | (s, .ok ()) => (s, .ok t)
      | (s, .error e) => (s, .error e)

/-- `Atom.add_transition((a, b), freq=...)` (atom.py:945-960) with two names: a pair that is a key is looked up (atom.py:946-948), which is
`World.transLookup`; here it is no key. -/
def addNames (σ : Ord') (a b : Str) (freq : Option ℚ) (s : SubW) : SubW × Py Nat :=
  match levelsGet a s.w with
  | (w, .error e) => ({ s with w := w }, .error e)
  | (w, .ok ra) =>
    match levelsGet b w with
    | (w, .error e) => ({ s with w := w }, .error e)
    | (w, .ok rb) => addRefs σ ra rb freq { s with w := w }

/-- `Transition.set_frequency(f)` (atom.py:738-744) for a transition of either kind. -/
def setFrequency (σ : Ord') (t : Nat) (f : ℚ) (s : SubW) : SubW × Py Unit :=
  match s.sub t with
  | none =>
    if (s.w.tr t).built then
      let w := if truthy (s.w.tr t).setFreq = true ∧ (s.w.lv (s.w.tr t).upper).fixed = true ∧ (s.w.lv (s.w.tr t).lower).fixed = true
        then s.w.setFixed (s.w.tr t).upper false else s.w
      let w := w.setTr t { w.tr t with setFreq := some f }
      if (w.lv (w.tr t).e1).inAtom then enforce σ (some (w.lname (w.tr t).e1, w.lname (w.tr t).e2)) { s with w := w }
      else ({ s with w := w }, .error .AttributeError)
    else (s, .error .AttributeError)
  | some x =>
    let s := if truthy (s.w.tr t).setFreq = true ∧ s.isFixed x.upper = true ∧ s.isFixed x.lower = true then
        (match x.upper with
          | .fine i => { s with w := s.w.setFixed i false }
          | r => { s with fixed := fun r' => if r' = r then false else s.fixed r' } : SubW)
      else s
    let s : SubW := { s with w := s.w.setTr t { s.w.tr t with setFreq := some f } }
    enforce σ (some (s.w.refName x.e1, s.w.refName x.e2)) s

end SubW
end AtomTk
