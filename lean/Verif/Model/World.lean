import Verif.Model.Level
import Verif.Model.Graph

/-!
# `atomtoolkit/atom.py`: one atom and the level and transition objects around it

A `World` is the state: one `Atom` object and the heap of `EnergyLevel`, `HFLevel`, `ZLevel` and `Transition`
objects.  References are heap indices, so object identity is index equality.  Methods are functions of type `PyM`:
they return the new state together with a result or an exception, so the effects made before a raise stay visible.

Simplifications:
* one atom only (two of them: Model/TwoAtoms); a level's `atom` attribute is therefore a flag (`inAtom`);
* a level's `MultiTerm` is represented by its leading component, from which every attribute is read
  (term.py:114-122, property C12);
* energies, frequencies, rates are exact rationals in Hz (no rounding, no unit objects);
* the hyperfine and Zeeman graphs (`_hfModel`, `_zModel`) are not part of the state: no lookup reads them except
  `linked_levels` of a sublevel;
* `Transition` objects connect fine-structure levels (atom.py:706); hyperfine and Zeeman transitions are in
  `Model/SubTrans.lean`.
-/

namespace AtomTk
open Util

/-- A reference to a level object of any kind. -/
inductive Ref
  | fine (i : Nat)
  | hyp (j : Nat)
  | zee (k : Nat)
  deriving DecidableEq

/-- An `EnergyLevel` object (atom.py:54-73, 246-264). -/
structure ELevel where
  term : Term
  levelHz : ℚ
  lande : ℚ
  hfA : ℚ
  hfB : ℚ
  hfC : ℚ
  ali : Option Str
  inAtom : Bool
  fixed : Bool
  subs : Dict Str Nat

/-- An `HFLevel` object (atom.py:381-387). -/
structure HLevel where
  term : Term
  parent : Nat
  gF : ℚ
  subs : Dict Str Nat

/-- A `ZLevel` object (atom.py:479-484). -/
structure ZLvl where
  term : Term
  parent : Nat
  gF : ℚ
  quad : ℚ

/-- A `Transition` object (atom.py:542-582).  `built` says that the constructor got past the linewidth: before that
the attributes `A`, `allowed_types` and `set_freq` do not exist.  `subKeys` are the keys of `_subtransitions`. -/
structure Trans where
  e1 : Nat
  e2 : Nat
  lower : Nat
  upper : Nat
  built : Bool
  A : Option ℚ
  allowed : Bool × Bool × Bool
  setFreq : Option ℚ
  ali : Option Str
  subKeys : List (Str × Str)

/-- The whole state. -/
structure World where
  I : ℚ
  B : ℚ
  nlv : Nat
  lv : Nat → ELevel
  nhf : Nat
  hf : Nat → HLevel
  nzl : Nat
  zl : Nat → ZLvl
  ntr : Nat
  tr : Nat → Trans
  g : Graph
  lalias : Dict Str Ref
  talias : Dict Str Nat
  warned : Nat

/-- A Python method call: new state and result or exception. -/
def PyM (α : Type) := World → World × Py α

namespace PyM

/-- Sequencing: an exception stops, keeping the state reached. -/
def bind' {α β : Type} (m : PyM α) (f : α → PyM β) : PyM β := fun w =>
  match m w with
  | (w', .ok a) => f a w'
  | (w', .error e) => (w', .error e)

instance : Monad PyM where
  pure a := fun w => (w, .ok a)
  bind := bind'

/-- `raise` -/
def raise {α : Type} (e : PyErr) : PyM α := fun w => (w, .error e)

/-- Lift a computation without effect. -/
def lift {α : Type} (r : Py α) : PyM α := fun w => (w, r)

/-- Read the state. -/
def get : PyM World := fun w => (w, .ok w)

/-- Change the state. -/
def modify (f : World → World) : PyM Unit := fun w => (f w, .ok ())

end PyM

/-- Function update on heaps. -/
def upd {α : Type} (h : Nat → α) (i : Nat) (a : α) : Nat → α := fun j => if j = i then a else h j

namespace World

/-- Replace a fine-structure level object. -/
def setLv (w : World) (i : Nat) (e : ELevel) : World := { w with lv := upd w.lv i e }
/-- Replace a hyperfine level object. -/
def setHf (w : World) (j : Nat) (h : HLevel) : World := { w with hf := upd w.hf j h }
/-- Replace a Zeeman level object. -/
def setZl (w : World) (k : Nat) (z : ZLvl) : World := { w with zl := upd w.zl k z }
/-- Replace a transition object. -/
def setTr (w : World) (t : Nat) (x : Trans) : World := { w with tr := upd w.tr t x }

/-- `EnergyLevel.name` (atom.py:68). -/
def lname (w : World) (i : Nat) : Str := (w.lv i).term.name
/-- `EnergyLevel.level_Hz` (atom.py:291-293). -/
def eHz (w : World) (i : Nat) : ℚ := (w.lv i).levelHz
/-- `EnergyLevel.level_Hz = v` (atom.py:295-298); `.level = v` (atom.py:127-129) does the same. -/
def setE (w : World) (i : Nat) (v : ℚ) : World := w.setLv i { w.lv i with levelHz := v }
/-- `level.fixed = b` -/
def setFixed (w : World) (i : Nat) (b : Bool) : World := w.setLv i { w.lv i with fixed := b }

/-- `HFLevel.shift_Hz` (atom.py:437-439). -/
def hShift (w : World) (j : Nat) : Py ℚ :=
  match (w.hf j).term.J, (w.hf j).term.F with
  | some J, some F =>
    hfShift (w.lv (w.hf j).parent).hfA (w.lv (w.hf j).parent).hfB (w.lv (w.hf j).parent).hfC w.I J F
  | _, _ => .error .TypeError

/-- `HFLevel.level_Hz` (atom.py:441-443). -/
def hHz (w : World) (j : Nat) : Py ℚ := do
  let s ← w.hShift j
  .ok (w.eHz (w.hf j).parent + s)

/-- `ZLevel.shift_Hz` (atom.py:499-503). -/
def zShiftHz (w : World) (k : Nat) : Py ℚ :=
  match (w.zl k).term.mF with
  | some m => .ok (zShift (w.zl k).gF m (w.zl k).quad w.B)
  | none => .error .TypeError

/-- `ZLevel.level_Hz` (inherited, atom.py:441-443). -/
def zHz (w : World) (k : Nat) : Py ℚ := do
  let p ← w.hHz (w.zl k).parent
  let s ← w.zShiftHz k
  .ok (p + s)

/-! ## Setting the energy of a sublevel -/

/-- `HFLevel.level = v` (atom.py:450-458): the parent moves by the difference. -/
def setHLevel (j : Nat) (v : ℚ) : PyM Unit := fun w =>
  match w.hHz j with
  | .ok cur => (w.setE (w.hf j).parent (w.eHz (w.hf j).parent + (v - cur)), .ok ())
  | .error e => (w, .error e)

/-- `ZLevel.level = v` (inherited, atom.py:450-458): `self.parent.level += shift` runs the hyperfine setter. -/
def setZLevel (k : Nat) (v : ℚ) : PyM Unit := fun w =>
  match w.zHz k, w.hHz (w.zl k).parent with
  | .ok cur, .ok p => setHLevel (w.zl k).parent (p + (v - cur)) w
  | .error e, _ => (w, .error e)
  | _, .error e => (w, .error e)

/-! ## Populating sublevels -/

/-- The loop body of `EnergyLevel.populate_sublevels` (atom.py:286-289) with `HFLevel.__init__` (atom.py:381-387):
a new object, `gF` computed from the Landé factor of this moment. -/
def popHF1 (i : Nat) (f : ℚ) : PyM Unit := fun w =>
  match (w.lv i).term.makeCopy (.num f) .none with
  | .error e => (w, .error e)
  | .ok t =>
    match t.J, t.F with
    | some J, some F =>
      match compGF (w.lv i).lande w.I J F with
      | .error e => (w, .error e)
      | .ok g => ({ w with
          nhf := w.nhf + 1
          hf := upd w.hf w.nhf ⟨t, i, g, []⟩
          lv := upd w.lv i { w.lv i with subs := (w.lv i).subs.set (fKey f) w.nhf } }, .ok ())
    | _, _ => (w, .error .TypeError)

/-- `for f in ...` -/
def popHFs (i : Nat) : List ℚ → PyM Unit
  | [] => pure ()
  | f :: fs => do
    popHF1 i f
    popHFs i fs

/-- `EnergyLevel.populate_sublevels` (atom.py:281-289). -/
def populateHF (i : Nat) : PyM Unit := fun w =>
  if (w.lv i).inAtom then
    match (w.lv i).term.J with
    | some J => popHFs i (hfFs w.I J) w
    | none => (w, .error .TypeError)
  else (w, .ok ())

/-- The wrapper `lazy_compute_sublevels` (atom.py:25-38) for an `EnergyLevel`; without an atom `_assign_models`
raises. -/
def lazyHF (i : Nat) : PyM Unit := fun w =>
  if (w.lv i).subs.length = 0 then
    if (w.lv i).inAtom then populateHF i w else (w, .error .AttributeError)
  else (w, .ok ())

/-- The loop body of `HFLevel.populate_sublevels` (atom.py:404-407) with `ZLevel.__init__` (atom.py:479-484). -/
def popZ1 (j : Nat) (m : ℚ) : PyM Unit := fun w =>
  match (w.hf j).term.makeCopy .none (.num m) with
  | .error e => (w, .error e)
  | .ok t =>
    match t.J, t.F with
    | some J, some F =>
      match compGF (w.lv (w.hf j).parent).lande w.I J F with
      | .error e => (w, .error e)
      | .ok g => ({ w with
          nzl := w.nzl + 1
          zl := upd w.zl w.nzl ⟨t, j, g, 0⟩
          hf := upd w.hf j { w.hf j with subs := (w.hf j).subs.set (mKey m) w.nzl } }, .ok ())
    | _, _ => (w, .error .TypeError)

/-- `for mf in ...` -/
def popZs (j : Nat) : List ℚ → PyM Unit
  | [] => pure ()
  | m :: ms => do
    popZ1 j m
    popZs j ms

/-- `HFLevel.populate_sublevels` (atom.py:401-407) under `lazy_compute_sublevels`. -/
def lazyZ (j : Nat) : PyM Unit := fun w =>
  if (w.hf j).subs.length = 0 then
    match (w.hf j).term.F with
    | some F => popZs j (zMs F) w
    | none => (w, .error .TypeError)
  else (w, .ok ())

/-! ## Looking up levels -/

/-- `J_frac` (term.py:48). -/
def jFrac (t : Term) : Str := Term.fracText t.J

/-- `'mJ'` -/
def mJtxt : Str := ['m', 'J']
/-- `'mF'` -/
def mFtxt : Str := ['m', 'F']

/-- `self._sublevels[key]` of an `HFLevel` after populating (atom.py:192-198).  A key containing `mJ` in an atom
without nuclear spin looks for `F=J` among the Zeeman keys and then indexes a Zeeman level, which has no sublevels:
`KeyError` either way. -/
def hfItem (j : Nat) (key : Str) : PyM Nat := do
  lazyZ j
  let w ← PyM.get
  if w.I = 0 ∧ isIn mJtxt key = true then PyM.raise .KeyError
  else PyM.lift ((w.hf j).subs.getE key)

/-- `EnergyLevel.__getitem__` (atom.py:192-198). -/
def lvItem (i : Nat) (key : Str) : PyM Ref := do
  lazyHF i
  let w ← PyM.get
  if w.I = 0 ∧ isIn mJtxt key = true then do
    let j ← PyM.lift ((w.lv i).subs.getE (Term.fEq ++ jFrac (w.lv i).term))
    let k ← hfItem j (pyReplace mJtxt mFtxt key)
    pure (.zee k)
  else do
    let j ← PyM.lift ((w.lv i).subs.getE key)
    pure (.hyp j)

/-- `x[key]` on whatever a previous `[]` returned. -/
def refItem (r : Ref) (key : Str) : PyM Ref :=
  match r with
  | .fine i => lvItem i key
  | .hyp j => do
    let k ← hfItem j key
    pure (.zee k)
  | .zee _ => PyM.raise .KeyError

/-- `' '` -/
def spc : Str := [' ']
/-- `'mJ='` -/
def mJeq : Str := ['m', 'J', '=']
/-- `' mJ='` -/
def spcMJ : Str := [' ', 'm', 'J', '=']

/-- `LevelStructure.__getitem__` with a string key (atom_helpers.py:43-57). -/
def levelsGet (key : Str) : PyM Ref := do
  let w ← PyM.get
  match w.lalias.get? key with
  | some r => pure r
  | none =>
    if isIn Term.mfEq key = true then
      match rsplit spc 2 key with
      | [main, h, z] => do
        let i ← PyM.lift (w.g.levelAttrs.getE main)
        let r ← lvItem i h
        refItem r z
      | _ => PyM.raise .ValueError
    else if isIn mJeq key = true then
      match rsplit spcMJ 1 key with
      | [main, z] => do
        let i ← PyM.lift (w.g.levelAttrs.getE main)
        let r ← lvItem i (Term.fEq ++ jFrac (w.lv i).term)
        refItem r (Term.mfEq ++ z)
      | _ => PyM.raise .ValueError
    else if isIn Term.fEq key = true then
      match rsplit spc 1 key with
      | [main, h] => do
        let i ← PyM.lift (w.g.levelAttrs.getE main)
        lvItem i h
      | _ => PyM.raise .ValueError
    else do
      let i ← PyM.lift (w.g.levelAttrs.getE key)
      pure (.fine i)

/-- `sorted(..., key=lambda x: x.level_Hz)` (atom_helpers.py:42). -/
def sortedLevels (w : World) : List Nat :=
  pySorted (fun a b => decide (w.eHz a ≤ w.eHz b)) w.g.levelAttrs.vals

/-- `LevelStructure.__getitem__` with an integer (atom_helpers.py:41-42). -/
def levelsGetInt (n : Int) (w : World) : Py Nat := pyIndex w.sortedLevels n

/-! ## Adding and deleting levels -/

/-- `EnergyLevel(term, level, lande, alias=..., hfA=..., hfB=..., hfC=...)` (atom.py:246-264), not yet in an atom.
`lande` is the value stored: the one given, or the result of `compute_gJ`. -/
def newLevel (t : Term) (E lande A B C : ℚ) (ali : Option Str) : PyM Nat := fun w =>
  ({ w with nlv := w.nlv + 1, lv := upd w.lv w.nlv ⟨t, E, lande, A, B, C, ali, false, false, []⟩ }, .ok w.nlv)

/-- `BaseLevel.add_to_atom` (atom.py:179-185) for an `EnergyLevel`. -/
def lvAddToAtom (i : Nat) : PyM Unit := PyM.modify fun w =>
  { w with lv := upd w.lv i { w.lv i with inAtom := true }, g := w.g.addNode (w.lname i) i }

/-- `level.alias = al` (atom.py:154-157): `self.atom.levels` raises before the level is in an atom, after the
private attribute has been set.  Sublevels are always in the atom; their private attribute is read nowhere and is not
kept. -/
def setAlias (r : Ref) (al : Str) : PyM Unit := fun w =>
  match r with
  | .fine i =>
    let w := w.setLv i { w.lv i with ali := some al }
    if (w.lv i).inAtom then ({ w with lalias := w.lalias.set al r }, .ok ()) else (w, .error .AttributeError)
  | _ => ({ w with lalias := w.lalias.set al r }, .ok ())

/-- `if alias is not None: level.alias = alias` -/
def setAliasOpt (i : Nat) : Option Str → PyM Unit
  | some al => setAlias (.fine i) al
  | none => pure ()

/-- `if level.alias is not None: self.levels.aliases[level.alias] = level` -/
def regAlias (i : Nat) : PyM Unit := fun w =>
  match (w.lv i).ali with
  | some al => ({ w with lalias := w.lalias.set al (.fine i) }, .ok ())
  | none => (w, .ok ())

/-- `Atom.add_level` (atom.py:915-935). -/
def addLevel (i : Nat) (populate : Bool) (ali : Option Str) : PyM Unit := do
  lvAddToAtom i
  setAliasOpt i ali
  regAlias i
  if populate then populateHF i else pure ()

/-- `LevelStructure.__setitem__` (atom_helpers.py:58-59). -/
def levelsSet (key : Str) (i : Nat) : PyM Unit := addLevel i false (some key)

/-- `LevelStructure.__delitem__` (atom_helpers.py:61-62). -/
def levelsDel (key : Str) : PyM Unit := fun w =>
  match w.g.removeNode key with
  | .ok g => ({ w with g := g }, .ok ())
  | .error e => (w, .error e)

/-- `LevelStructure.keys` / `list_names` (atom_helpers.py:70-71, 82-83). -/
def levelNames (w : World) : List Str := w.g.levelAttrs.keys

/-! ## Transitions -/

/-- The `A=` argument of `Transition`: absent, a rate (in Hz after `.to(Hz)`), or something on which `.to(Hz)`
raises. -/
inductive AArg
  | none
  | hz (q : ℚ)
  | bad (e : PyErr)
  deriving DecidableEq

/-- The rate stored (atom.py:577-578). -/
def AArg.rate : AArg → Option ℚ
  | .hz q => some q
  | _ => Option.none

/-- `BaseTransition.freq_Hz` (atom.py:591-593). -/
def freqHz (w : World) (t : Nat) : ℚ := |w.eHz (w.tr t).e1 - w.eHz (w.tr t).e2|

/-- `Transition.transition_allowed` (atom.py:711-721) on the quantum numbers: (E1, M1, E2).  `same` is
`self.E_1 is self.E_2`. -/
def allowedTypes (J0 J1 : ℚ) (p0 p1 : Int) (same : Bool) : Bool × Bool × Bool :=
  (decide (|J1 - J0| ≤ 1) && decide (p0 ≠ p1),
   decide (|J1 - J0| ≤ 1) && decide (p0 = p1),
   decide (|J1 - J0| ≤ 2) && decide (p0 = p1) && !same)

/-- `Transition.transition_allowed` (atom.py:711-721); a missing J raises. -/
def transAllowed (w : World) (a b : Nat) : Py (Bool × Bool × Bool) :=
  match (w.lv a).term.J, (w.lv b).term.J with
  | some J0, some J1 => .ok (allowedTypes J0 J1 (w.lv a).term.parity (w.lv b).term.parity (decide (a = b)))
  | _, _ => .error .TypeError

/-- `BaseTransition.add_to_atom` (atom.py:643-650) for a `Transition`: the edge is added first; iterating over the
populated dictionary yields its keys, which have no `add_to_atom`. -/
def trAddToAtom (t : Nat) : PyM Unit := fun w =>
  let w := { w with g := w.g.addEdge (w.lname (w.tr t).lower) (w.lname (w.tr t).upper) t }
  if (w.tr t).subKeys.length = 0 then (w, .ok ()) else (w, .error .AttributeError)

/-- The first part of `BaseTransition.__init__` (atom.py:554-570): levels, orientation, edge. -/
def newTransObj (a b : Nat) (ali : Option Str) : PyM Nat := fun w =>
  let up := if w.eHz b > w.eHz a then b else a
  let lo := if w.eHz b > w.eHz a then a else b
  let w' := { w with ntr := w.ntr + 1,
                     tr := upd w.tr w.ntr ⟨a, b, lo, up, false, none, (false, false, false), none, ali, []⟩ }
  if (w.lv a).inAtom then
    match trAddToAtom w.ntr w' with
    | (w'', .ok ()) => (w'', .ok w.ntr)
    | (w'', .error e) => (w'', .error e)
  else (w', .ok w.ntr)

/-- The second part of `BaseTransition.__init__` (atom.py:571-582): linewidth, selection rules, set frequency,
alias. -/
def newTransAttrs (t : Nat) (freq : Option ℚ) (A : AArg) : PyM Unit := fun w =>
  match A with
  | .bad e => (w, .error e)
  | _ =>
    match w.transAllowed (w.tr t).e1 (w.tr t).e2 with
    | .error e => (w, .error e)
    | .ok al =>
      let w := w.setTr t { w.tr t with built := true, A := A.rate,
                                       allowed := al, setFreq := freq }
      match (w.tr t).ali with
      | none => (w, .ok ())
      | some s => if (w.lv (w.tr t).e1).inAtom then ({ w with talias := w.talias.set s t }, .ok ())
                  else (w, .error .AttributeError)

/-- `Transition(E1, E2, freq=..., A=..., alias=...)` (atom.py:542-582). -/
def newTrans (a b : Nat) (freq : Option ℚ) (A : AArg) (ali : Option Str) : PyM Nat := do
  let t ← newTransObj a b ali
  newTransAttrs t freq A
  pure t

/-! ## Looking up transitions -/

/-- The energy of whatever a level lookup returned. -/
def refHz (w : World) : Ref → Py ℚ
  | .fine i => .ok (w.eHz i)
  | .hyp j => w.hHz j
  | .zee k => w.zHz k

/-- Is the text a plain fine-structure name, i.e. none of the sublevel spellings (atom_helpers.py:124-137)? -/
def plainKey (s : Str) : Bool := !isIn Term.mfEq s && !isIn mJeq s && !isIn Term.fEq s

/-- `TransitionStructure.__getitem__` (atom_helpers.py:118-140) with a pair of strings, the first one spelling a
fine-structure level.  (A pair is never an alias key: aliases are strings.) -/
def transGet (a b : Str) : PyM Nat := do
  let ra ← levelsGet a
  let rb ← levelsGet b
  let w ← PyM.get
  let ea ← PyM.lift (w.refHz ra)
  let eb ← PyM.lift (w.refHz rb)
  if plainKey a then
    if ea > eb then PyM.lift (w.g.edges.getE (b, a)) else PyM.lift (w.g.edges.getE (a, b))
  else PyM.raise .NotImplementedError

/-- `TransitionStructure.__getitem__` (atom_helpers.py:118-124) with a pair of integers: both levels are found, and then
`'mF=' in key[0]` is asked of an integer. -/
def transGetInt (n m : Int) : PyM Nat := fun w =>
  match levelsGetInt n w, levelsGetInt m w with
  | .ok _, .ok _ => (w, .error .TypeError)
  | .error e, _ => (w, .error e)
  | _, .error e => (w, .error e)

/-! ## Consistency -/

/-- Where networkx iterates over a set, its order is arbitrary: the order used is a parameter. -/
inductive OrdTag
  | comps
  | low (c : List Str)
  | nbrs (c : List Str) (n : Str)

/-- An iteration order for every place. -/
abbrev Ord' := OrdTag → List Str → List Str

/-- `set_edges` (atom.py:1141): reading `set_freq` of a half-constructed transition raises. -/
def setEdgesL (w : World) : List ((Str × Str) × Nat) → Py (List (Str × Str))
  | [] => .ok []
  | (e, t) :: rest =>
    if (w.tr t).built then do
      let r ← setEdgesL w rest
      .ok (if (w.tr t).setFreq.isSome then e :: r else r)
    else .error .AttributeError

/-- `set_edges` -/
def setEdges (w : World) : Py (List (Str × Str)) := setEdgesL w w.g.edges

/-- The nodes of `edge_subgraph(set_edges)` (atom.py:1142), without repetition. -/
def endpoints : List (Str × Str) → List Str
  | [] => []
  | (u, v) :: rest => ([u, v] ++ endpoints rest).dedup

/-- The neighbours of a node in the subgraph (atom.py:1142-1143): those of the full graph with the edge selected. -/
def subNbrs (g : Graph) (es : List (Str × Str)) (n : Str) : List Str :=
  match g.get? n with
  | some r => r.nbrs.keys.filter (fun m => (n, m) ∈ es || (m, n) ∈ es)
  | none => []

/-- The search for the lowest level (atom.py:1150-1156): `none` stands for a node without level attribute, on which
`.level_Hz` raises, and on which the running minimum `lowest is None` starts afresh. -/
def lowestLoop (w : World) : List (Str × Option Nat) → Option Nat → Option Str → Py (Option Str)
  | [], _, k => .ok k
  | (n, l) :: rest, none, _ => lowestLoop w rest l (some n)
  | (n, some l) :: rest, some cur, k =>
    if w.eHz l < w.eHz cur then lowestLoop w rest (some l) (some n) else lowestLoop w rest (some cur) k
  | (_, none) :: _, some _, _ => .error .AttributeError

/-- Node attributes in the given order. -/
def withLevels (g : Graph) (ns : List Str) : List (Str × Option Nat) :=
  ns.map (fun n => (n, (g.get? n).bind NodeRec.level))

/-- The loop body of the search (atom.py:1161-1169). -/
def enfEdge (u v : Str) : PyM Unit := fun w =>
  match w.g.adj u v with
  | none => (w, .error .KeyError)
  | some t =>
    match (w.tr t).setFreq with
    | none => (w, .error .AttributeError)
    | some f =>
      let l := (w.tr t).lower
      let up := (w.tr t).upper
      let w' :=
        if (w.lv l).fixed = true ∧ (w.lv up).fixed = true ∧ f ≠ |w.eHz l - w.eHz up| then
          { w with warned := w.warned + 1 }
        else if (w.lv up).fixed = true then w.setE l (w.eHz up - f)
        else w.setE up (w.eHz l + f)
      ((w'.setFixed up true).setFixed l true, .ok ())

/-- `for edge in search` (atom.py:1160). -/
def enfEdges : List (Str × Str) → PyM Unit
  | [] => pure ()
  | (u, v) :: rest => do
    enfEdge u v
    enfEdges rest

/-- One component (atom.py:1144-1169).  `trig` is `node_or_trans`: `none` when not given, otherwise a pair of names. -/
def enfComp (σ : Ord') (es : List (Str × Str)) (c : List Str) : PyM Unit := fun w =>
  match lowestLoop w (withLevels w.g (σ (.low c) c)) none none with
  | .error e => (w, .error e)
  | .ok none => (w, .ok ())
  | .ok (some s) => enfEdges (Graph.dfsEdges c (fun n => σ (.nbrs c n) (subNbrs w.g es n)) s) w

/-- `node_or_trans in subgraph.edges()` (atom.py:1147). -/
def inComp (g : Graph) (es : List (Str × Str)) (c : List Str) (p : Str × Str) : Bool :=
  decide (p.1 ∈ c) && decide (p.2 ∈ subNbrs g es p.1)

/-- The restriction to the component of the triggering transition (atom.py:1145-1148). -/
def triggered (g : Graph) (es : List (Str × Str)) (c : List Str) : Option (Str × Str) → Bool
  | none => true
  | some p => inComp g es c p

/-- The loop over the components (atom.py:1144). -/
def enfComps (σ : Ord') (es : List (Str × Str)) (trig : Option (Str × Str)) : List (List Str) → PyM Unit
  | [] => pure ()
  | c :: cs => fun w =>
    if triggered w.g es c trig then (do
      enfComp σ es c
      enfComps σ es trig cs : PyM Unit) w
    else enfComps σ es trig cs w

/-- `Atom.enforce_consistency` (atom.py:1131-1169). -/
def enforce (σ : Ord') (trig : Option (Str × Str)) : PyM Unit := fun w =>
  match w.setEdges with
  | .error e => (w, .error e)
  | .ok es =>
    let V := endpoints es
    enfComps σ es trig (Graph.compsFrom V (fun n => subNbrs w.g es n) (σ .comps V) []) w

/-- `bool(self.set_freq)` (atom.py:740). -/
def truthy : Option ℚ → Bool
  | some q => decide (q ≠ 0)
  | none => false

/-- `Transition.set_frequency` (atom.py:738-744).  `if self.set_freq` is false for an absent and for a zero
frequency. -/
def setFrequency (σ : Ord') (t : Nat) (f : ℚ) : PyM Unit := fun w =>
  if (w.tr t).built then
    let w := if truthy (w.tr t).setFreq = true ∧ (w.lv (w.tr t).upper).fixed = true ∧ (w.lv (w.tr t).lower).fixed = true
      then w.setFixed (w.tr t).upper false else w
    let w := w.setTr t { w.tr t with setFreq := some f }
    if (w.lv (w.tr t).e1).inAtom then enforce σ (some (w.lname (w.tr t).e1, w.lname (w.tr t).e2)) w
    else (w, .error .AttributeError)
  else (w, .error .AttributeError)

/-- `if transition.alias is not None: self.transitions.aliases[...] = transition` -/
def regTAlias (t : Nat) : PyM Unit := fun w =>
  match (w.tr t).ali with
  | some s => ({ w with talias := w.talias.set s t }, .ok ())
  | none => (w, .ok ())

/-- `if transition.set_freq is not None: self.enforce_consistency()` -/
def enforceIfSet (σ : Ord') (t : Nat) : PyM Unit := fun w =>
  if (w.tr t).built then
    match (w.tr t).setFreq with
    | some _ => enforce σ none w
    | none => (w, .ok ())
  else (w, .error .AttributeError)

/-- `Atom.add_transition` with a `Transition` object (atom.py:954-960). -/
def addTransition (σ : Ord') (t : Nat) : PyM Unit := do
  trAddToAtom t
  regTAlias t
  enforceIfSet σ t

/-! ## Derived quantities -/

/-- `Atom.linked_levels` (atom.py:1086-1096) for the key of a fine-structure level: names and transitions.  The level
is resolved (alias included), but the adjacency is read under the key as given. -/
def linkedLevels (key : Str) : PyM (Dict Str Nat) := do
  let r ← levelsGet key
  let w ← PyM.get
  match r with
  | .fine _ =>
    match w.g.get? key with
    | some n => pure (n.nbrs.filter (fun p => p.1 ≠ key))
    | none => PyM.raise .KeyError
  | _ => PyM.raise .NotImplementedError

/-- `populate_internal_transitions` (atom.py:1056-1064), loop body. -/
def internal1 (i : Nat) : PyM Unit := do
  let t ← newTrans i i none .none none
  trAddToAtom t

/-- `populate_internal_transitions`, loop. -/
def internalLoop : List Nat → PyM Unit
  | [] => pure ()
  | i :: is => do
    internal1 i
    internalLoop is

/-- `Atom.populate_internal_transitions` (atom.py:1056-1064). -/
def populateInternal : PyM Unit := fun w => internalLoop w.g.levelAttrs.vals w

end World
end AtomTk
