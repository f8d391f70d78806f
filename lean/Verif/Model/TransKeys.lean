import Verif.Model.SubTrans

/-! # `atomtoolkit/atom_helpers.py`: `TransitionStructure` with every kind of key, and its listings

`Model/World.lean` has the lookup for names of fine-structure levels (`transGet`) and for integers (`transGetInt`); this file
has the whole of `__getitem__` on strings and pairs of strings, and the dictionary methods. -/

namespace AtomTk
open Util Strengths

/-- What `atom.transitions[...]` returns. -/
inductive TRef
  | fine (t : Nat)
  | hyp (x : HTr)
  | zee (z : ZTr)

/-- The dictionaries `_subtransitions` (atom.py:555) of every transition and of every hyperfine transition. -/
structure SubDicts where
  h : Nat → Dict (Str × Str) HTr
  z : HTr → Dict (Str × Str) ZTr

/-- Nothing has been computed yet. -/
def SubDicts.empty : SubDicts := ⟨fun _ => [], fun _ => []⟩

namespace World

/-- `TransitionStructure.__getitem__` once the keys are in order (atom_helpers.py:124-140); `first` is `key[0]`. -/
noncomputable def transPath (W : Wig) (sd : SubDicts) (first lo hi : Str) : PyM TRef := do
  let w ← PyM.get
  if isIn Term.mfEq first = true then
    match rsplit spc 2 lo with
    | [m0, h0, z0] => match rsplit spc 2 hi with
      | [m1, h1, z1] => do
        let t ← PyM.lift (w.g.edges.getE (m0, m1))
        let x ← hItem W t (sd.h t) (h0, h1)
        let y ← zItem W x (sd.z x) (z0, z1)
        pure (.zee y)
      | _ => PyM.raise .ValueError
    | _ => PyM.raise .ValueError
  else if isIn mJeq first = true then
    match rsplit spcMJ 1 lo with
    | [m0, z0] => match rsplit spcMJ 1 hi with
      | [m1, z1] => do
        let l0 ← PyM.lift (w.g.levelAttrs.getE m0)
        let l1 ← PyM.lift (w.g.levelAttrs.getE m1)
        let t ← PyM.lift (w.g.edges.getE (m0, m1))
        let x ← hItem W t (sd.h t) (Term.fEq ++ jFrac (w.lv l0).term, Term.fEq ++ jFrac (w.lv l1).term)
        let y ← zItem W x (sd.z x) (Term.mfEq ++ z0, Term.mfEq ++ z1)
        pure (.zee y)
      | _ => PyM.raise .ValueError
    | _ => PyM.raise .ValueError
  else if isIn Term.fEq first = true then
    match rsplit spc 1 lo with
    | [m0, h0] => match rsplit spc 1 hi with
      | [m1, h1] => do
        let t ← PyM.lift (w.g.edges.getE (m0, m1))
        let x ← hItem W t (sd.h t) (h0, h1)
        pure (.hyp x)
      | _ => PyM.raise .ValueError
    | _ => PyM.raise .ValueError
  else do
    let t ← PyM.lift (w.g.edges.getE (lo, hi))
    pure (.fine t)

/-- `TransitionStructure.__getitem__` with a pair of strings (atom_helpers.py:118-140).  A pair is not an alias: aliases are
strings. -/
noncomputable def transLookup (W : Wig) (sd : SubDicts) (a b : Str) : PyM TRef := do
  let ra ← levelsGet a
  let rb ← levelsGet b
  let w ← PyM.get
  let ea ← PyM.lift (w.refHz ra)
  let eb ← PyM.lift (w.refHz rb)
  if ea > eb then transPath W sd a b a else transPath W sd a a b

/-- `TransitionStructure.__getitem__` with a string (atom_helpers.py:115-123): an alias, or else the first two characters of
the text are taken for the names of two levels. -/
noncomputable def transGetStr (W : Wig) (sd : SubDicts) (s : Str) : PyM TRef := do
  let w ← PyM.get
  match w.talias.get? s with
  | some t => pure (.fine t)
  | none => match s with
    | [] => PyM.raise .IndexError
    | [c] => do
      let _ ← levelsGet [c]
      PyM.raise .IndexError
    | c :: d :: _ => transLookup W sd [c] [d]

/-- `transition.alias = al` (atom.py:638-641) for a `Transition`. -/
def setTAlias (t : Nat) (al : Str) : PyM Unit := fun w =>
  let w := w.setTr t { w.tr t with ali := some al }
  if (w.lv (w.tr t).e1).inAtom then ({ w with talias := w.talias.set al t }, .ok ()) else (w, .error .AttributeError)

/-- `Transition(self.levels[a], self.levels[b], **kwargs)` (atom.py:950) for names of levels. -/
def newTransNamed (a b : Str) (freq : Option ℚ) (A : AArg) (ali : Option Str) : PyM Nat := do
  let ra ← levelsGet a
  let rb ← levelsGet b
  match ra, rb with
  | .fine i, .fine j => newTrans i j freq A ali
  | _, _ => PyM.raise .NotImplementedError

/-- `Atom.add_transition` with a pair of names (atom.py:945-960): a pair that is a key is looked up, any other pair makes a new
transition between the levels found.  The warning about a present pair is not counted.  Names of sublevels, from which
`Transition` would be built too, are left out here; see Model/SubEnds.lean. -/
def addTransPair (σ : Ord') (a b : Str) (freq : Option ℚ) (A : AArg) (ali : Option Str) : PyM Nat := do
  let w ← PyM.get
  let t ← (if (a, b) ∈ w.g.edges.keys then transGet a b else newTransNamed a b freq A ali)
  addTransition σ t
  pure t

/-- `Atom.add_transition` with a pair of levels (atom.py:945-946, 951-960): levels are no names, so that the pair is never a
key. -/
def addTransLevels (σ : Ord') (i j : Nat) (freq : Option ℚ) (A : AArg) (ali : Option Str) : PyM Nat := do
  let t ← newTrans i j freq A ali
  addTransition σ t
  pure t

/-- What `Atom.add_transition` may be called with: a transition, a pair of names, a pair of levels, a pair of something else, or two
levels that are not in a pair (as in species/Yb_II_171.py:47). -/
inductive TransArg'
  | obj (t : Nat)
  | names (a b : Str)
  | levels (i j : Nat)
  | other
  | two (i j : Nat)

/-- `Atom.add_transition` (atom.py:937-960).  The keyword arguments are not looked at for a transition; a pair of something else
has no `add_to_atom`; there is one positional argument only. -/
def addTransArg (σ : Ord') (freq : Option ℚ) (A : AArg) (ali : Option Str) : TransArg' → PyM Nat
  | .obj t => do
    addTransition σ t
    pure t
  | .names a b => addTransPair σ a b freq A ali
  | .levels i j => addTransLevels σ i j freq A ali
  | .other => PyM.raise .AttributeError
  | .two _ _ => PyM.raise .TypeError

/-! ## Listings -/

/-- `TransitionStructure.keys` (atom_helpers.py:154-155). -/
def transKeys (w : World) : List (Str × Str) := w.g.edges.keys

/-- `TransitionStructure.values` (atom_helpers.py:157-158). -/
def transVals (w : World) : List Nat := w.g.edges.vals

/-- `TransitionStructure.__len__` (atom_helpers.py:148-149). -/
def transLen (w : World) : Nat := w.g.edges.length

/-- `TransitionStructure.list_names` (atom_helpers.py:163-172). -/
def transNames (w : World) (hide : Bool) : List (Str × Str) :=
  if hide then w.transKeys.filter (fun k => k.1 ≠ k.2) else w.transKeys

end World
end AtomTk
