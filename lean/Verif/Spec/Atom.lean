import Verif.Model.World
import Mathlib.Logic.Relation
import Mathlib.Combinatorics.SimpleGraph.Acyclic

/-! # Histories of API calls

`Reachable w`: the state `w` is reached from the empty atom by a finite sequence of calls, each of which may succeed or
raise.  Side conditions (`Op.Sane`) exclude exactly the misuses whose effect on the graph is treated separately
(C46, C47): two different level objects under one name, transitions between levels that are not registered, a
linewidth argument on which the constructor raises, a level without J. -/

namespace AtomTk
open Util

namespace World
/-- The levels of a transition are registered in the graph. -/
def Registered (w : World) (i : Nat) : Prop := w.g.lev (w.lname i) = some i

end World

/-- An API call. -/
inductive Op
  | newLevel (t : Term) (E lande A B C : ℚ) (ali : Option Str)
  | addLevel (i : Nat) (populate : Bool) (ali : Option Str)
  | setItem (key : Str) (i : Nat)
  | delItem (key : Str)
  | getLevel (key : Str)
  | getSub (r : Ref) (key : Str)
  | setAlias (r : Ref) (al : Str)
  | setEnergy (i : Nat) (v : ℚ)
  | setHEnergy (j : Nat) (v : ℚ)
  | setZEnergy (k : Nat) (v : ℚ)
  | setConsts (i : Nat) (lande A B C : ℚ)
  | setQuad (k : Nat) (q : ℚ)
  | setB (b : ℚ)
  | newTrans (a b : Nat) (freq : Option ℚ) (A : World.AArg) (ali : Option Str)
  | addTransition (σ : World.Ord') (t : Nat)
  | setFrequency (σ : World.Ord') (t : Nat) (f : ℚ)
  | enforce (σ : World.Ord')
  | fillSub (t : Nat) (keys : List (Str × Str))

namespace Op
open World

/-- Forget the result. -/
def void {α} (m : PyM α) : PyM Unit := fun w => match m w with
  | (w', .ok _) => (w', .ok ())
  | (w', .error e) => (w', .error e)

/-- Run a call.  Attribute assignments (`level.hfA = x`, `atom.B = b`, ...) change the field.  `fillSub` is the effect
of the lazy computation of subtransitions (atom.py:727-735) on the part of the state modelled here. -/
def run : Op → PyM Unit
  | .newLevel t E l A B C ali => void (World.newLevel t E l A B C ali)
  | .addLevel i p ali => World.addLevel i p ali
  | .setItem key i => World.levelsSet key i
  | .delItem key => World.levelsDel key
  | .getLevel key => void (World.levelsGet key)
  | .getSub r key => void (World.refItem r key)
  | .setAlias r al => World.setAlias r al
  | .setEnergy i v => PyM.modify fun w => w.setE i v
  | .setHEnergy j v => World.setHLevel j v
  | .setZEnergy k v => World.setZLevel k v
  | .setConsts i l A B C => PyM.modify fun w =>
      w.setLv i { w.lv i with lande := l, hfA := A, hfB := B, hfC := C }
  | .setQuad k q => PyM.modify fun w => w.setZl k { w.zl k with quad := q }
  | .setB b => PyM.modify fun w => { w with B := b }
  | .newTrans a b f A ali => void (World.newTrans a b f A ali)
  | .addTransition σ t => World.addTransition σ t
  | .setFrequency σ t f => World.setFrequency σ t f
  | .enforce σ => World.enforce σ none
  | .fillSub t keys => PyM.modify fun w => w.setTr t { w.tr t with subKeys := keys }

/-- The side conditions. -/
def Sane (w : World) : Op → Prop
  | .addLevel i _ _ => i < w.nlv ∧ (w.g.lev (w.lname i) = none ∨ w.g.lev (w.lname i) = some i)
  | .setItem _ i => i < w.nlv ∧ (w.g.lev (w.lname i) = none ∨ w.g.lev (w.lname i) = some i)
  | .newTrans a b _ A _ => w.Registered a ∧ w.Registered b ∧ (w.lv a).term.J ≠ none ∧ (w.lv b).term.J ≠ none ∧
      ∀ e, A ≠ .bad e
  | .addTransition _ t => t < w.ntr ∧ (w.tr t).built = true ∧ w.Registered (w.tr t).lower ∧ w.Registered (w.tr t).upper
  | _ => True

end Op

/-- The conditions can be evaluated. -/
instance Op.decSane (w : World) (op : Op) : Decidable (op.Sane w) := by
  cases op
  case newTrans a b f A ali =>
    have : Decidable (∀ e, A ≠ World.AArg.bad e) := by
      cases A
      case bad e => exact isFalse (fun h => h e rfl)
      all_goals exact isTrue (fun e => by simp)
    unfold Op.Sane World.Registered
    infer_instance
  all_goals (unfold Op.Sane; try unfold World.Registered; infer_instance)

/-- An atom without levels. -/
def emptyAtom (I B : ℚ) : World :=
  let e : ELevel := ⟨⟨[], [], none, none, none, 0, ⟨none, none, none, none, none, none, none, none, none⟩⟩, 0, 0, 0, 0, 0, none, false, false, []⟩
  { I := I, B := B, nlv := 0, lv := fun _ => e, nhf := 0, hf := fun _ => ⟨e.term, 0, 0, []⟩, nzl := 0,
    zl := fun _ => ⟨e.term, 0, 0, 0⟩, ntr := 0,
    tr := fun _ => ⟨0, 0, 0, 0, false, none, (false, false, false), none, none, []⟩, g := [], lalias := [], talias := [],
    warned := 0 }

/-- States reached by sane calls. -/
inductive Reachable : World → Prop
  | empty (I B : ℚ) : Reachable (emptyAtom I B)
  | step {w : World} (op : Op) : Reachable w → op.Sane w → Reachable (op.run w).1

/-- A whole history. -/
def runAll : List Op → World → World
  | [], w => w
  | op :: ops, w => runAll ops (op.run w).1

/-- Every call of a history is sane when it is made. -/
def SaneAll : List Op → World → Prop
  | [], _ => True
  | op :: ops, w => op.Sane w ∧ SaneAll ops (op.run w).1

/-- The conditions can be evaluated. -/
def decSaneAll : (ops : List Op) → (w : World) → Decidable (SaneAll ops w)
  | [], _ => isTrue trivial
  | op :: ops, w => @instDecidableAnd _ _ (Op.decSane w op) (decSaneAll ops (op.run w).1)

instance (ops : List Op) (w : World) : Decidable (SaneAll ops w) := decSaneAll ops w

theorem Reachable.runAll {ops : List Op} {w : World} (hw : Reachable w) (hs : SaneAll ops w) :
    Reachable (AtomTk.runAll ops w) := by
  induction ops generalizing w with
  | nil => exact hw
  | cons op ops ih => exact ih (.step op hw hs.1) hs.2

namespace World

/-! ## Groups of transitions with set frequencies -/

/-- There is an edge between `u` and `v` whose transition `t` has the set frequency `f`. -/
def SetEdge (w : World) (u v : Str) (t : Nat) (f : ℚ) : Prop := w.g.adj u v = some t ∧ (w.tr t).setFreq = some f

/-- The iteration orders are permutations. -/
def Shuffles (σ : Ord') : Prop := ∀ t l, (σ t l).Perm l

/-- Connection through transitions with set frequencies: `SetConn w v` is the group of the level named `v`. -/
abbrev SetConn (w : World) : Str → Str → Prop := Relation.ReflTransGen (fun a b => ∃ t f, SetEdge w a b t f)

/-- The levels of the nodes in `X`. -/
def InX (w : World) (X : Str → Prop) (i : Nat) : Prop := ∃ n, X n ∧ w.g.lev n = some i

/-- Energies that meet all set frequencies of the group, with every transition the way round it was built. -/
def Potential (w : World) (X : Str → Prop) (φ : Nat → ℚ) : Prop :=
  ∀ n m t f, X n → SetEdge w n m t f → 0 ≤ f ∧ φ (w.tr t).upper - φ (w.tr t).lower = f

/-- Upper levels are not below lower levels at the moment. -/
def Oriented (w : World) (X : Str → Prop) : Prop :=
  ∀ n m t f, X n → SetEdge w n m t f → w.eHz (w.tr t).lower ≤ w.eHz (w.tr t).upper

/-- The atom with the set frequency of `t` being `f`, and nothing else changed. -/
def withFreq (w : World) (t : Nat) (f : ℚ) : World := w.setTr t { w.tr t with setFreq := some f }

/-- No loop among the transitions with set frequency in the group. -/
def LoopFree (w : World) (X : Str → Prop) : Prop :=
  (SimpleGraph.fromRel (fun a b => X a ∧ X b ∧ ∃ t f, SetEdge w a b t f)).IsAcyclic ∧
    ∀ n t f, X n → ¬SetEdge w n n t f

end World
end AtomTk
