import Verif.Model.TwoAtoms

/-! # Programs with two atoms that do not share levels -/

namespace AtomTk.Two
open Util World

/-- The object exists and its level is in the atom `k`. -/
def Has (s : Two) (k : Bool) : Ref → Prop
  | .fine i => s.owner i = some k
  | .hyp j => j < s.heap.nhf ∧ s.owner (s.heap.hf j).parent = some k
  | .zee z => z < s.heap.nzl ∧ s.owner (s.heap.hf (s.heap.zl z).parent).parent = some k

/-- The call, made for the atom `k`, is not about objects of the other atom. -/
def NotOther (s : Two) (k : Bool) : Op → Prop
  | .addLevel i _ _ => s.owner i ≠ some (!k)
  | .setItem _ i => s.owner i ≠ some (!k)
  | .getSub r _ => s.Has k r
  | .setAlias r _ => s.Has k r
  | .setEnergy i _ => s.owner i ≠ some (!k)
  | .setHEnergy j _ => s.Has k (.hyp j)
  | .setZEnergy z _ => s.Has k (.zee z)
  | .setConsts i _ _ _ _ => s.owner i ≠ some (!k)
  | .setQuad z _ => s.Has k (.zee z)
  | .setFrequency _ t _ => t < s.heap.ntr ∧ s.owner (s.heap.tr t).e1 = some k
  | .fillSub t _ => t < s.heap.ntr ∧ s.owner (s.heap.tr t).e1 = some k
  | _ => True

/-- The calls allowed in programs that do not share levels. -/
def Allowed (s : Two) (k : Bool) (op : Op) : Prop := op.Sane (s.view k) ∧ s.NotOther k op

/-- States of programs with two atoms that do not share levels. -/
inductive Separate : Two → Prop
  | empty (I B I' B' : ℚ) : Separate (empty I B I' B')
  | step {s : Two} (k : Bool) (op : Op) (h : Separate s) (ha : s.Allowed k op) : Separate (run k op s).1

/-- Every call of the program is allowed. -/
def AllowedAll : List (Bool × Op) → Two → Prop
  | [], _ => True
  | (k, op) :: l, s => s.Allowed k op ∧ AllowedAll l (run k op s).1

/-- Every call of the program has sane arguments; levels may be shared. -/
def SaneRun : List (Bool × Op) → Two → Prop
  | [], _ => True
  | (k, op) :: l, s => op.Sane (s.view (s.target k op)) ∧ SaneRun l (run k op s).1

theorem Separate.runAll {l : List (Bool × Op)} {s : Two} (h : Separate s) (ha : AllowedAll l s) : Separate (runAll l s) := by
  induction l generalizing s with
  | nil => exact h
  | cons p l ih => obtain ⟨k, op⟩ := p; exact ih (.step k op h ha.1) ha.2

instance (s : Two) (k : Bool) (r : Ref) : Decidable (s.Has k r) := by cases r <;> (unfold Has; infer_instance)
instance (s : Two) (k : Bool) (op : Op) : Decidable (s.NotOther k op) := by cases op <;> (unfold NotOther; infer_instance)
instance (s : Two) (k : Bool) (op : Op) : Decidable (s.Allowed k op) := by unfold Allowed; infer_instance

/-- The conditions can be evaluated. -/
def decAllowedAll : (l : List (Bool × Op)) → (s : Two) → Decidable (AllowedAll l s)
  | [], _ => isTrue trivial
  | (_, _) :: l, s => @instDecidableAnd _ _ inferInstance (decAllowedAll l (run _ _ s).1)

instance (l : List (Bool × Op)) (s : Two) : Decidable (AllowedAll l s) := decAllowedAll l s

/-- The conditions can be evaluated. -/
def decSaneRun : (l : List (Bool × Op)) → (s : Two) → Decidable (SaneRun l s)
  | [], _ => isTrue trivial
  | (_, _) :: l, s => @instDecidableAnd _ _ inferInstance (decSaneRun l (run _ _ s).1)

instance (l : List (Bool × Op)) (s : Two) : Decidable (SaneRun l s) := decSaneRun l s

end AtomTk.Two
