import Verif.Model.SubTrans
import Verif.Model.Derived

/-! # `Atom.linked_levels`, `state_lifetime`, `compute_branching_ratios` for sublevels

atom.py:1086-1129 for the key of a hyperfine or Zeeman level (fine-structure keys are in `Model/World.lean` and
`Model/Derived.lean`).  The graphs `hf_model` and `z_model` are their rows of neighbours.

Simplifications: the dictionaries `_subtransitions`, which `populate_subtransitions` fills too, are left out here
(`Model/SubTrans.lean` has them); what an exception leaves of the graphs is not described. -/

namespace AtomTk
open Util Strengths

/-- The edges of `hf_model` or `z_model`: the neighbours of every node, with the attribute `'transition'`. -/
abbrev Rows (τ : Type _) := Str → Dict Str τ

namespace Rows
variable {τ : Type _}

/-- No edges. -/
def empty : Rows τ := fun _ => []

/-- One direction of an edge. -/
def put (H : Rows τ) (u v : Str) (x : τ) : Rows τ := fun n => if n = u then (H n).set v x else H n

/-- `G.add_edge(u, v, transition=x)` (atom.py:647). -/
def addEdge (H : Rows τ) (u v : Str) (x : τ) : Rows τ := (H.put u v x).put v u x

end Rows

/-- The loop of `populate_subtransitions` (atom.py:730-736, 792-798) as far as the graph is concerned: every transition built adds
its edge in the constructor (atom.py:569-570), allowed or not. -/
def edgeLoop {τ : Type _} (ok : Nat → Nat → Py Bool) (mk : Nat → Nat → Py τ) (ends : τ → Str × Str) :
    List (Nat × Nat) → Rows τ → Py (Rows τ)
  | [], H => .ok H
  | (a, b) :: ps, H => do
    let g ← ok a b
    if g then do
      let x ← mk a b
      edgeLoop ok mk ends ps (H.addEdge (ends x).1 (ends x).2 x)
    else edgeLoop ok mk ends ps H

/-- The coefficients of the transitions listed; `noA` is what a missing one raises. -/
def coeffs (noA : PyErr) : List (Option ℝ) → Py (List ℝ)
  | [] => .ok []
  | some a :: l => do
    let r ← coeffs noA l
    .ok (a :: r)
  | none :: _ => .error noA

open Classical in
/-- `t.magnitude / totalAs` (atom.py:1128): `none` for a division by zero. -/
noncomputable def share (a tot : ℝ) : Option ℝ := if tot = 0 then none else some (a / tot)

open Classical in
/-- The end of `state_lifetime` (atom.py:1106-1108). -/
noncomputable def lifetimeOf (tot : ℝ) : World.Time := if tot = 0 then .inf else .sec (1 / (tot / (2 * Real.pi)))

/-- The end of `compute_branching_ratios` (atom.py:1119-1129) on the transitions whose upper level is the one asked for. -/
noncomputable def sharesOf (downs : Dict Str (Option ℝ)) : Py (Dict Str (Option ℝ)) := do
  let as ← coeffs .AttributeError downs.vals
  .ok (downs.keys.zip (as.map (fun a => share a as.sum)))

namespace World

/-- The name of a hyperfine level (atom.py:68). -/
def hFull (w : World) (j : Nat) : Str := (w.hf j).term.name

/-- The name of a Zeeman level (atom.py:68). -/
def zFull (w : World) (k : Nat) : Str := (w.zl k).term.name

/-- The nodes of `hf_model`: every hyperfine level made is added to it (atom.py:35-36, 181). -/
def hNode (w : World) (n : Str) : Bool := (List.range w.nhf).any (fun j => w.hFull j = n)

/-- The nodes of `z_model`. -/
def zNode (w : World) (n : Str) : Bool := (List.range w.nzl).any (fun k => w.zFull k = n)

/-- The ends of the edge of a hyperfine transition (atom.py:647). -/
def hEnds (w : World) (x : HTr) : Str × Str := (w.hFull x.lower, w.hFull x.upper)

/-- The ends of the edge of a Zeeman transition (atom.py:647). -/
def zEnds (w : World) (y : ZTr) : Str × Str := (w.zFull y.lower, w.zFull y.upper)

/-- `Transition.populate_subtransitions` (atom.py:728-736): the graph afterwards. -/
noncomputable def hypEdges (W : Wig) (t : Nat) (H : Rows HTr) : PyM (Rows HTr) := do
  let w ← PyM.get
  lazyHF (w.tr t).e1
  lazyHF (w.tr t).e2
  let w ← PyM.get
  PyM.lift (edgeLoop (fun a b => pairOk (w.tr t).allowed (w.hf a).term.F (w.hf b).term.F) (w.newHTr W t) w.hEnds
    (product (w.lv (w.tr t).e1).subs.vals (w.lv (w.tr t).e2).subs.vals) H)

/-- `for k, trans in ...: trans.populate_subtransitions()` (atom.py:1093-1094) over the transitions of a fine-structure level. -/
noncomputable def hypEdgesAll (W : Wig) : List Nat → Rows HTr → PyM (Rows HTr)
  | [], H => pure H
  | t :: ts, H => do
    let H ← hypEdges W t H
    hypEdgesAll W ts H

/-- `Atom.linked_levels` (atom.py:1086-1096) with the key of a hyperfine level: the edges of `hf_model` afterwards and the result.
The adjacency is read under the key as given. -/
noncomputable def linkedHyp (W : Wig) (H : Rows HTr) (key : Str) : PyM (Rows HTr × Dict Str HTr) := do
  let r ← levelsGet key
  let w ← PyM.get
  match r with
  | .hyp j => do
    let d ← linkedLevels (w.lname (w.hf j).parent)
    let H ← hypEdgesAll W d.vals H
    let w ← PyM.get
    if w.hNode key = true then pure (H, (H key).filter (fun p => p.1 ≠ key)) else PyM.raise .KeyError
  | _ => PyM.raise .NotImplementedError

/-- `HFTransition.populate_subtransitions` (atom.py:790-798): the graph afterwards. -/
noncomputable def zeeEdges (W : Wig) (x : HTr) (Z : Rows ZTr) : PyM (Rows ZTr) := do
  lazyZ x.e1
  lazyZ x.e2
  let w ← PyM.get
  PyM.lift (edgeLoop (fun a b => pairOk x.allowed (w.zl a).term.mF (w.zl b).term.mF) (w.newZTr W x) w.zEnds
    (product (w.hf x.e1).subs.vals (w.hf x.e2).subs.vals) Z)

/-- `for k, trans in ...: trans.populate_subtransitions()` (atom.py:1093-1094) over the transitions of a hyperfine level. -/
noncomputable def zeeEdgesAll (W : Wig) : List HTr → Rows ZTr → PyM (Rows ZTr)
  | [], Z => pure Z
  | x :: xs, Z => do
    let Z ← zeeEdges W x Z
    zeeEdgesAll W xs Z

/-- `Atom.linked_levels` (atom.py:1086-1096) with the key of a Zeeman level. -/
noncomputable def linkedZee (W : Wig) (H : Rows HTr) (Z : Rows ZTr) (key : Str) : PyM ((Rows HTr × Rows ZTr) × Dict Str ZTr) := do
  let r ← levelsGet key
  let w ← PyM.get
  match r with
  | .zee k => do
    let (H, d) ← linkedHyp W H (w.hFull (w.zl k).parent)
    let Z ← zeeEdgesAll W d.vals Z
    let w ← PyM.get
    if w.zNode key = true then pure ((H, Z), (Z key).filter (fun p => p.1 ≠ key)) else PyM.raise .KeyError
  | _ => PyM.raise .NotImplementedError

/-- `Atom.state_lifetime` (atom.py:1098-1108) with the key of a hyperfine level. -/
noncomputable def hypLifetime (W : Wig) (H : Rows HTr) (key : Str) : PyM Time := do
  let (_, d) ← linkedHyp W H key
  let r ← levelsGet key
  let as ← PyM.lift (coeffs .TypeError ((d.vals.filter (fun x => Ref.hyp x.upper = r)).map HTr.A))
  pure (lifetimeOf as.sum)

/-- `Atom.compute_branching_ratios` (atom.py:1110-1129) with the key of a hyperfine level. -/
noncomputable def hypBranching (W : Wig) (H : Rows HTr) (key : Str) : PyM (Dict Str (Option ℝ)) := do
  let (_, d) ← linkedHyp W H key
  let w ← PyM.get
  PyM.lift (sharesOf ((d.filter (fun p => w.hFull p.2.upper = key)).map (fun p => (p.1, p.2.A))))

/-- `Atom.state_lifetime` (atom.py:1098-1108) with the key of a Zeeman level. -/
noncomputable def zeeLifetime (W : Wig) (H : Rows HTr) (Z : Rows ZTr) (key : Str) : PyM Time := do
  let (_, d) ← linkedZee W H Z key
  let r ← levelsGet key
  let as ← PyM.lift (coeffs .TypeError ((d.vals.filter (fun x => Ref.zee x.upper = r)).map ZTr.A))
  pure (lifetimeOf as.sum)

/-- `Atom.compute_branching_ratios` (atom.py:1110-1129) with the key of a Zeeman level. -/
noncomputable def zeeBranching (W : Wig) (H : Rows HTr) (Z : Rows ZTr) (key : Str) : PyM (Dict Str (Option ℝ)) := do
  let (_, d) ← linkedZee W H Z key
  let w ← PyM.get
  PyM.lift (sharesOf ((d.filter (fun p => w.zFull p.2.upper = key)).map (fun p => (p.1, p.2.A))))

end World
end AtomTk
