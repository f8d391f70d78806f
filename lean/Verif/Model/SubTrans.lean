import Verif.Model.World
import Verif.Model.Wigner

/-! # `atomtoolkit/atom.py`: hyperfine and Zeeman transitions

The objects of this file are values: an `HTr` holds the attributes an `HFTransition` gets in its constructor, and
`_subtransitions` of a transition is a dictionary passed explicitly.  Energies are read from the state when they are asked
for.

Simplifications:
* amplitudes and rates are exact reals, so `!= 0.0` is exact;
* the edges added to the hyperfine and Zeeman graphs are not kept (no method modelled reads them);
* an exception in the middle of populating (which `Props/SubTrans.lean` shows not to happen for levels with quantum numbers)
  would leave a partly filled dictionary; it is not kept. -/

namespace AtomTk
open Util

/-- (E1, M1, E2) -/
abbrev Types := Bool × Bool × Bool

namespace Strengths

/-- The angular factor of `HFTransition.compute_linewidth` (atom.py:761-766). -/
noncomputable def hFactor (W : Wig) (al : Types) (I J1 F1 J2 F2 : ℚ) : Py ℝ :=
  if al.1 || al.2.1 then do
    let x ← W.w6j J2 F2 I F1 J1 1
    .ok ((((2 * F1 + 1) * (2 * F2 + 1) : ℚ) : ℝ) * x ^ 2)
  else if al.2.2 then do
    let x ← W.w6j J2 F2 I F1 J1 2
    .ok ((((2 * F1 + 1) * (2 * F2 + 1) : ℚ) : ℝ) * x ^ 2)
  else .ok 0

/-- `HFTransition.transition_allowed` (atom.py:769-783). -/
noncomputable def hAllowed (W : Wig) (al : Types) (I J0 F0 J1 F1 : ℚ) : Py Types := do
  let x ← W.w6j J0 J1 1 F1 F0 I
  let y ← W.w6j J0 J1 1 F1 F0 I
  let z ← W.w6j J0 J1 2 F1 F0 I
  .ok (decide (x ≠ 0) && al.1, decide (y ≠ 0) && al.2.1, decide (z ≠ 0) && al.2.2)

/-- `sum([wigner3j(F1, k, F2, -m1, q, m2) ** n for q in qs])` -/
noncomputable def sum3j (W : Wig) (n : Nat) (F1 k F2 m1 m2 : ℚ) : List ℚ → Py ℝ
  | [] => .ok 0
  | q :: qs => do
    let x ← W.w3j F1 k F2 (-m1) q m2
    let s ← sum3j W n F1 k F2 m1 m2 qs
    .ok (x ^ n + s)

/-- `[-1, 0, 1]` -/
def qs1 : List ℚ := [-1, 0, 1]
/-- `[-2, -1, 0, 1, 2]` -/
def qs2 : List ℚ := [-2, -1, 0, 1, 2]

/-- The angular factor of `ZTransition.compute_linewidth` (atom.py:817-822); the quadrupole branch passes `F1` twice, as the
code does. -/
noncomputable def zFactor (W : Wig) (al : Types) (F1 m1 F2 m2 : ℚ) : Py ℝ :=
  if al.1 || al.2.1 then sum3j W 2 F1 1 F2 m1 m2 qs1
  else if al.2.2 then sum3j W 2 F1 2 F1 m1 m2 qs2
  else .ok 0

/-- `ZTransition.transition_allowed` (atom.py:825-836). -/
noncomputable def zAllowed (W : Wig) (al : Types) (F0 m0 F1 m1 : ℚ) : Py Types := do
  let x ← sum3j W 1 F1 1 F0 m1 m0 qs1
  let y ← sum3j W 1 F1 1 F0 m1 m0 qs1
  let z ← sum3j W 1 F1 2 F0 m1 m0 qs2
  .ok (decide (x ≠ 0) && al.1, decide (y ≠ 0) && al.2.1, decide (z ≠ 0) && al.2.2)

end Strengths

open Strengths

/-- An `HFTransition`: `e1`, `e2`, `lower`, `upper` are hyperfine levels, `parent` a `Transition`. -/
structure HTr where
  parent : Nat
  e1 : Nat
  e2 : Nat
  lower : Nat
  upper : Nat
  A : Option ℝ
  rel : ℝ
  allowed : Types

/-- A `ZTransition`: `e1`, `e2`, `lower`, `upper` are Zeeman levels. -/
structure ZTr where
  parent : HTr
  e1 : Nat
  e2 : Nat
  lower : Nat
  upper : Nat
  A : Option ℝ
  rel : ℝ
  allowed : Types

/-- `np.any(np.array(t.allowed_types))` -/
def Types.any (al : Types) : Bool := al.1 || al.2.1 || al.2.2

/-- `max_delta` (atom.py:660); `none` when nothing is allowed and all pairs are used (atom.py:658-659). -/
def maxDelta (al : Types) : Option ℚ :=
  if al.any then some (if al.2.2 && !al.2.1 then 2 else 1) else none

/-- The filter of `_compute_sublevel_pairs` (atom.py:658-662). -/
def pairOk (al : Types) (x y : Option ℚ) : Py Bool :=
  match maxDelta al with
  | none => .ok true
  | some d => match x, y with
    | some a, some b => .ok (decide (|a - b| ≤ d))
    | _, _ => .error .TypeError

/-- The loop of `populate_subtransitions` (atom.py:730-736, 792-798). -/
def popSubs {τ : Type _} (ok : Nat → Nat → Py Bool) (mk : Nat → Nat → Py τ) (al : τ → Types) (key : τ → Str × Str) :
    List (Nat × Nat) → Dict (Str × Str) τ → Py (Dict (Str × Str) τ)
  | [], d => .ok d
  | (a, b) :: ps, d => do
    let g ← ok a b
    if g then do
      let t ← mk a b
      if (al t).any then popSubs ok mk al key ps (d.set (key t) t) else popSubs ok mk al key ps d
    else popSubs ok mk al key ps d

/-- `BaseTransition.__getitem__` (atom.py:671-675) on the populated dictionary. -/
def subItem {τ : Type _} (d : Dict (Str × Str) τ) (item : Str × Str) : Py τ :=
  match d.get? (item.2, item.1) with
  | some t => .ok t
  | none => d.getE item

namespace World

/-- `HFTransition(a, b, parent=t)` (atom.py:542-582, 753-783). -/
noncomputable def newHTr (W : Wig) (w : World) (t a b : Nat) : Py HTr := do
  let ea ← w.hHz a
  let eb ← w.hHz b
  match (w.hf a).term.J, (w.hf a).term.F, (w.hf b).term.J, (w.hf b).term.F with
  | some J1, some F1, some J2, some F2 => do
    let lw ← (match (w.tr t).A with
      | none => .ok (none, 1)
      | some A => do
        let f ← hFactor W (w.tr t).allowed w.I J1 F1 J2 F2
        .ok (some ((A : ℝ) * f), f) : Py (Option ℝ × ℝ))
    let al ← hAllowed W (w.tr t).allowed w.I J1 F1 J2 F2
    .ok ⟨t, a, b, if eb > ea then a else b, if eb > ea then b else a, lw.1, lw.2, al⟩
  | _, _, _, _ => .error .TypeError

/-- The dictionary key of a hyperfine transition (atom.py:734). -/
def hKey (w : World) (x : HTr) : Str × Str := ((w.hf x.lower).term.shortName, (w.hf x.upper).term.shortName)

/-- `Transition.populate_subtransitions` (atom.py:728-736), sublevels populated. -/
noncomputable def popHTrs (W : Wig) (w : World) (t : Nat) : Py (Dict (Str × Str) HTr) :=
  popSubs (fun a b => pairOk (w.tr t).allowed (w.hf a).term.F (w.hf b).term.F) (w.newHTr W t) HTr.allowed w.hKey
    (product (w.lv (w.tr t).e1).subs.vals (w.lv (w.tr t).e2).subs.vals) []

/-- `assert len(level.sublevels()) != 0` (atom.py:525-526) -/
def assertSubs (i : Nat) : PyM Unit := do
  lazyHF i
  let w ← PyM.get
  if (w.lv i).subs.length = 0 then PyM.raise .AssertionError else pure ()

/-- The wrapper `lazy_compute_subtransitions` (atom.py:517-531) for a `Transition` whose dictionary is `d`: the dictionary
afterwards. -/
noncomputable def hSubs (W : Wig) (t : Nat) (d : Dict (Str × Str) HTr) : PyM (Dict (Str × Str) HTr) :=
  if d.length = 0 then do
    let w ← PyM.get
    assertSubs (w.tr t).e1
    assertSubs (w.tr t).e2
    let w ← PyM.get
    PyM.lift (w.popHTrs W t)
  else pure d

/-- `transition[item]` (atom.py:671-675). -/
noncomputable def hItem (W : Wig) (t : Nat) (d : Dict (Str × Str) HTr) (item : Str × Str) : PyM HTr := do
  let d ← hSubs W t d
  PyM.lift (subItem d item)

/-- `ZTransition(a, b, parent=x)` (atom.py:542-582, 811-836). -/
noncomputable def newZTr (W : Wig) (w : World) (x : HTr) (a b : Nat) : Py ZTr := do
  let ea ← w.zHz a
  let eb ← w.zHz b
  match (w.zl a).term.F, (w.zl a).term.mF, (w.zl b).term.F, (w.zl b).term.mF with
  | some F1, some m1, some F2, some m2 => do
    let lw ← (match x.A with
      | none => .ok (none, 1)
      | some A => do
        let f ← zFactor W x.allowed F1 m1 F2 m2
        .ok (some (A * f), f) : Py (Option ℝ × ℝ))
    let al ← zAllowed W x.allowed F1 m1 F2 m2
    .ok ⟨x, a, b, if eb > ea then a else b, if eb > ea then b else a, lw.1, lw.2, al⟩
  | _, _, _, _ => .error .TypeError

/-- The dictionary key of a Zeeman transition (atom.py:796). -/
def zKey (w : World) (x : ZTr) : Str × Str := ((w.zl x.lower).term.shortName, (w.zl x.upper).term.shortName)

/-- `HFTransition.populate_subtransitions` (atom.py:790-798), sublevels populated. -/
noncomputable def popZTrs (W : Wig) (w : World) (x : HTr) : Py (Dict (Str × Str) ZTr) :=
  popSubs (fun a b => pairOk x.allowed (w.zl a).term.mF (w.zl b).term.mF) (w.newZTr W x) ZTr.allowed w.zKey
    (product (w.hf x.e1).subs.vals (w.hf x.e2).subs.vals) []

/-- `assert len(level.sublevels()) != 0` (atom.py:525-526) for a hyperfine level -/
def assertZs (j : Nat) : PyM Unit := do
  lazyZ j
  let w ← PyM.get
  if (w.hf j).subs.length = 0 then PyM.raise .AssertionError else pure ()

/-- The wrapper `lazy_compute_subtransitions` (atom.py:517-531) for an `HFTransition`. -/
noncomputable def zSubs (W : Wig) (x : HTr) (d : Dict (Str × Str) ZTr) : PyM (Dict (Str × Str) ZTr) :=
  if d.length = 0 then do
    assertZs x.e1
    assertZs x.e2
    let w ← PyM.get
    PyM.lift (w.popZTrs W x)
  else pure d

/-- `hf_transition[item]` (atom.py:671-675). -/
noncomputable def zItem (W : Wig) (x : HTr) (d : Dict (Str × Str) ZTr) (item : Str × Str) : PyM ZTr := do
  let d ← zSubs W x d
  PyM.lift (subItem d item)

/-- `HFTransition.freq_Hz` (atom.py:591-593). -/
def hFreq (w : World) (x : HTr) : Py ℚ := do
  let a ← w.hHz x.e1
  let b ← w.hHz x.e2
  .ok |a - b|

/-- `ZTransition.freq_Hz` (atom.py:591-593). -/
def zFreq (w : World) (x : ZTr) : Py ℚ := do
  let a ← w.zHz x.e1
  let b ← w.zHz x.e2
  .ok |a - b|

/-- `HFTransition.set_frequency` (atom.py:800-802). -/
def hSetFreq (σ : Ord') (x : HTr) (f : ℚ) : PyM Unit := fun w =>
  match w.hFreq x with
  | .ok cur => setFrequency σ x.parent (w.freqHz x.parent + (f - cur)) w
  | .error e => (w, .error e)

/-- `ZTransition.set_frequency` (atom.py:847-849). -/
def zSetFreq (σ : Ord') (x : ZTr) (f : ℚ) : PyM Unit := fun w =>
  match w.zFreq x, w.hFreq x.parent with
  | .ok cur, .ok p => hSetFreq σ x.parent (p + (f - cur)) w
  | .error e, _ => (w, .error e)
  | _, .error e => (w, .error e)

end World
end AtomTk
