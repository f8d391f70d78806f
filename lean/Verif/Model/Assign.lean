import Verif.Model.Items

/-!
# Sublevels assigned by hand

`level[key] = sublevel` (atom.py:200-202) puts a sublevel object into the dictionary of a level and makes the level its parent.  What the object worked out
when it was made stays: its name, its g-factor and its manifold (atom.py:62-68, 386), which supplies the constants of the hyperfine shift
(atom.py:433-435).  In `Model/World` the manifold of a hyperfine level is its parent, since there sublevels are only made by `populate_sublevels`; here it is
kept beside the parent.

Simplifications: keys containing `mJ` (atom.py:196-197) are looked up in `Model/World` only; a level is assigned to a level of the kind above it, in the same
atom; the graphs of the sublevels are not kept.
-/

namespace AtomTk
open Util World

/-- The state, and the manifolds of the hyperfine levels that have been assigned by hand; the manifold of every other one is its parent
(atom.py:389-391). -/
structure ManW where
  w : World
  kept : Nat → Option Nat

namespace ManW

/-- Nothing assigned yet. -/
def of (w : World) : ManW := ⟨w, fun _ => none⟩

/-- `level.manifold` (atom.py:67, 389-391) of a hyperfine level. -/
def man (s : ManW) (j : Nat) : Nat := (s.kept j).getD (s.w.hf j).parent

/-- `HFLevel.shift_Hz` (atom.py:409-439): the constants of the manifold. -/
def hShift (s : ManW) (j : Nat) : Py ℚ :=
  match (s.w.hf j).term.J, (s.w.hf j).term.F with
  | some J, some F => hfShift (s.w.lv (s.man j)).hfA (s.w.lv (s.man j)).hfB (s.w.lv (s.man j)).hfC s.w.I J F
  | _, _ => .error .TypeError

/-- `HFLevel.level_Hz` (atom.py:441-443): the energy of the parent. -/
def hHz (s : ManW) (j : Nat) : Py ℚ := do
  let d ← s.hShift j
  .ok (s.w.eHz (s.w.hf j).parent + d)

/-- `ZLevel.level_Hz` (atom.py:441-443, 499-503). -/
def zHz (s : ManW) (k : Nat) : Py ℚ := do
  let p ← s.hHz (s.w.zl k).parent
  let d ← s.w.zShiftHz k
  .ok (p + d)

/-- `HFLevel.level = v` (atom.py:450-458): the parent moves by the difference. -/
def setHLevel (j : Nat) (v : ℚ) (s : ManW) : ManW × Py Unit :=
  match s.hHz j with
  | .ok cur => ({ s with w := s.w.setE (s.w.hf j).parent (s.w.eHz (s.w.hf j).parent + (v - cur)) }, .ok ())
  | .error e => (s, .error e)

/-- `level[key] = sublevel` (atom.py:200-202) for a level and a hyperfine level. -/
def assign (i : Nat) (key : Str) (j : Nat) (s : ManW) : ManW :=
  let w := s.w.setHf j { s.w.hf j with parent := i }
  ⟨w.setLv i { w.lv i with subs := (w.lv i).subs.set key j }, upd s.kept j (some (s.man j))⟩

/-- `level[key] = sublevel` (atom.py:200-202) for a hyperfine level and a Zeeman level. -/
def assignZ (j : Nat) (key : Str) (k : Nat) (s : ManW) : ManW :=
  let w := s.w.setZl k { s.w.zl k with parent := j }
  { s with w := w.setHf j { w.hf j with subs := (w.hf j).subs.set key k } }

/-- `level.keys()` (atom.py:219-220); sublevels made now have their parent as manifold. -/
def keys (i : Nat) (s : ManW) : ManW × Py (List Str) := ({ s with w := (lvKeys i s.w).1 }, (lvKeys i s.w).2)

/-- `level[key]` (atom.py:192-198), for a key without `mJ`. -/
def item (i : Nat) (key : Str) (s : ManW) : ManW × Py Nat :=
  match lazyHF i s.w with
  | (w, .ok ()) => ({ s with w := w }, (w.lv i).subs.getE key)
  | (w, .error e) => ({ s with w := w }, .error e)

/-- `del level[key]` (atom.py:204-205). -/
def del (i : Nat) (key : Str) (s : ManW) : ManW × Py Unit := ({ s with w := (lvDel i key s.w).1 }, (lvDel i key s.w).2)

/-- The loop body of `HFLevel.populate_sublevels` (atom.py:404-407): the manifold of the Zeeman level is that of the hyperfine level
(atom.py:486-487), so its g-factor comes from there (atom.py:460-470). -/
def popZ1 (j : Nat) (m : ℚ) (s : ManW) : ManW × Py Unit :=
  match (s.w.hf j).term.makeCopy .none (.num m) with
  | .error e => (s, .error e)
  | .ok t =>
    match t.J, t.F with
    | some J, some F =>
      match compGF (s.w.lv (s.man j)).lande s.w.I J F with
      | .error e => (s, .error e)
      | .ok g => ({ s with w := { s.w with
          nzl := s.w.nzl + 1
          zl := upd s.w.zl s.w.nzl ⟨t, j, g, 0⟩
          hf := upd s.w.hf j { s.w.hf j with subs := (s.w.hf j).subs.set (mKey m) s.w.nzl } } }, .ok ())
    | _, _ => (s, .error .TypeError)

/-- `for mf in ...` (atom.py:404). -/
def popZs (j : Nat) : List ℚ → ManW → ManW × Py Unit
  | [], s => (s, .ok ())
  | m :: ms, s =>
    match popZ1 j m s with
    | (s, .ok ()) => popZs j ms s
    | (s, .error e) => (s, .error e)

/-- `HFLevel.populate_sublevels` (atom.py:401-407) under `lazy_compute_sublevels`. -/
def lazyZ (j : Nat) (s : ManW) : ManW × Py Unit :=
  if (s.w.hf j).subs.length = 0 then
    match (s.w.hf j).term.F with
    | some F => popZs j (zMs F) s
    | none => (s, .error .TypeError)
  else (s, .ok ())

end ManW
end AtomTk
