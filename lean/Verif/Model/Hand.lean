import Verif.Model.SubTrans

/-!
# Hyperfine and Zeeman transitions made by hand

`HFTransition(h1, h2, freq=...)` and `ZTransition(z1, z2)` without a parent (atom.py:542-582): the constructors allow it, `parent` is `None`.

Simplifications: no `name` or `alias` is given; `A` is given or not, it is not used (atom.py:756-757 looks at the parent only); the edge added to the
hyperfine or Zeeman graph is not kept, as in Model/SubTrans.
-/

namespace AtomTk
open Util Strengths

/-- An `HFTransition` without parent: the attributes, and `set_freq`.  The field `parent` of `x` is not read. -/
structure HandH where
  x : HTr
  setFreq : Option ℚ

namespace World

/-- `HFTransition(a, b, freq=f, A=A)` (atom.py:542-582, 753-783): without parent the rate is `None` and the relative strength 1 (atom.py:756-757), and all types are
presumed (atom.py:774-777). -/
noncomputable def handHTr (W : Wig) (w : World) (a b : Nat) (f : Option ℚ) (_A : Option ℚ) : Py HandH := do
  let eb ← w.hHz b
  let ea ← w.hHz a
  match (w.hf a).term.J, (w.hf a).term.F, (w.hf b).term.J, (w.hf b).term.F with
  | some J1, some F1, some J2, some F2 => do
    let al ← hAllowed W (true, true, true) w.I J1 F1 J2 F2
    .ok ⟨⟨w.ntr, a, b, if eb > ea then a else b, if eb > ea then b else a, none, 1, al⟩, f⟩
  | _, _, _, _ => .error .TypeError

/-- `transition.freq` (atom.py:591-597). -/
def handFreq (w : World) (h : HandH) : Py ℚ := w.hFreq h.x

/-- `transition.set_frequency(f)` (atom.py:800-802): `self.parent.freq` of `None`. -/
def handSet (h : HandH) (_f : ℚ) : PyM Unit := fun w =>
  match w.handFreq h with
  | .error e => (w, .error e)
  | .ok _ => (w, .error .AttributeError)

/-- `ZTransition(a, b)` (atom.py:542-582, 811-836): `self.parent.allowed_types` of `None` (atom.py:830). -/
def handZTr (w : World) (a b : Nat) : Py ZTr := do
  let _ ← w.zHz b
  let _ ← w.zHz a
  .error .AttributeError

end World
end AtomTk
