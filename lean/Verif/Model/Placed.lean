import Verif.Model.World

/-! # Levels made with their atom

`EnergyLevel(..., parent=atom)`: the constructor remembers the atom, the atom does not hear of the level. -/

namespace AtomTk
namespace World

/-- `EnergyLevel(term, level, lande, parent=atom, alias=..., hfA=..., hfB=..., hfC=...)` (atom.py:54-73, 246-275): `self.atom` is the
parent (atom.py:66, 270-275), and nothing is added to its graph. -/
def newLevelIn (t : Term) (E lande A B C : ℚ) (ali : Option Str) : PyM Nat := fun w =>
  ({ w with nlv := w.nlv + 1, lv := upd w.lv w.nlv ⟨t, E, lande, A, B, C, ali, true, false, []⟩ }, .ok w.nlv)

end World
end AtomTk
