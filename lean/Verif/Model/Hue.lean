import Verif.Model.Spectra
import Mathlib.Data.Finset.Sort

/-!
# Colours of spectra: the colour map

The part of `color_table_from_property` (`atomtoolkit/render/spectra.py:111-138`) that picks the colour from the colour map `tab10`.
Colours are indices into the map; the conversion to red, green and blue is left out.
-/

namespace AtomTk

/-- `np.unique` (render/spectra.py:118): the different numbers in order. -/
def npUnique (l : List ℚ) : List ℚ := l.toFinset.sort (· ≤ ·)

/-- `list(num_main_props.keys()).index(color_prop)` (render/spectra.py:118, 130). -/
def hueIndex (props : List ℚ) (c : ℚ) : Py ℕ :=
  if c ∈ npUnique props then .ok ((npUnique props).idxOf c) else .error .ValueError

/-- `colormap(i)` of the map `tab10`: ten colours, the last one for every larger index. -/
def tab10 (i : ℕ) : ℕ := min i 9

/-- `color_by_properties` (render/spectra.py:123-136) with the map `tab10`: the place in the map of the colour of `t`, and its
lightness. -/
def colourBy {α : Type} (items : List α) (color shade : α → ℚ) (t : α) : Py (ℕ × ℚ) := do
  let i ← hueIndex (items.map color) (color t)
  let l ← lightness (items.map fun u => (color u, shade u)) (color t) (shade t)
  .ok (tab10 i, l)

/-- `color_table_from_property` (render/spectra.py:111-138) with the map `tab10`. -/
def colourTable {α : Type} (items : List α) (color shade : α → ℚ) : Py (List (α × (ℕ × ℚ))) :=
  items.mapM fun t => do
    let c ← colourBy items color shade t
    .ok (t, c)

end AtomTk
