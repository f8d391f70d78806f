import Verif.Model.Py

/-!
# Colours of spectra

Model of `color_table_from_property` (`atomtoolkit/render/spectra.py:111-138`), up to the lightness.  The colour map, and the
conversion of hue, lightness and saturation to red, green and blue, are left out.
-/

namespace AtomTk

/-- `min` of a list. -/
def pyMin : List ℚ → Py ℚ
  | [] => .error .ValueError
  | a :: l => .ok (l.foldl min a)

/-- `max` of a list. -/
def pyMax : List ℚ → Py ℚ
  | [] => .error .ValueError
  | a :: l => .ok (l.foldl max a)

/-- `color_by_properties` (render/spectra.py:123-136): the lightness of the item with the properties `c` and `s`, in a list
`ps` of such pairs. -/
def lightness (ps : List (ℚ × ℚ)) (c s : ℚ) : Py ℚ := do
  let m ← pyMin ((ps.filter (·.1 = c)).map (·.2))
  .ok (1/5 + 3/5 * (s - m + 1) / ((ps.map (·.1)).count c + 1))

/-- `color_table_from_property` (render/spectra.py:111-138): the lightness of each item.  `property_shade=None`, the default,
raises at its first call (line 116). -/
def shadeTable {α : Type} (items : List α) (color : α → ℚ) (shade : Option (α → ℚ)) : Py (List (α × ℚ)) :=
  match shade, items with
  | none, [] => .ok []
  | none, _ :: _ => .error .TypeError
  | some sh, _ => items.mapM fun t => do
    let l ← lightness (items.map fun u => (color u, sh u)) (color t) (sh t)
    .ok (t, l)

end AtomTk
