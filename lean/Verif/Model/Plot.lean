import Verif.Model.Lineshape
import Verif.Model.Spectra
import Mathlib.Data.List.Sort

/-!
# Spectra

Model of `plot_transitions`, `plot_hyperfine_spectrum`, `plot_zeeman_spectrum` and `plot_spectrum`
(`atomtoolkit/render/spectra.py`).  A transition is the data these functions read from it.  What is drawn is returned as a list of
curves.  Of the colours only the lightness is kept, as in Model/Spectra.  Left out: labels, axis limits, the legend, and keyword
arguments other than `total`, `num_points` and `ampl_dict`, and a `coloring` that is a function.  A frequency conversion is a division by the size of the unit.
-/

namespace AtomTk

/-- The class of a transition. -/
inductive Kind
  | fine | hyp | zee
  deriving DecidableEq

/-- What the functions read from a transition: `name`, `freq_Hz`, `rel_strength` and the numbers of the terms of `E_lower` and
`E_upper`. -/
structure PLine where
  kind : Kind
  name : Str
  freq : ℝ
  rel : ℝ
  lowF : Option ℚ
  upF : Option ℚ
  lowM : Option ℚ
  upM : Option ℚ

/-- A curve: its points in order. -/
abbrev Curve := List (ℝ × Elt)

/-- The points of `x_values, y_values`. -/
noncomputable def curveOf (r : List ℝ × List Elt) : Curve := r.1.zip r.2

/-- `np.interp` at `x` through the points of a curve that is not empty, the first coordinates being in order.  NumPy takes the value of
the point when `x` is one of the first coordinates, and the first or last value outside the range. -/
noncomputable def interp : Curve → ℝ → Elt
  | [], _ => none
  | [p], _ => p.2
  | p :: q :: l, x =>
    if x ≤ p.1 ∧ x ≠ q.1 then p.2
    else if x < q.1 then match p.2, q.2 with
      | some a, some b => some ((b - a) / (q.1 - p.1) * (x - p.1) + a)
      | _, _ => none
    else interp (q :: l) x

/-- The value of the dotted line at `x` (render/spectra.py:47-49). -/
noncomputable def totalAt (cs : List Curve) (x : ℝ) : Elt := cs.foldl (fun y c => addElt y (interp c x)) (some 0)

/-- The dotted line (render/spectra.py:42-50); `np.interp` raises for a curve without points. -/
noncomputable def totalCurve (cs : List Curve) : Py Curve :=
  if ∃ c ∈ cs, c = [] then .error .ValueError
  else .ok (((cs.flatMap (·.map (·.1))).insertionSort (· ≤ ·)).map fun x => (x, totalAt cs x))

/-- The argument `lineshape`: an object, or one of the classes themselves. -/
inductive ShapeArg
  | obj (s : LineShape)
  | cls

/-- `lineshape.compute(x0, ampl=ampl)` (render/lineshapes.py:54-58); called on the class, `x0` is missing. -/
noncomputable def ShapeArg.compute (s : ShapeArg) (x0 : ℝ) (num : ℤ) (k : Kw) : Py (List ℝ × List Elt) :=
  match s with
  | .obj s => s.compute x0 num k
  | .cls => .error .TypeError

/-- `ampl` (render/spectra.py:30-32). -/
noncomputable def amplOf (ampl : Option (Dict Str ℝ)) (t : PLine) : Py ℝ :=
  match ampl with
  | none => .ok t.rel
  | some d => do
    let a ← d.getE t.name
    .ok (t.rel * a)

/-- One curve and its lightness (render/spectra.py:29-41); `none` for a colour that is not made by the table. -/
noncomputable def drawLine (s : ShapeArg) (color : PLine → Py (Option ℚ)) (ampl : Option (Dict Str ℝ)) (unit : ℝ) (num : ℤ) (t : PLine) :
    Py (Curve × Option ℚ) := do
  let a ← amplOf ampl t
  let r ← s.compute (t.freq / unit) num { ampl := some a }
  let c ← color t
  .ok (curveOf r, c)

/-- What is drawn. -/
structure Plot where
  curves : List (Curve × Option ℚ)
  total : Option Curve

/-- `plot_transitions` (render/spectra.py:16-53) of a list of transitions. -/
noncomputable def plotTransitions (lines : List PLine) (s : ShapeArg) (color : PLine → Py (Option ℚ)) (ampl : Option (Dict Str ℝ)) (unit : ℝ)
    (num : ℤ) (total : Bool) : Py Plot := do
  let cs ← lines.mapM (drawLine s color ampl unit num)
  if total then do
    let t ← totalCurve (cs.map (·.1))
    .ok ⟨cs, some t⟩
  else .ok ⟨cs, none⟩

/-- A property of a transition that is a number or `None`, used in a colour table; arithmetic on `None` raises. -/
def needNum (x : Option ℚ) : Py ℚ :=
  match x with
  | some q => .ok q
  | none => .error .TypeError

/-- The colour table of `lines` (render/spectra.py:111-138) by the numbers `color` and `shade`, and the function that looks a line up. -/
def tableColor (lines : List PLine) (color shade : PLine → Py ℚ) : Py (PLine → Py (Option ℚ)) := do
  let ps ← lines.mapM fun t => do
    let c ← color t
    let s ← shade t
    .ok (c, s)
  .ok fun t => do
    let c ← color t
    let s ← shade t
    let l ← lightness ps c s
    .ok (some l)

/-- The argument `coloring` of a string: `'l'`, `'u'`, `'transition_type'`, or something else. -/
inductive Coloring
  | l | u | type | other
  deriving DecidableEq

/-- The colour function of hyperfine lines (render/spectra.py:167-179); without a table the name `color_dict` is not defined. -/
def hypColor (lines : List PLine) : Coloring → Py (PLine → Py (Option ℚ))
  | .l => tableColor lines (needNum ·.lowF) (needNum ·.upF)
  | .u => tableColor lines (needNum ·.upF) (needNum ·.lowF)
  | _ => .ok fun _ => .error .NameError

/-- `t.E_upper.term.mF - t.E_lower.term.mF` -/
def deltaM (t : PLine) : Py ℚ := do
  let b ← needNum t.upM
  let a ← needNum t.lowM
  .ok (b - a)

/-- The colour function of Zeeman lines (render/spectra.py:180-197). -/
def zeeColor (lines : List PLine) : Coloring → Py (PLine → Py (Option ℚ))
  | .l => tableColor lines (needNum ·.lowM) (needNum ·.upM)
  | .u => tableColor lines (needNum ·.upM) (needNum ·.lowM)
  | .type => tableColor lines deltaM (needNum ·.lowM)
  | .other => .ok fun _ => .error .NameError

/-- The colour function (render/spectra.py:163-197) of lines the first of which is of the given class. -/
def kindColor (lines : List PLine) (coloring : Coloring) : Kind → Py (PLine → Py (Option ℚ))
  | .fine => .ok fun _ => .ok none
  | .hyp => hypColor lines coloring
  | .zee => zeeColor lines coloring

/-- The argument `transitions`: one transition with its subtransitions, or a list of transitions. -/
inductive SpecArg
  | one (subs : List PLine)
  | list (ts : List PLine)

/-- `lines` (render/spectra.py:151-153). -/
def SpecArg.lines : SpecArg → List PLine
  | .one ls => ls
  | .list ls => ls

/-- The line shape (render/spectra.py:154-161): the one given, or else one made from the temperature, in which `thermal` is the shape
with the given mass, if there is one, and `cold` the one without temperature. -/
def specShape (s : Option ShapeArg) (temp : Option ℚ) (cold : ShapeArg) (thermal : Option ShapeArg) : Py ShapeArg :=
  match s with
  | some s => .ok s
  | none => match temp with
    | none => .error .AttributeError
    | some t => if t = 0 then .ok cold else match thermal with
      | some s => .ok s
      | none => .error .AssertionError

/-- 1 GHz in Hz. -/
def gHz : ℝ := 1000000000

/-- The default of `num_points` (render/lineshapes.py:54). -/
def dfltPoints : ℤ := 1000

/-- `plot_spectrum` (render/spectra.py:141-199), its keyword arguments `kwargs` unused by it.  `transitions[0]` of one transition looks
up the item 0, which is not a pair: TypeError. -/
noncomputable def plotSpectrum (x : SpecArg) (s : Option ShapeArg) (coloring : Coloring) (temp : Option ℚ) (cold : ShapeArg)
    (thermal : Option ShapeArg) (ampl : Option (Dict Str ℝ)) : Py Plot := do
  let s ← specShape s temp cold thermal
  match x.lines with
  | [] => .error .IndexError
  | t :: _ => match x with
    | .one _ => match t.kind with
      | .fine => .error .AttributeError
      | _ => .error .TypeError
    | .list ls => do
      let color ← kindColor ls coloring t.kind
      plotTransitions ls s color ampl gHz dfltPoints true

/-- `plot_hyperfine_spectrum` (render/spectra.py:56-64) of one transition with the given subtransitions, or of several. -/
noncomputable def plotHyperfine (x : List (List PLine)) (s : Option ShapeArg) (coloring : Option Coloring) (ampl : Option (Dict Str ℝ)) : Py Plot :=
  plotSpectrum (.list x.flatten) (some (s.getD .cls)) (coloring.getD .l) none .cls none ampl

/-- The argument of `plot_zeeman_spectrum`: a hyperfine transition with its lines, a transition with the lines of each of its
subtransitions, or a list of transitions of any class with their subtransitions. -/
inductive ZeeArg
  | hyp (subs : List PLine)
  | fine (subs : List (List PLine))
  | list (subs : List (List PLine))

/-- `lines` (render/spectra.py:69-76). -/
def ZeeArg.lines : ZeeArg → List PLine
  | .hyp ls => ls
  | .fine ls => ls.flatten
  | .list ls => ls.flatten

/-- The colour function of `plot_zeeman_spectrum` (render/spectra.py:85-106); an unknown string leaves `None`, which cannot be called. -/
def zeeColor' (lines : List PLine) : Coloring → Py (PLine → Py (Option ℚ))
  | .other => .ok fun _ => .error .TypeError
  | c => zeeColor lines c

/-- `plot_zeeman_spectrum` (render/spectra.py:67-108). -/
noncomputable def plotZeeman (x : ZeeArg) (s : Option ShapeArg) (coloring : Option Coloring) (ampl : Option (Dict Str ℝ)) : Py Plot := do
  let color ← zeeColor' x.lines (coloring.getD .type)
  plotTransitions x.lines (s.getD .cls) color ampl gHz dfltPoints true

end AtomTk
