import Verif.Model.Grotrian

/-!
# Grotrian diagrams as objects

`Grotrian.add_level`, `render`, `render_levels`, `render_transitions` and `compute_arrow` (`atomtoolkit/render/grotrian.py:100-265`), and the
dispatch of the strategies (387-477).  Left out: callable strategies, colours and widths of lines, rendering a diagram without levels,
matplotlib itself except for what makes it raise.
-/

namespace AtomTk

/-- The argument `strategy` of `add_level` (render/grotrian.py:100-107): `'g'`, `'hf'`, `'z'` and their long forms, or any other text. -/
inductive Strategy
  | gross | hyperfine | zeeman | other
  deriving DecidableEq

/-- A row of `level_prompts` (render/grotrian.py:109-111). -/
structure Prompt where
  level : Ref
  strategy : Strategy
  kw : DrawKw

/-- An anchor: a number, or the four weights themselves (render/grotrian.py:237-240). -/
inductive Anchor
  | num (n : Int)
  | vec (a b c d : ℚ)

/-- The entries of the keyword `override_bbox` (render/grotrian.py:231, 247, 249, 254): `False`, `'manifold'` and its synonyms, `'hf'` and its
synonym, anything else. -/
inductive Override
  | no | gross | hf | other
  deriving DecidableEq

/-- The keyword arguments of `add_transition` (render/grotrian.py:225-231). -/
structure ArrowKw where
  startAnchor : Anchor := .num 5
  endAnchor : Anchor := .num 5
  startOff : Pt := (0, 0)
  endOff : Pt := (0, 0)
  override : Option (Override × Override) := none

/-- What an arrow is drawn for: a pair of levels or a transition (render/grotrian.py:223-224). -/
inductive ArrowFor
  | pair (a b : Ref)
  | trans (t : Nat)

/-- A `Grotrian` object: prompts and the table of lines (render/grotrian.py:46-50). -/
structure Diagram where
  levels : List Prompt
  arrows : List (ArrowFor × ArrowKw)
  lines : List DRow

/-- A new diagram after calls of `add_level` and `add_transition`. -/
def Diagram.new (levels : List Prompt) (arrows : List (ArrowFor × ArrowKw)) : Diagram := ⟨levels, arrows, []⟩

/-- `compute_bbox_pos` (render/grotrian.py:233-242). -/
def anchorPos (b : Box) (off : Pt) : Anchor → Py Pt
  | .num n => boxPos b n off
  | .vec u v s t => .ok (b.x0 * u + b.x1 * s + off.1, b.y0 * v + b.y1 * t + off.2)

/-- `level in list(self.lines_df['level'])` -/
def drawn (lines : List DRow) (r : Ref) : Bool := lines.any (fun R => R.level = r)

/-- `list(self.lines_df[self.lines_df['level'] == level]['bbox'])[0]` -/
def firstBox (lines : List DRow) (r : Ref) : Py Box :=
  match lines.find? (fun R => R.level = r) with
  | some R => .ok R.box
  | none => .error .IndexError

/-- `if c: pos = ...` -/
def posIf (c : Bool) (lines : List DRow) (r : Ref) (a : Anchor) (off : Pt) (pos : Option Pt) : Py (Option Pt) :=
  if c then do
    let b ← firstBox lines r
    let p ← anchorPos b off a
    .ok (some p)
  else .ok pos

/-! ## Boxes -/

/-- A colour. -/
abbrev Colour := ℚ × ℚ × ℚ × ℚ

/-- The keyword `bbox`: missing or `None`, `'rect'` or `'rectangle'`, `'bracket'`, another text that is not empty. -/
inductive BoxKind
  | none | rect | bracket | other
  deriving DecidableEq

/-- The keyword arguments of a line that concern its box (render/grotrian.py:183-198). -/
structure BoxKw where
  kind : BoxKind := .none
  rectColour : Option Colour := Option.none
  h : ℚ := 1/20
  colour : Colour := (0, 0, 0, 4/5)

/-- `brackets` (render/grotrian.py:171-173). -/
def brackets (b : Box) (h : ℚ) : List (List Pt) :=
  [[(b.x0 + h, b.y0), (b.x0, b.y0), (b.x0, b.y1), (b.x0 + h, b.y1)],
   [(b.x1 - h, b.y0), (b.x1, b.y0), (b.x1, b.y1), (b.x1 - h, b.y1)]]

/-- `bracket_list` (render/grotrian.py:182-195). -/
def bracketList (rows : List (Box × BoxKw)) : List (List Pt) :=
  rows.flatMap fun r => if r.2.kind = .bracket then brackets r.1 r.2.h else []

/-- `rects_list` (render/grotrian.py:182-192): corner, width, height, colour. -/
def rectList (rows : List (Box × BoxKw)) : List (Pt × ℚ × ℚ × Option Colour) :=
  (rows.filter fun r => r.2.kind = .rect).map fun r => ((r.1.x0, r.1.y0), r.1.x1 - r.1.x0, r.1.y1 - r.1.y0, r.2.rectColour)

/-- `bracket_colors` (render/grotrian.py:198): one for every line with a box of any kind. -/
def bracketColours (rows : List (Box × BoxKw)) : List Colour := (rows.filter fun r => r.2.kind ≠ .none).map fun r => r.2.colour

/-- `LineCollection(bracket_list, colors=bracket_colors)` (render/grotrian.py:200): the colours are used in turn, starting again at the
end.  Here the lines still to be drawn, the colours left, and all colours. -/
def cycleColours (all : List Colour) : List Colour → List (List Pt) → List (List Pt × Option Colour)
  | _, [] => []
  | c :: cs, l :: ls => (l, some c) :: cycleColours all cs ls
  | [], l :: ls =>
    match all with
    | [] => (l, none) :: cycleColours all [] ls
    | c :: cs => (l, some c) :: cycleColours all cs ls

/-- The brackets on the axes (render/grotrian.py:198-201). -/
def drawnBrackets (rows : List (Box × BoxKw)) : List (List Pt × Option Colour) :=
  cycleColours (bracketColours rows) (bracketColours rows) (bracketList rows)

namespace World

/-- `compute_pos_from_level` (render/grotrian.py:244-259). -/
def posOf (w : World) (lines : List DRow) (r : Ref) (a : Anchor) (off : Pt) (ov : Override) : Py (Option Pt) :=
  match r with
  | .zee k => do
    let p ← posIf (drawn lines (.fine (w.hf (w.zl k).parent).parent) || ov == .gross) lines (.fine (w.hf (w.zl k).parent).parent) a off none
    let p ← posIf (drawn lines (.hyp (w.zl k).parent) || ov == .hf) lines (.hyp (w.zl k).parent) a off p
    posIf (drawn lines (.zee k) && ov == .no) lines (.zee k) a off p
  | .hyp j => do
    let p ← posIf (drawn lines (.fine (w.hf j).parent) || ov == .gross) lines (.fine (w.hf j).parent) a off none
    posIf (drawn lines (.hyp j) && ov == .no) lines (.hyp j) a off p
  | .fine i => posIf true lines (.fine i) a off none

/-- The two levels of an arrow (render/grotrian.py:223-224). -/
def arrowEnds (w : World) : ArrowFor → Ref × Ref
  | .pair a b => (a, b)
  | .trans t => (.fine (w.tr t).lower, .fine (w.tr t).upper)

/-- `compute_arrow` (render/grotrian.py:221-265): start and end.  `override_bbox` is read with `get` and therefore passed on to
`FancyArrowPatch`, which does not know it; a missing position raises there too. -/
def computeArrow (w : World) (lines : List DRow) (f : ArrowFor) (k : ArrowKw) : Py (Pt × Pt) := do
  let pa ← w.posOf lines (w.arrowEnds f).1 k.startAnchor k.startOff (k.override.getD (.no, .no)).1
  let pb ← w.posOf lines (w.arrowEnds f).2 k.endAnchor k.endOff (k.override.getD (.no, .no)).2
  match k.override, pa, pb with
  | some _, _, _ => .error .AttributeError
  | none, some a, some b => .ok (a, b)
  | none, _, _ => .error .ValueError

/-! ## Tables -/

/-- `level.manifold` (atom.py:266-268, 389-390, 485-486). -/
def manifoldOf (w : World) : Ref → Nat
  | .fine i => i
  | .hyp j => (w.hf j).parent
  | .zee z => (w.hf (w.zl z).parent).parent

/-- `_compute_hflevel_row` (render/grotrian.py:358-385) of a Zeeman level, whose `shift_Hz` is the Zeeman shift. -/
def hRowZ (z : Nat) (k : DrawKw) : PyM DRow := do
  let w ← PyM.get
  let i := (w.hf (w.zl z).parent).parent
  let p ← procKw i (w.zl z).term k
  lazyHF i
  let w ← PyM.get
  let (n, span, lo) ← PyM.lift (w.spanOf i)
  match (w.zl z).term.F with
  | none => PyM.raise .TypeError
  | some F => do
    let wNull := k.width - (n - 1) * k.offset * k.width
    let wF ← PyM.lift (pyDiv (k.width * (2 * F + 1)) (2 * p.squeeze + 1))
    let dx := (1 - k.subWidth) * wNull / 2 + k.subWidth * wF / 2
    let hs ← PyM.lift (w.zShiftHz z)
    let y := p.y0 + k.y1 + k.hfScale / 1000000000000 *
      (k.spacing * hs + (1 - k.spacing) * (F - lo - n / 2) * span / n)
    PyM.lift (mkRow (.zee z) none true k.pad (k.offset * k.width * (F - lo) - dx + k.x1 + p.x0, y)
      (k.offset * k.width * (F - lo) + dx + k.x1 + p.x0, y))

/-- A table of one row. -/
def single (m : PyM DRow) : PyM (List DRow) := do
  let r ← m
  pure [r]

/-- `_gross_level_table` (render/grotrian.py:387-397). -/
def grossTable (r : Ref) (k : DrawKw) : PyM (List DRow) := do
  let w ← PyM.get
  single (levelRow (w.manifoldOf r) none true k)

/-- `_hf_level_table` (render/grotrian.py:399-431): a Zeeman level is an instance of `HFLevel` too. -/
def hfTable (r : Ref) (k : DrawKw) : PyM (List DRow) :=
  match r with
  | .fine i => hTableF i k
  | .hyp j => single (hRow j none true k)
  | .zee z => single (hRowZ z k)

/-- `_zeeman_level_table` (render/grotrian.py:433-477). -/
def zeemanTable (r : Ref) (k : DrawKw) : PyM (List DRow) :=
  match r with
  | .fine i => zTableF i k
  | .hyp j => zTableH j k
  | .zee z => single (zRow z k)

/-- `row['strategy'](row['level'], **row['kwargs'])` (render/grotrian.py:177); a text is not callable. -/
def tableOf (p : Prompt) : PyM (List DRow) :=
  match p.strategy with
  | .gross => grossTable p.level p.kw
  | .hyperfine => hfTable p.level p.kw
  | .zeeman => zeemanTable p.level p.kw
  | .other => PyM.raise .TypeError

/-- The loop of `render_levels` over the prompts (render/grotrian.py:176-178): every table is appended to the lines already there. -/
def addLines : List Prompt → List DRow → World → World × List DRow × Py Unit
  | [], L, w => (w, L, .ok ())
  | p :: ps, L, w =>
    match tableOf p w with
    | (w', .ok t) => addLines ps (L ++ t) w'
    | (w', .error e) => (w', L, .error e)

/-- What a rendering puts on the axes: the segments of the levels and the arrows. -/
structure Picture where
  segments : List (Pt × Pt)
  arrows : List (Pt × Pt)
  deriving DecidableEq

/-- The segments of the lines shown (render/grotrian.py:208-209). -/
def segments (L : List DRow) : List (Pt × Pt) := (L.filter (·.shown)).map fun R => (R.p0, R.p1)

/-- `render` (render/grotrian.py:154-159). -/
def render (d : Diagram) (w : World) : World × Diagram × Py Picture :=
  match addLines d.levels d.lines w with
  | (w', L, .error e) => (w', { d with lines := L }, .error e)
  | (w', L, .ok ()) => (w', { d with lines := L }, do
      let as ← d.arrows.mapM fun a => w'.computeArrow L a.1 a.2
      .ok ⟨segments L, as⟩)

end World
end AtomTk
