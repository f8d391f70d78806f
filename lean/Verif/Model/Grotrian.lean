import Verif.Model.World
import Verif.Model.Spectra

/-!
# Grotrian diagrams

Model of the geometry in `atomtoolkit/render/grotrian.py`: keyword processing, bounding boxes, anchors, the rows of the three
strategies.  Left out: the pandas tables around the rows, the drawing itself, and `level_ordering` other than `'J'`.  The
keyword strings `'realistic'`, `'degeneracy'` and `'schematic'` are given as the numbers 1, 1 and 0 the code replaces them with.
-/

namespace AtomTk

/-- A point. -/
abbrev Pt := ℚ × ℚ

/-- A box `(x_min, y_min, x_max, y_max)`. -/
structure Box where
  x0 : ℚ
  y0 : ℚ
  x1 : ℚ
  y1 : ℚ
  deriving DecidableEq

/-- `Grotrian.bbox` (render/grotrian.py:161-167). -/
def bbox (pts : List Pt) (pad : ℚ) : Py Box := do
  let hy ← pyMax (pts.map (·.2))
  let ly ← pyMin (pts.map (·.2))
  let lx ← pyMin (pts.map (·.1))
  let hx ← pyMax (pts.map (·.1))
  .ok ⟨lx - pad, ly - (hy - ly) * pad, hx + pad, hy + (hy - ly) * pad⟩

/-- `pos_dict` (render/grotrian.py:234-236). -/
def posDict : Dict Int (ℚ × ℚ × ℚ × ℚ) :=
  [(1, (1, 0, 0, 1)), (2, (1/2, 0, 1/2, 1)), (3, (0, 0, 1, 1)),
   (4, (1, 1/2, 0, 1/2)), (5, (1/2, 1/2, 1/2, 1/2)), (6, (0, 1/2, 1, 1/2)),
   (7, (1, 1, 0, 0)), (8, (1/2, 1, 1/2, 0)), (9, (0, 1, 1, 0))]

/-- `compute_bbox_pos` (render/grotrian.py:233-242) with an integer anchor. -/
def boxPos (b : Box) (anchor : Int) (off : Pt) : Py Pt := do
  let v ← posDict.getE anchor
  .ok (b.x0 * v.1 + b.x1 * v.2.2.1 + off.1, b.y0 * v.2.1 + b.y1 * v.2.2.2 + off.2)

/-- The keyword `squeeze`. -/
inductive Squeeze
  | dflt | yes | no | num (q : ℚ)

/-- The keyword arguments (render/grotrian.py:278-309, 321, 335). -/
structure DrawKw where
  width : ℚ := 4/5
  x0 : Option ℚ := none
  x1 : ℚ := 0
  y0 : Option ℚ := none
  y1 : ℚ := 0
  offset : ℚ := 0
  squeeze : Squeeze := .dflt
  hfScale : ℚ := 10000
  zScale : ℚ := 5
  spacing : ℚ := 1
  subWidth : ℚ := 1
  fill : ℚ := 9/10
  pad : ℚ := 1/20

/-- The values `_process_level_kwargs` returns. -/
structure Proc where
  x0 : ℚ
  y0 : ℚ
  squeeze : ℤ

/-- One row of the table of lines. -/
structure DRow where
  level : Ref
  shown : Bool
  p0 : Pt
  p1 : Pt
  box : Box
  deriving DecidableEq

namespace World

/-- `max(l.term.F for l in level.atom.levels[0].values())` (render/grotrian.py:289). -/
def groundF : PyM ℚ := do
  let w ← PyM.get
  let i ← PyM.lift (w.levelsGetInt 0)
  lazyHF i
  let w ← PyM.get
  PyM.lift (pyMax ((w.lv i).subs.vals.filterMap fun j => (w.hf j).term.F))

/-- The value of `squeeze` before line 290 (render/grotrian.py:285-289), in a level with `J + I = s`. -/
def squeezeArg (q : Squeeze) (s : ℚ) : PyM ℚ :=
  match q with
  | .dflt => pure (pyInt s)
  | .yes => pure (pyInt s)
  | .no => groundF
  | .num q => pure q

/-- `Grotrian._process_level_kwargs` (render/grotrian.py:269-311) for a level with the term `t` in the manifold `i`. -/
def procKw (i : Nat) (t : Term) (k : DrawKw) : PyM Proc := do
  let w ← PyM.get
  if (w.lv i).inAtom = false then PyM.raise .AttributeError
  else match t.J with
  | none => PyM.raise .TypeError
  | some J => do
    let s ← squeezeArg k.squeeze (J + w.I)
    if 0 ≤ k.spacing ∧ k.spacing ≤ 1 ∧ 0 ≤ k.subWidth ∧ k.subWidth ≤ 1 then
      pure ⟨k.x0.getD J, k.y0.getD (w.eHz i / 1000000000000), pyInt (2 * s + 1)⟩
    else PyM.raise .AssertionError

/-- The end of the three row functions (render/grotrian.py:320-331, 350-356, 374-385): the bounding box of the two points unless one is
given. -/
def mkRow (l : Ref) (over : Option Box) (shown : Bool) (pad : ℚ) (p0 p1 : Pt) : Py DRow :=
  match over with
  | some b => .ok ⟨l, shown, p0, p1, b⟩
  | none => do
    let b ← bbox [p0, p1] pad
    .ok ⟨l, shown, p0, p1, b⟩

/-- `_compute_level_row` (render/grotrian.py:313-331). -/
def levelRow (i : Nat) (over : Option Box) (shown : Bool) (k : DrawKw) : PyM DRow := do
  let w ← PyM.get
  let p ← procKw i (w.lv i).term k
  let y := p.y0 + k.y1
  PyM.lift (mkRow (.fine i) over shown k.pad (p.x0 + k.x1 - k.width / 2, y) (p.x0 + k.x1 + k.width / 2, y))

/-- `Fs`, `N`, `span` and `min(Fs)` (render/grotrian.py:340-344 and 361-365). -/
def spanOf (w : World) (i : Nat) : Py (ℚ × ℚ × ℚ) := do
  let Fs := (w.lv i).subs.vals.filterMap fun j => (w.hf j).term.F
  let hi ← pyMax Fs
  let lo ← pyMin Fs
  let jh ← (w.lv i).subs.getE (fKey hi)
  let jl ← (w.lv i).subs.getE (fKey lo)
  let sh ← w.hShift jh
  let sl ← w.hShift jl
  .ok (Fs.length, |sh - sl|, lo)

/-- `_compute_zlevel_row` (render/grotrian.py:333-356). -/
def zRow (z : Nat) (k : DrawKw) : PyM DRow := do
  let w ← PyM.get
  let j := (w.zl z).parent
  let i := (w.hf j).parent
  let p ← procKw i (w.zl z).term k
  let sub ← PyM.lift (pyDiv (k.fill * k.width) p.squeeze)
  let spa ← PyM.lift (pyDiv ((1 - k.fill) * k.width) (p.squeeze - 1))
  lazyHF i
  let w ← PyM.get
  let (n, span, lo) ← PyM.lift (w.spanOf i)
  match (w.zl z).term.F, (w.zl z).term.mF with
  | some F, some m => do
    let hs ← PyM.lift (w.hShift j)
    let zs ← PyM.lift (w.zShiftHz z)
    let y := p.y0 + k.y1 + k.hfScale / 1000000000000 *
      (k.spacing * (hs + k.zScale * zs) + (1 - k.spacing) * (F - lo - n / 2) * span / n)
    PyM.lift (mkRow (.zee z) none true k.pad (p.x0 + k.x1 + m * (sub + spa) - sub / 2, y) (p.x0 + k.x1 + m * (sub + spa) + sub / 2, y))
  | _, _ => PyM.raise .TypeError

/-- `_compute_hflevel_row` (render/grotrian.py:358-385). -/
def hRow (j : Nat) (over : Option Box) (shown : Bool) (k : DrawKw) : PyM DRow := do
  let w ← PyM.get
  let i := (w.hf j).parent
  let p ← procKw i (w.hf j).term k
  lazyHF i
  let w ← PyM.get
  let (n, span, lo) ← PyM.lift (w.spanOf i)
  match (w.hf j).term.F with
  | none => PyM.raise .TypeError
  | some F => do
    let wNull := k.width - (n - 1) * k.offset * k.width
    let wF ← PyM.lift (pyDiv (k.width * (2 * F + 1)) (2 * p.squeeze + 1))
    let dx := (1 - k.subWidth) * wNull / 2 + k.subWidth * wF / 2
    let hs ← PyM.lift (w.hShift j)
    let y := p.y0 + k.y1 + k.hfScale / 1000000000000 *
      (k.spacing * hs + (1 - k.spacing) * (F - lo - n / 2) * span / n)
    PyM.lift (mkRow (.hyp j) over shown k.pad (k.offset * k.width * (F - lo) - dx + k.x1 + p.x0, y)
      (k.offset * k.width * (F - lo) + dx + k.x1 + p.x0, y))

/-- `for sublevel in ...: sub_tables.append(...)` -/
def rowsOf (f : Nat → PyM (List DRow)) : List Nat → PyM (List DRow)
  | [] => pure []
  | a :: l => do
    let r ← f a
    let rs ← rowsOf f l
    pure (r ++ rs)

/-- The end points of rows, `list(table['p0']) + list(table['p1'])`. -/
def rowPts (rs : List DRow) : List Pt := rs.map (·.p0) ++ rs.map (·.p1)

/-- The default of `bbox`'s `pad` (render/grotrian.py:162). -/
def dfltPad : ℚ := 1/20

/-- `pd.concat(sub_tables)`, which raises for no tables. -/
def concatE (l : List Nat) (rs : List DRow) : Py (List DRow) := if l = [] then .error .ValueError else .ok rs

/-- `_zeeman_level_table` of a hyperfine level (render/grotrian.py:460-473). -/
def zTableH (j : Nat) (k : DrawKw) : PyM (List DRow) := do
  lazyZ j
  let w ← PyM.get
  let rs ← rowsOf (fun z => do let r ← zRow z k; pure [r]) (w.hf j).subs.vals
  let rs ← PyM.lift (concatE (w.hf j).subs.vals rs)
  let b ← PyM.lift (bbox (rowPts rs) dfltPad)
  let r ← hRow j (some b) false k
  pure (rs ++ [r])

/-- `_zeeman_level_table` of a fine-structure level (render/grotrian.py:446-459). -/
def zTableF (i : Nat) (k : DrawKw) : PyM (List DRow) := do
  lazyHF i
  let w ← PyM.get
  let rs ← rowsOf (fun j => zTableH j k) (w.lv i).subs.vals
  let rs ← PyM.lift (concatE (w.lv i).subs.vals rs)
  let b ← PyM.lift (bbox (rowPts rs) dfltPad)
  let r ← levelRow i (some b) false k
  pure (rs ++ [r])

/-- `_hf_level_table` of a fine-structure level (render/grotrian.py:413-425). -/
def hTableF (i : Nat) (k : DrawKw) : PyM (List DRow) := do
  lazyHF i
  let w ← PyM.get
  let rs ← rowsOf (fun j => do let r ← hRow j none true k; pure [r]) (w.lv i).subs.vals
  let rs ← PyM.lift (concatE (w.lv i).subs.vals rs)
  let b ← PyM.lift (bbox (rowPts rs) dfltPad)
  let r ← levelRow i (some b) false k
  pure (rs ++ [r])

end World
end AtomTk
