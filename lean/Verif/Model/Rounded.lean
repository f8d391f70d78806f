import Verif.Model.World

/-! # Enforcement with rounded arithmetic

`World.enforce` computes with exact numbers.  Here every sum, difference and absolute difference of `enforce_consistency` is
rounded by an arbitrary function, as floating-point arithmetic does.  The conversion of the set frequency to Hz is not rounded. -/

namespace AtomTk
namespace World

/-- The loop body of the search (atom.py:1161-1169), with `rnd` applied to the result of every operation. -/
def enfEdgeR (rnd : ℚ → ℚ) (u v : Str) : PyM Unit := fun w =>
  match w.g.adj u v with
  | none => (w, .error .KeyError)
  | some t =>
    match (w.tr t).setFreq with
    | none => (w, .error .AttributeError)
    | some f =>
      let l := (w.tr t).lower
      let up := (w.tr t).upper
      let w' :=
        if (w.lv l).fixed = true ∧ (w.lv up).fixed = true ∧ f ≠ |rnd (w.eHz l - w.eHz up)| then
          { w with warned := w.warned + 1 }
        else if (w.lv up).fixed = true then w.setE l (rnd (w.eHz up - f))
        else w.setE up (rnd (w.eHz l + f))
      ((w'.setFixed up true).setFixed l true, .ok ())

/-- `for edge in search` (atom.py:1160). -/
def enfEdgesR (rnd : ℚ → ℚ) : List (Str × Str) → PyM Unit
  | [] => pure ()
  | (u, v) :: rest => do
    enfEdgeR rnd u v
    enfEdgesR rnd rest

/-- One component (atom.py:1145-1169). -/
def enfCompR (rnd : ℚ → ℚ) (σ : Ord') (es : List (Str × Str)) (c : List Str) : PyM Unit := fun w =>
  match lowestLoop w (withLevels w.g (σ (.low c) c)) none none with
  | .error e => (w, .error e)
  | .ok none => (w, .ok ())
  | .ok (some s) => enfEdgesR rnd (Graph.dfsEdges c (fun n => σ (.nbrs c n) (subNbrs w.g es n)) s) w

/-- The loop over the components (atom.py:1145). -/
def enfCompsR (rnd : ℚ → ℚ) (σ : Ord') (es : List (Str × Str)) (trig : Option (Str × Str)) : List (List Str) → PyM Unit
  | [] => pure ()
  | c :: cs => fun w =>
    if triggered w.g es c trig then (do
      enfCompR rnd σ es c
      enfCompsR rnd σ es trig cs : PyM Unit) w
    else enfCompsR rnd σ es trig cs w

/-- `Atom.enforce_consistency` (atom.py:1131-1169) with rounded arithmetic. -/
def enforceR (rnd : ℚ → ℚ) (σ : Ord') (trig : Option (Str × Str)) : PyM Unit := fun w =>
  match w.setEdges with
  | .error e => (w, .error e)
  | .ok es =>
    let V := endpoints es
    enfCompsR rnd σ es trig (Graph.compsFrom V (fun n => subNbrs w.g es n) (σ .comps V) []) w

/-- The power of two below `|q|`: `some e` with `2 ^ e ≤ |q| < 2 ^ (e + 1)`, found from the sizes of numerator and denominator. -/
def expo (q : ℚ) : Int :=
  let e : Int := (Nat.log2 q.num.natAbs : Int) - Nat.log2 q.den
  if |q| < (2 : ℚ) ^ e then e - 1 else e

/-- The nearest integer, ties to even. -/
def nearest (q : ℚ) : Int :=
  let r := q - ⌊q⌋
  if r < 1/2 then ⌊q⌋ else if 1/2 < r then ⌊q⌋ + 1 else if ⌊q⌋ % 2 = 0 then ⌊q⌋ else ⌊q⌋ + 1

/-- Rounding to 53 significant binary digits, ties to even: the result of an operation on Python floats whose exact result is
`q`, for magnitudes at which there is neither overflow nor underflow. -/
def dbl (q : ℚ) : ℚ := if q = 0 then 0 else nearest (q / (2 : ℚ) ^ (expo q - 52)) * (2 : ℚ) ^ (expo q - 52)

end World
end AtomTk
