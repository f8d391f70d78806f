import Verif.Model.Wigner
import Verif.Model.Level

/-! # LS composition of coupled states: `util.py:74-109` and `EnergyLevel.compute_gJ` for every coupling -/

namespace AtomTk.Strengths
open Util

/-- `list(zip(*[list(a) for a in sets]))` (util.py:97, 103, 108): from three rows to triples. -/
def columns (r : List ℚ × List ℚ × List ℝ) : List (ℚ × ℚ × ℝ) := r.1.zip (r.2.1.zip r.2.2)

open Classical in
/-- The list comprehension of `_sets_to_list` (util.py:92).  The numbers are numpy floats.  `rd` is `round(·, 2)`. -/
noncomputable def lsEntries (rd : ℝ → ℝ) : List (ℚ × ℚ × ℝ) → Py (List (Str × ℝ))
  | [] => .ok []
  | (l, s, x) :: rest =>
    if x = 0 then lsEntries rd rest
    else do
      let c ← lToLet (.npfloat l)
      let xs ← lsEntries rd rest
      .ok ((intStr (pyInt (2 * s + 1)) ++ [c], rd (100 * x ^ 2)) :: xs)

/-- `_sets_to_list` (util.py:87-92). -/
noncomputable def setsToList (rd : ℝ → ℝ) (sets : List (ℚ × ℚ × ℝ)) : Py (List (Str × ℝ)) :=
  if sets.length = 0 then .error .ValueError else lsEntries rd sets

/-- `readable_JJ_to_LS` (util.py:95-98). -/
noncomputable def readableJJ (W : Wig) (rd : ℝ → ℝ) (J Jc Jo lc sc lo so : ℚ) : Py (List (Str × ℝ)) := do
  let r ← jjToLS W J Jc Jo lc sc lo so
  setsToList rd (columns r)

/-- `readable_JK_to_LS` (util.py:101-104). -/
noncomputable def readableJK (W : Wig) (sign : ℚ → ℝ) (rd : ℝ → ℝ) (J Jc K lc sc lo so : ℚ) : Py (List (Str × ℝ)) := do
  let r ← jkToLS W sign J Jc K lc sc lo so
  setsToList rd (columns r)

/-- `readable_LK_to_LS` (util.py:107-109). -/
noncomputable def readableLK (W : Wig) (rd : ℝ → ℝ) (J L K sc so : ℚ) : Py (List (Str × ℝ)) := do
  let r ← lkToLS W J L K sc so
  setsToList rd (columns r)

/-- The conversion `term_to_LS` and `compute_gJ` choose by the coupling (util.py:79-84, atom.py:344-352), as a result of three
rows.  A quantum number that is `None` cannot be calculated with. -/
noncomputable def convert (W : Wig) (sign : ℚ → ℝ) (J : ℚ) (q : QNums) : Coupling → Py (List ℚ × List ℚ × List ℝ)
  | .JJ => match q.jc, q.jo, q.lc, q.sc, q.lo, q.so with
    | some jc, some jo, some lc, some sc, some lo, some so => jjToLS W J jc jo lc sc lo so
    | _, _, _, _, _, _ => .error .TypeError
  | .JK => match q.jc, q.k, q.lc, q.sc, q.lo, q.so with
    | some jc, some k, some lc, some sc, some lo, some so => jkToLS W sign J jc k lc sc lo so
    | _, _, _, _, _, _ => .error .TypeError
  | .LK => match q.l, q.k, q.sc, q.so with
    | some l, some k, some sc, some so => lkToLS W J l k sc so
    | _, _, _, _ => .error .TypeError
  | _ => .error .TypeError

/-- The branches of `term_to_LS` (util.py:77-84), given the quantum numbers. -/
noncomputable def composition (W : Wig) (sign : ℚ → ℝ) (rd : ℝ → ℝ) (term : Str) (j : ℚ) (q : QNums) :
    Coupling → Py (Option (List (Str × ℝ)))
  | .LS => .ok (some [(term, 100)])
  | .unknown => .ok none
  | c => do
    let r ← convert W sign j q c
    let xs ← setsToList rd (columns r)
    .ok (some xs)

/-- `term_to_LS` (util.py:74-84). -/
noncomputable def termToLS (W : Wig) (sign : ℚ → ℝ) (rd : ℝ → ℝ) (conf term : Str) (j : ℚ) : Py (Option (List (Str × ℝ))) := do
  let q ← getQuantumNums conf term
  composition W sign rd term j q (getTermCoupling term)

/-! ## `compute_gJ` -/

/-- `1 + 1.0023 * (J(J+1) + s(s+1) - l(l+1)) / (2J(J+1))` (atom.py:357-358).  numpy divides by zero without raising: `none`
stands for `nan` and `inf`. -/
def landeOne (J l s : ℚ) : Option ℚ :=
  if 2 * J * (J + 1) = 0 then none
  else some (1 + 10023 / 10000 * (J * (J + 1) + s * (s + 1) - l * (l + 1)) / (2 * J * (J + 1)))

/-- `sum(percents * (...))` (atom.py:357-358). -/
noncomputable def landeSum (J : ℚ) : List (ℚ × ℚ × ℝ) → Option ℝ
  | [] => some 0
  | (l, s, x) :: r => do
    let g ← landeOne J l s
    let t ← landeSum J r
    some (x * (g : ℝ) + t)

/-- The triples of one component (atom.py:342-354).  The quantum numbers, J included, are those of the leading component;
`none` is the early return. -/
noncomputable def gjTriples (W : Wig) (sign : ℚ → ℝ) (lead : Term) : Coupling → Py (Option (List (ℚ × ℚ × ℝ)))
  | .LS => match lead.qn.l, lead.qn.s with
    | some l, some s => .ok (some [(l, s, 1)])
    | _, _ => .error .TypeError
  | .unknown => .ok none
  | c => match lead.J with
    | some J => do
      let r ← convert W sign J lead.qn c
      .ok (some (columns r))
    | none => .error .TypeError

/-- The loop of `compute_gJ` (atom.py:340-360).  `total` may already be `nan`. -/
noncomputable def gjLoop (W : Wig) (sign : ℚ → ℝ) (lead : Term) : List (ℚ × Term) → Option ℝ → Py (Option ℝ)
  | [], total => .ok total
  | (pct, t) :: rest, total => do
    let tr ← gjTriples W sign lead t.coupling
    match tr, t.J with
    | none, _ => .ok (some 0)
    | some _, none => .error .TypeError
    | some ls, some J => gjLoop W sign lead rest (do
        let a ← total
        let v ← landeSum J ls
        some (a + (pct : ℝ) * v))

/-- `EnergyLevel.compute_gJ` (atom.py:333-360).  A multi-term without components cannot be the term of a level. -/
noncomputable def gjOf (W : Wig) (sign : ℚ → ℝ) (m : MultiTerm) : Py (Option ℝ) :=
  match m.terms with
  | lead :: _ => gjLoop W sign lead m.termsDict (some 0)
  | [] => .error .IndexError

end AtomTk.Strengths
