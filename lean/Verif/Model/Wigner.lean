import Verif.Model.Py
import Mathlib.Data.Complex.Basic
import Mathlib.Analysis.Real.Sqrt

/-! # `wigner.py` and `transition_strengths.py`

The backends (py3nj, sympy) are parameters: functions of the argument list that return a number or raise.  Numbers that come
from a square root are reals, all other numbers are rationals. -/

namespace AtomTk.Strengths

/-- An imported Wigner function (wigner.py:7-22): py3nj takes doubled arguments as integers. -/
inductive WFun
  | py3nj (f : List ℤ → Py ℝ)
  | sympy (g : List ℚ → Py ℝ)

/-- `wignerPicker` (wigner.py:29-46). -/
def wignerPicker : WFun → List ℚ → Py ℝ
  | .py3nj f, args => match f (args.map (fun x => pyInt (x * 2))) with
    | .error .ValueError => .ok 0
    | .error .IndexError => .ok 0
    | r => r
  | .sympy g, args => match g args with
    | .error .ValueError => .ok 0
    | r => r

/-- The three wrapped functions (wigner.py:49-51), without the cache (see `cached`). -/
structure Wig where
  three : WFun
  six : WFun
  nine : WFun

/-- `wigner3j` (wigner.py:49) -/
def Wig.w3j (W : Wig) (j1 j2 j3 m1 m2 m3 : ℚ) : Py ℝ := wignerPicker W.three [j1, j2, j3, m1, m2, m3]

/-- `wigner6j` (wigner.py:50) -/
def Wig.w6j (W : Wig) (a b c d e f : ℚ) : Py ℝ := wignerPicker W.six [a, b, c, d, e, f]

/-- `wigner9j` (wigner.py:51) -/
def Wig.w9j (W : Wig) (a b c d e f g h i : ℚ) : Py ℝ := wignerPicker W.nine [a, b, c, d, e, f, g, h, i]

/-- The quantum numbers of the two states, as in the argument lists `I, ..., J0, F0, M0, J1, F1, M1`. -/
structure States where
  I : ℚ
  J0 : ℚ
  F0 : ℚ
  M0 : ℚ
  J1 : ℚ
  F1 : ℚ
  M1 : ℚ
  deriving DecidableEq

/-- `tkq_transition_strength` (transition_strengths.py:14-22). -/
noncomputable def tkqStrength (W : Wig) (k q : ℚ) (s : States) : Py ℝ := do
  let x ← W.w6j s.J0 s.J1 k s.F1 s.F0 s.I
  let y ← W.w3j s.F1 k s.F0 (-s.M1) q s.M0
  .ok (1 * (((2 * s.F0 + 1 : ℚ) : ℝ) * ((2 * s.F1 + 2 : ℚ) : ℝ) * x ^ 2) * y ^ 2)

/-- `tkq_mel` (transition_strengths.py:25-33), for non-negative F. -/
noncomputable def tkqMel (W : Wig) (k q : ℚ) (s : States) : Py ℝ := do
  let x ← W.w6j s.J0 s.J1 k s.F1 s.F0 s.I
  let y ← W.w3j s.F1 k s.F0 (-s.M1) q s.M0
  .ok (1 * (Real.sqrt ((2 * s.F0 + 1 : ℚ) : ℝ) * Real.sqrt ((2 * s.F1 + 2 : ℚ) : ℝ) * x) * y)

/-- A real vector. -/
structure V3 where
  x : ℝ
  y : ℝ
  z : ℝ

/-- `np.linalg.norm` -/
noncomputable def V3.norm (v : V3) : ℝ := Real.sqrt (v.x ^ 2 + v.y ^ 2 + v.z ^ 2)

/-- `v / np.linalg.norm(v)`; the zero vector (NaNs in numpy) is not modelled. -/
noncomputable def V3.unit (v : V3) : V3 := ⟨v.x / v.norm, v.y / v.norm, v.z / v.norm⟩

/-- `np.dot` (transition_strengths.py:98, 119) -/
def V3.dot (v w : V3) : ℝ := v.x * w.x + v.y * w.y + v.z * w.z

/-- `0.5 ** 0.5` -/
noncomputable def rootHalf : ℝ := Real.sqrt (1 / 2)

/-- `E1_mel_geom` (transition_strengths.py:37-45). -/
noncomputable def e1MelGeom (W : Wig) (eps : V3) (s : States) : Py ℂ := do
  let e := eps.unit
  let a ← tkqMel W 1 (-1) s
  let b ← tkqMel W 1 0 s
  let c ← tkqMel W 1 1 s
  .ok (0 + ((a * rootHalf : ℝ) : ℂ) * ((e.x : ℂ) + Complex.I * (e.y : ℂ)) + ((b * e.z : ℝ) : ℂ) +
    ((c * rootHalf : ℝ) : ℂ) * ((e.x : ℂ) - Complex.I * (e.y : ℂ)))

/-- `E1_transition_strength_geom` (transition_strengths.py:48-56). -/
noncomputable def e1StrengthGeom (W : Wig) (eps : V3) (s : States) : Py ℝ := do
  let e := eps.unit
  let a ← tkqStrength W 1 (-1) s
  let b ← tkqStrength W 1 0 s
  let c ← tkqStrength W 1 1 s
  .ok (0 + a * (1 / 2) * (e.x ^ 2 + e.y ^ 2) + b * e.z ^ 2 + c * (1 / 2) * (e.x ^ 2 + e.y ^ 2))

/-- `E1_transition_strength_avg` (transition_strengths.py:59-61). -/
noncomputable def e1StrengthAvg (W : Wig) (s : States) : Py ℝ := do
  let a ← tkqStrength W 1 (-1) s
  let b ← tkqStrength W 1 0 s
  let c ← tkqStrength W 1 1 s
  .ok ((a + b + c) / 3)

/-- `M1_mel_geom` (transition_strengths.py:64-72). -/
noncomputable def m1MelGeom (W : Wig) (eps : V3) (s : States) : Py ℂ := do
  let e := eps.unit
  let a ← tkqMel W 1 (-1) s
  let b ← tkqMel W 1 0 s
  let c ← tkqMel W 1 1 s
  .ok (0 + ((a * rootHalf : ℝ) : ℂ) * ((e.x : ℂ) + Complex.I * (e.y : ℂ)) + ((b * e.z : ℝ) : ℂ) +
    ((c * rootHalf : ℝ) : ℂ) * ((e.x : ℂ) - Complex.I * (e.y : ℂ)))

/-- `M1_transition_strength_geom` (transition_strengths.py:75-85). -/
noncomputable def m1StrengthGeom (W : Wig) (eps : V3) (s : States) : Py ℝ := do
  let e := eps.unit
  let a ← tkqStrength W 1 (-1) s
  let b ← tkqStrength W 1 0 s
  let c ← tkqStrength W 1 1 s
  .ok (0 + a * (1 / 2) * (e.x ^ 2 + e.y ^ 2) + b * e.z ^ 2 + c * (1 / 2) * (e.x ^ 2 + e.y ^ 2))

/-- `M1_transition_strength_avg` (transition_strengths.py:88-90). -/
noncomputable def m1StrengthAvg (W : Wig) (s : States) : Py ℝ := do
  let a ← tkqStrength W 1 (-1) s
  let b ← tkqStrength W 1 0 s
  let c ← tkqStrength W 1 1 s
  .ok ((a + b + c) / 3)

/-- `E2_mel_geom` (transition_strengths.py:93-111), without the warning (see Model/Ortho). -/
noncomputable def quadMelGeom (W : Wig) (eps kv : V3) (s : States) : Py ℂ := do
  let e := eps.unit
  let k := kv.unit
  let a ← tkqMel W 2 (-2) s
  let b ← tkqMel W 2 (-1) s
  let c ← tkqMel W 2 0 s
  let d ← tkqMel W 2 1 s
  let f ← tkqMel W 2 2 s
  .ok (0 + (a : ℂ) * (((e.x * k.x : ℝ) : ℂ) - Complex.I * ((k.x * e.y + k.y + e.x : ℝ) : ℂ) - ((k.y * e.y : ℝ) : ℂ)) +
    (b : ℂ) * (-((k.x * e.z + k.z * e.x : ℝ) : ℂ) + Complex.I * ((k.y * e.z + k.z * e.y : ℝ) : ℂ)) +
    (c : ℂ) * ((-Real.sqrt 6 * k.x * e.x + Real.sqrt 6 * k.y * e.y + 2 / 3 * Real.sqrt 6 * k.z * e.z : ℝ) : ℂ) +
    (d : ℂ) * (((k.x * e.z + k.z * e.x : ℝ) : ℂ) + Complex.I * ((k.y * e.z + k.z * e.y : ℝ) : ℂ)) +
    (f : ℂ) * (((e.x * k.x : ℝ) : ℂ) + Complex.I * ((k.x * e.y + k.y + e.x : ℝ) : ℂ) - ((k.y * e.y : ℝ) : ℂ)))

/-- `E2_transition_strength_geom` (transition_strengths.py:114-132), with the operator precedence as written, without the
warning (see Model/Ortho). -/
noncomputable def quadStrengthGeom (W : Wig) (eps kv : V3) (s : States) : Py ℝ := do
  let e := eps.unit
  let k := kv.unit
  let a ← tkqStrength W 2 (-2) s
  let b ← tkqStrength W 2 (-1) s
  let c ← tkqStrength W 2 0 s
  let d ← tkqStrength W 2 1 s
  let f ← tkqStrength W 2 2 s
  .ok (0 + a * (e.x ^ 2 + e.y ^ 2) * (k.x ^ 2 + k.y ^ 2) +
    (b * (e.z * k.x + e.x * k.z) ^ 2 + (e.y * k.x + e.x * k.y) ^ 2) +
    c * (2 / 3) * (3 * k.x * e.x + 3 * k.y * e.y + 2 * k.z * e.z) ^ 2 +
    (d * (e.z * k.x + e.x * k.z) ^ 2 + (e.y * k.x + e.x * k.y) ^ 2) +
    f * (e.x ^ 2 + e.y ^ 2) * (k.x ^ 2 + k.y ^ 2))

/-- `E2_transition_strength_avg` (transition_strengths.py:135-143). -/
noncomputable def quadStrengthAvg (W : Wig) (s : States) : Py ℝ := do
  let a ← tkqStrength W 2 (-2) s
  let b ← tkqStrength W 2 (-1) s
  let c ← tkqStrength W 2 0 s
  let d ← tkqStrength W 2 1 s
  let f ← tkqStrength W 2 2 s
  .ok (0 + a * (3 / 29) + b * (9 / 58) + c * (14 / 29) + d * (9 / 58) + f * (3 / 29))

/-! ## Coupling conversions -/

/-- `np.repeat(ls, n)` -/
def npRepeat (ls : List ℚ) (n : Nat) : List ℚ := ls.flatMap (fun l => List.replicate n l)

/-- `np.tile(ss, n)` -/
def npTile (ss : List ℚ) : Nat → List ℚ
  | 0 => []
  | n + 1 => ss ++ npTile ss n

/-- The list comprehension over the grid: one number per pair, an exception aborts. -/
def percs (f : ℚ → ℚ → Py ℝ) : List (ℚ × ℚ) → Py (List ℝ)
  | [] => .ok []
  | p :: ps => do
    let x ← f p.1 p.2
    let xs ← percs f ps
    .ok (x :: xs)

/-- The grid and the numbers on it, as three rows (`np.stack([outls, outss, outpercs])`). -/
def onGrid (f : ℚ → ℚ → Py ℝ) (ls ss : List ℚ) : Py (List ℚ × List ℚ × List ℝ) := do
  let outls := npRepeat ls ss.length
  let outss := npTile ss ls.length
  let ps ← percs f (outls.zip outss)
  .ok (outls, outss, ps)

/-- `JJ_to_LS` (transition_strengths.py:146-157). -/
noncomputable def jjToLS (W : Wig) (J Jc Jo lc sc lo so : ℚ) : Py (List ℚ × List ℚ × List ℝ) :=
  onGrid (fun L S => do
      let x ← W.w9j lc sc Jc lo so Jo L S J
      .ok (x * Real.sqrt ((((2 * Jc + 1) * (2 * Jo + 1) * (2 * L + 1) * (2 * S + 1) : ℚ)) : ℝ)))
    (arange |lc - lo| (|lc + lo| + 1)) (arange |sc - so| (|sc + so| + 1))

/-- `JK_to_LS` (transition_strengths.py:160-172).  The power of -1 is real for half-integer quantum numbers of which the
exponent is an integer, and is kept as a parameter. -/
noncomputable def jkToLS (W : Wig) (sign : ℚ → ℝ) (J Jc K lc sc lo so : ℚ) : Py (List ℚ × List ℚ × List ℝ) :=
  onGrid (fun L S => do
      let x ← W.w6j sc lc Jc lo K L
      let y ← W.w6j L sc K so J S
      .ok (sign (-lc - lo - 2 * sc - so - K - L - J) *
        Real.sqrt ((((2 * Jc + 1) * (2 * L + 1) * (2 * K + 1) * (2 * S + 1) : ℚ)) : ℝ) * x * y))
    (arange |lc - lo| (|lc + lo| + 1)) (arange |sc - so| (|sc + so| + 1))

/-- `LK_to_LS` (transition_strengths.py:175-184). -/
noncomputable def lkToLS (W : Wig) (J L K sc so : ℚ) : Py (List ℚ × List ℚ × List ℝ) :=
  onGrid (fun _ S => do
      let x ← W.w6j L sc K so J S
      .ok (Real.sqrt ((((2 * K + 1) * (2 * S + 1) : ℚ)) : ℝ) * x))
    [L] (arange |sc - so| (|sc + so| + 1))

/-! ## Memoisation -/

/-- A call of a function wrapped by `functools.lru_cache(maxsize=None)`: the arguments are hashed first; what the function
raises is not stored.  `c` is the content of the cache. -/
def cached {κ α : Type _} [DecidableEq κ] (hashable : κ → Bool) (f : κ → Py α) (c : Dict κ α) (x : κ) : Dict κ α × Py α :=
  if hashable x then
    match c.get? x with
    | some v => (c, .ok v)
    | none => match f x with
      | .ok v => (c.set x v, .ok v)
      | .error e => (c, .error e)
  else (c, .error .TypeError)

/-- The caches of the number-valued functions. -/
structure Caches where
  three : Dict (List ℚ) ℝ
  six : Dict (List ℚ) ℝ
  strength : Dict (ℚ × ℚ × States) ℝ
  mel : Dict (ℚ × ℚ × States) ℝ

/-- A call of one of the cached functions. -/
inductive Call
  | three (args : List ℚ)
  | six (args : List ℚ)
  | strength (k q : ℚ) (s : States)
  | mel (k q : ℚ) (s : States)

/-- `wigner3j(*args)` through its cache. -/
noncomputable def Caches.w3 (W : Wig) (args : List ℚ) (c : Caches) : Caches × Py ℝ :=
  match cached (fun _ => true) (wignerPicker W.three) c.three args with
  | (t, r) => ({ c with three := t }, r)

/-- `wigner6j(*args)` through its cache. -/
noncomputable def Caches.w6 (W : Wig) (args : List ℚ) (c : Caches) : Caches × Py ℝ :=
  match cached (fun _ => true) (wignerPicker W.six) c.six args with
  | (t, r) => ({ c with six := t }, r)

/-- The body of `tkq_transition_strength` or `tkq_mel` through the caches of the Wigner functions; `g` combines the two
symbols. -/
noncomputable def Caches.body (W : Wig) (g : ℝ → ℝ → ℝ) (k q : ℚ) (s : States) (c : Caches) : Caches × Py ℝ :=
  match c.w6 W [s.J0, s.J1, k, s.F1, s.F0, s.I] with
  | (c, .error e) => (c, .error e)
  | (c, .ok x) => match c.w3 W [s.F1, k, s.F0, -s.M1, q, s.M0] with
    | (c, .error e) => (c, .error e)
    | (c, .ok y) => (c, .ok (g x y))

/-- How the strength combines the symbols. -/
noncomputable def gStrength (s : States) (x y : ℝ) : ℝ := 1 * (((2 * s.F0 + 1 : ℚ) : ℝ) * ((2 * s.F1 + 2 : ℚ) : ℝ) * x ^ 2) * y ^ 2

/-- How the matrix element combines the symbols. -/
noncomputable def gMel (s : States) (x y : ℝ) : ℝ :=
  1 * (Real.sqrt ((2 * s.F0 + 1 : ℚ) : ℝ) * Real.sqrt ((2 * s.F1 + 2 : ℚ) : ℝ) * x) * y

/-- A call through all the caches. -/
noncomputable def Caches.call (W : Wig) (c : Caches) : Call → Caches × Py ℝ
  | .three args => c.w3 W args
  | .six args => c.w6 W args
  | .strength k q s => match c.strength.get? (k, q, s) with
    | some v => (c, .ok v)
    | none => match c.body W (gStrength s) k q s with
      | (c, .ok v) => ({ c with strength := c.strength.set (k, q, s) v }, .ok v)
      | (c, .error e) => (c, .error e)
  | .mel k q s => match c.mel.get? (k, q, s) with
    | some v => (c, .ok v)
    | none => match c.body W (gMel s) k q s with
      | (c, .ok v) => ({ c with mel := c.mel.set (k, q, s) v }, .ok v)
      | (c, .error e) => (c, .error e)

/-- A sequence of calls and their results. -/
noncomputable def Caches.calls (W : Wig) : Caches → List Call → List (Py ℝ)
  | _, [] => []
  | c, x :: xs => match c.call W x with
    | (c', r) => r :: c'.calls W xs

/-- A vector argument as the caller gives it: the annotated `np.array`, or a tuple. -/
inductive VArg
  | array (v : V3)
  | tuple (v : V3)

/-- The numbers. -/
def VArg.v : VArg → V3
  | .array v => v
  | .tuple v => v

/-- Arrays cannot be hashed. -/
def VArg.hashable : VArg → Bool
  | .array _ => false
  | .tuple _ => true

/-- `E1_transition_strength_geom` as called, with an empty cache. -/
noncomputable def e1StrengthGeomCall (W : Wig) (eps : VArg) (s : States) : Py ℝ :=
  if eps.hashable then e1StrengthGeom W eps.v s else .error .TypeError

end AtomTk.Strengths
