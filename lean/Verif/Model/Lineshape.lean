import Verif.Model.Py
import Mathlib.Data.Real.Basic
import Mathlib.Analysis.SpecialFunctions.Exp
import Mathlib.Analysis.Real.Pi.Bounds

/-!
# Line shapes

Model of `atomtoolkit/render/lineshapes.py`.  Floats are real numbers, except that the overflow of the sideband loop is kept.
Array arguments are lists; all array operations of the code work element by element.  An element is `none` where the division
`0 / 0` would be carried out: NumPy stores NaN there.  The Bessel functions `scipy.special.jv` and the Voigt profile
`scipy.special.voigt_profile` are parameters.
-/

namespace AtomTk

/-- One array element: a number, or NaN. -/
abbrev Elt := Option ℝ

/-- `lorentzian` (render/lineshapes.py:19-20), one element. -/
noncomputable def lorentzian (x x0 gamma ampl : ℝ) : Elt :=
  if 4 * (x - x0) ^ 2 + gamma ^ 2 = 0 then none
  else some (ampl * gamma ^ 2 / (4 * (x - x0) ^ 2 + gamma ^ 2))

/-- `gaussian` (render/lineshapes.py:23-24), one element.  For `sigma = 0` the exponent is `-inf` off the centre (giving 0) and
NaN at the centre. -/
noncomputable def gaussian (x x0 sigma ampl : ℝ) : Elt :=
  if sigma = 0 then (if x = x0 then none else some 0)
  else some (ampl * Real.exp (-(x - x0) ^ 2 / (2 * sigma ^ 2)))

/-- `tot += y`, one element. -/
noncomputable def addElt : Elt → Elt → Elt
  | some a, some b => some (a + b)
  | _, _ => none

/-- The two summands added for the sidebands `i` (render/lineshapes.py:36-38 and 109-111), one element. -/
noncomputable def sideStep (jv : ℕ → ℝ → ℝ) (x x0 gamma ampl depth freq : ℝ) (tot : Elt) (i : ℕ) : Elt :=
  let modAmpl := ampl * jv i depth ^ 2
  addElt (addElt tot (lorentzian x (x0 + i * freq) gamma modAmpl)) (lorentzian x (x0 - i * freq) gamma modAmpl)

/-- `range(1, n + 1)` for an integer `n`. -/
def rangeOne (n : ℤ) : List ℕ := (List.range n.toNat).map (· + 1)

/-- The body of `mod_lorentzian` (render/lineshapes.py:33-39), one element. -/
noncomputable def modSum (jv : ℕ → ℝ → ℝ) (x x0 gamma ampl depth freq : ℝ) (n : ℤ) : Elt :=
  (rangeOne n).foldl (sideStep jv x x0 gamma ampl depth freq)
    (addElt (some 0) (lorentzian x x0 gamma (ampl * jv 0 depth ^ 2)))

/-- `mod_lorentzian` (render/lineshapes.py:31-39).  `num_sidebands=None` (the default) raises at `num_sidebands + 1`. -/
noncomputable def modLorentzian (jv : ℕ → ℝ → ℝ) (xs : List ℝ) (x0 gamma ampl depth : ℝ) (n : Option ℤ) (freq : ℝ) : Py (List Elt) :=
  match n with
  | none => .error .TypeError
  | some n => .ok (xs.map fun x => modSum jv x x0 gamma ampl depth freq n)

/-- The keyword arguments read by the line shapes. -/
structure Kw where
  aCoeff : Option ℝ := none
  ampl : Option ℝ := none
  padding : Option ℝ := none

/-- A line shape: its `width_func` and its `shape_func`, one element. -/
structure LineShape where
  width : Kw → ℝ
  shape : ℝ → ℝ → Kw → Elt

/-- `LorentzianLineShape` (render/lineshapes.py:64-82). -/
noncomputable def lorentzianShape (gamma : ℝ) : LineShape where
  width k := k.padding.getD 20 * (gamma + k.aCoeff.getD 0)
  shape x x0 k := lorentzian x x0 (gamma + k.aCoeff.getD 0) (k.ampl.getD 1)

/-- The width used by `ModLorentzianLineShape` (render/lineshapes.py:103-105, 115-117). -/
noncomputable def modWidth (gamma : ℝ) (k : Kw) : ℝ :=
  match k.aCoeff with
  | none => gamma
  | some a => gamma + a / (1000000 * 2 * Real.pi)

/-- `ModLorentzianLineShape` with the chosen number of sidebands (render/lineshapes.py:98-118). -/
noncomputable def modShape (jv : ℕ → ℝ → ℝ) (gamma depth freq : ℝ) (n : ℤ) : LineShape where
  width k := freq * n + k.padding.getD 20 * modWidth gamma k
  shape x x0 k := modSum jv x x0 (modWidth gamma k) (k.ampl.getD 1) depth freq n

/-- `GaussianLineShape` (render/lineshapes.py:121-135). -/
noncomputable def gaussianShape (sigma : ℝ) : LineShape where
  width k := k.padding.getD 20 * sigma
  shape x x0 k := gaussian x x0 sigma (k.ampl.getD 1)

/-- `ThermalGaussianLineShape` (render/lineshapes.py:138-149), `sigma` being the number computed in `__init__`. -/
noncomputable def thermalGaussianShape (sigma : ℝ) : LineShape where
  width k := k.padding.getD 20 * sigma
  shape x x0 k := gaussian x x0 (sigma * x0) (k.ampl.getD 1)

/-- `ThermalLineShape.shape_func` (render/lineshapes.py:161-167), one element; `voigt` is `scipy.special.voigt_profile`.  The two
quotients are of single numbers and raise on a zero denominator. -/
noncomputable def thermalShape (voigt : ℝ → ℝ → ℝ → ℝ) (sigma gamma x x0 : ℝ) (k : Kw) : Py Elt :=
  if sigma * x0 = 0 then .error .ZeroDivisionError
  else if gamma / (sigma * x0) > 25 then .ok (lorentzian x x0 gamma (k.ampl.getD 1))
  else if gamma = 0 then .error .ZeroDivisionError
  else if sigma * x0 / gamma > 25 then .ok (gaussian x x0 (sigma * x0) (k.ampl.getD 1))
  else .ok (some (k.ampl.getD 1 * voigt (x - x0) (sigma * x0) gamma))

/-! ## The sideband loop -/

/-- From this absolute value on numbers are not representable as a float: Python raises OverflowError for them, both in
`float ** int` and in `float * int`. -/
def floatTop : ℝ := 2 ^ 1024 - 2 ^ 970

/-- One run of the loop at render/lineshapes.py:93-94, from the value `n` of `self.num_sidebands`, ending with a result. -/
inductive SideLoop (depth : ℝ) : ℕ → Py ℕ → Prop
  | powOver {n} : floatTop ≤ |(depth / 2) ^ n| → SideLoop depth n (.error .OverflowError)
  | facOver {n} : |(depth / 2) ^ n| < floatTop → floatTop ≤ (n.factorial : ℝ) → SideLoop depth n (.error .OverflowError)
  | stop {n} : |(depth / 2) ^ n| < floatTop → (n.factorial : ℝ) < floatTop → ¬(depth / 2) ^ n > 1 / 100 * n.factorial →
      SideLoop depth n (.ok n)
  | step {n r} : |(depth / 2) ^ n| < floatTop → (n.factorial : ℝ) < floatTop → (depth / 2) ^ n > 1 / 100 * n.factorial →
      SideLoop depth (n + 1) r → SideLoop depth n r

/-- `ModLorentzianLineShape.__init__` (render/lineshapes.py:86-96): the number of sidebands it ends with. -/
inductive ModInit (depth : ℝ) : Option ℤ → Py ℤ → Prop
  | given {n} : ModInit depth (some n) (.ok n)
  | found {n} : SideLoop depth 0 (.ok n) → ModInit depth none (.ok n)
  | raised {e} : SideLoop depth 0 (.error e) → ModInit depth none (.error e)

/-! ## The plotting window -/

/-- `np.linspace(a, b, num)`. -/
noncomputable def linspace (a b : ℝ) (num : ℤ) : Py (List ℝ) :=
  if num < 0 then .error .ValueError
  else if num = 1 then .ok [a]
  else .ok ((List.range num.toNat).map fun i : ℕ => if (i : ℤ) = num - 1 then b else a + i * ((b - a) / (num - 1)))

/-- `LineShape.compute` (render/lineshapes.py:54-58). -/
noncomputable def LineShape.compute (s : LineShape) (x0 : ℝ) (num : ℤ) (k : Kw) : Py (List ℝ × List Elt) := do
  let xs ← linspace (x0 - s.width k) (x0 + s.width k) num
  .ok (xs, xs.map fun x => s.shape x x0 k)

end AtomTk
