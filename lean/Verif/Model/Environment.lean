import Verif.Model.Py
import Mathlib.Analysis.SpecialFunctions.Sqrt
import Mathlib.Analysis.SpecialFunctions.Pow.Real
import Mathlib.Analysis.Real.Pi.Bounds
import Mathlib.Analysis.Complex.Norm
import Mathlib.Analysis.SpecialFunctions.Trigonometric.Arctan

/-!
# Light fields

Model of `atomtoolkit/environment.py`.  Vectors are lists of complex numbers; `c` (speed of light) and `eps` (vacuum permittivity)
are parameters; units are left out.
-/

namespace AtomTk

/-- `np.linalg.norm(v)`. -/
noncomputable def vnorm (v : List ℂ) : ℝ := Real.sqrt ((v.map fun z => ‖z‖ ^ 2).sum)

/-- A `LightField` object. -/
structure LightField where
  k : List ℂ
  intensity : ℝ
  pol : List ℂ

/-- `LightField.__init__` (environment.py:8-21). -/
noncomputable def newLight (k : List ℂ) (i : ℝ) (pol : List ℂ) : Py LightField :=
  if vnorm pol - 1 < 1 / 1000000 then .ok ⟨k, i, pol⟩ else .error .AssertionError

/-- The scalar in `LightField.E` (environment.py:24). -/
noncomputable def fieldScale (c eps i : ℝ) : ℝ := Real.sqrt (2 * i / (c * eps))

/-- `LightField.E` (environment.py:23-24), for intensities that are not negative. -/
noncomputable def LightField.E (c eps : ℝ) (f : LightField) : List ℂ := f.pol.map (· * (fieldScale c eps f.intensity : ℂ))

/-- `np.cross` of two vectors with three components (other shapes are left out). -/
noncomputable def cross3 (a b : List ℂ) : Py (List ℂ) :=
  match a, b with
  | [a1, a2, a3], [b1, b2, b3] => .ok [a2 * b3 - a3 * b2, a3 * b1 - a1 * b3, a1 * b2 - a2 * b1]
  | _, _ => .error .ValueError

/-- `LightField.B` (environment.py:26-27). -/
noncomputable def LightField.B (c eps : ℝ) (f : LightField) : Py (List ℂ) := do
  let v ← cross3 f.k (f.E c eps)
  .ok (v.map ((1 / c : ℝ) * ·))

/-- `GaussianBeam.__init__` (environment.py:40-45) for numbers: line 43 calls `super(LightField).__init__(k, i0, pol)`, the
constructor of the `super` object itself, whose first argument is not a type. -/
noncomputable def newBeam (_k : List ℂ) (_pow : ℝ) (_pol : List ℂ) (w0 : ℝ) : Py LightField :=
  if w0 = 0 then .error .ZeroDivisionError else .error .TypeError

/-- A `GaussianBeam` object with the attributes the methods read.  The constructor never returns one (`newBeam`); one can be had by
setting the attributes by hand.  `E0` is what `LightField.E` returns, a vector. -/
structure Beam where
  pol : List ℂ
  w0 : ℝ
  zr : ℝ
  E0 : List ℂ

/-- `GaussianBeam.w` (environment.py:59-60), for a Rayleigh range other than zero. -/
noncomputable def beamW (w0 zr z : ℝ) : ℝ := w0 * Real.sqrt (1 + z ^ 2 / zr ^ 2)

/-- `GaussianBeam.w` of an object. -/
noncomputable def Beam.w (b : Beam) (z : ℝ) : ℝ := beamW b.w0 b.zr z

/-- `GaussianBeam.E` (environment.py:47-48): both `pol` and `E0` are vectors, and their product is taken component by component.  For
vectors of the same length. -/
noncomputable def Beam.E (b : Beam) (z r : ℝ) : List ℂ :=
  (b.pol.zipWith (· * ·) b.E0).map (· * ((b.w0 / b.w z * Real.exp (-r * r / b.w z ^ 2) : ℝ) : ℂ))

/-- `GaussianBeam.B` (environment.py:50-51). -/
noncomputable def Beam.B (c : ℝ) (b : Beam) (z r : ℝ) : Py (List ℂ) := do
  let v ← cross3 (b.E z r) b.pol
  .ok (v.map ((1 / c : ℝ) * ·))

/-- `GaussianBeam.phase_at` (environment.py:53-54). -/
noncomputable def Beam.phase (b : Beam) (z : ℝ) : ℝ := Real.arctan (z / b.zr)

open Classical in
/-- `GaussianBeam.radius_at` (environment.py:56-57), for Python numbers. -/
noncomputable def Beam.radius (b : Beam) (z : ℝ) : Py ℝ :=
  if z = 0 then .error .ZeroDivisionError else .ok (z * (1 + b.zr ^ 2 / z ^ 2))

end AtomTk
