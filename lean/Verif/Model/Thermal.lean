import Verif.Model.Lineshape
import Mathlib.Analysis.SpecialFunctions.Sqrt

/-!
# The width of the thermal line shapes

The constructors of `ThermalGaussianLineShape` and `ThermalLineShape`.  Simplification: the numbers `kB`, `T`, `m`, `c` are taken in
one consistent system of units, so `sigma` is the plain number that pint reduces the dimensionless quantity to; what pint does on the
way (in particular whether scipy's `voigt_profile` accepts a quantity at all) is not modelled.
-/

namespace AtomTk

/-- `self.sigma` as set in `ThermalGaussianLineShape.__init__` (render/lineshapes.py:139-142) and in `ThermalLineShape.__init__`
(render/lineshapes.py:155-159): `(8*k*T/(m*c**2))**0.5`. -/
noncomputable def thermalSigma (kB T m c : ℝ) : ℝ := Real.sqrt (8 * kB * T / (m * c ^ 2))

/-- `ThermalGaussianLineShape(T, m)` (render/lineshapes.py:138-149). -/
noncomputable def thermalGaussianOf (kB T m c : ℝ) : LineShape := thermalGaussianShape (thermalSigma kB T m c)

/-- `ThermalLineShape(T, m, gamma).shape_func` (render/lineshapes.py:152-167). -/
noncomputable def thermalOf (voigt : ℝ → ℝ → ℝ → ℝ) (kB T m c gamma x x0 : ℝ) (k : Kw) : Py Elt :=
  thermalShape voigt (thermalSigma kB T m c) gamma x x0 k

end AtomTk
