import Verif.Model.Wigner

/-! # The check of polarization and wave vector in the quadrupole functions

`E2_mel_geom` and `E2_transition_strength_geom` begin in the same way (transition_strengths.py:96-99, 117-120).  Numbers are those of any field;
`rnd` is applied to the result of every operation and `sq` is the square root, so that both exact numbers and floats are instances.
Sums are added from left to right.  A zero vector, where numpy computes with NaNs and warns, is not modelled. -/

namespace AtomTk.Strengths

/-- A vector of three numbers. -/
structure Vec (K : Type) where
  x : K
  y : K
  z : K
  deriving DecidableEq

variable {K : Type} [Field K]

/-- `np.dot(v, w)` (transition_strengths.py:98, 119). -/
def Vec.dotR (rnd : K → K) (v w : Vec K) : K := rnd (rnd (rnd (v.x * w.x) + rnd (v.y * w.y)) + rnd (v.z * w.z))

/-- `v / np.linalg.norm(v)` (transition_strengths.py:96-97, 117-118). -/
def Vec.unitR (rnd sq : K → K) (v : Vec K) : Vec K :=
  ⟨rnd (v.x / sq (v.dotR rnd v)), rnd (v.y / sq (v.dotR rnd v)), rnd (v.z / sq (v.dotR rnd v))⟩

/-- The warning "k-vector and polarization are not orthogonal" (transition_strengths.py:98-99, 119-120). -/
def Vec.Warns (rnd sq : K → K) (eps k : Vec K) : Prop := (eps.unitR rnd sq).dotR rnd (k.unitR rnd sq) ≠ 0

/-- A real vector of the exact functions. -/
def V3.vec (v : V3) : Vec ℝ := ⟨v.x, v.y, v.z⟩

end AtomTk.Strengths
