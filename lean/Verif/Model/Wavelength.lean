import Verif.Model.SubTrans

/-! # Wavelengths

`BaseTransition.wl` and frequencies given in other units.  The conversion is pint's: `__init__.py:12-18` enables pint's own context
`spectroscopy` (the context built in `__init__.py:12-17` is never added to the registry), whose rules are `speed_of_light / value`
between lengths and frequencies and `1 / value` between wavenumbers and lengths.  A python float is assumed as the magnitude, so that
division by zero raises. -/

namespace AtomTk

/-- pint's `speed_of_light` in m/s (`__init__.py:20`). -/
def cLight : ℚ := 299792458

/-- `Q_(f, 'Hz').to('nm')`: the rule `speed_of_light / value` of the context (`__init__.py:18`). -/
def hzToNm (f : ℚ) : Py ℚ := pyDiv (cLight * 10 ^ 9) f

/-- A quantity given as a frequency: in Hz, as a wavelength in nm, or as a wavenumber in 1/cm (atom.py:547-548). -/
inductive FreqQ where
  | hz (f : ℚ)
  | nm (l : ℚ)
  | icm (k : ℚ)

/-- `freq.to(Hz).magnitude` as used by `enforce_consistency` (atom.py:1160): wavelengths by the rule above, wavenumbers first into a
wavelength (in cm). -/
def FreqQ.toHz : FreqQ → Py ℚ
  | .hz f => .ok f
  | .nm l => pyDiv (cLight * 10 ^ 9) l
  | .icm k => do
    let l ← pyDiv 1 k
    pyDiv (cLight * 100) l

namespace World

/-- `BaseTransition.wl` of a transition between levels, in nm (atom.py:603-605). -/
def wl (w : World) (t : Nat) : Py ℚ := hzToNm (w.freqHz t)

/-- `BaseTransition.wl` of a hyperfine transition, in nm (atom.py:603-605). -/
def hWl (w : World) (x : HTr) : Py ℚ := do
  let f ← w.hFreq x
  hzToNm f

/-- `BaseTransition.wl` of a Zeeman transition, in nm (atom.py:603-605). -/
def zWl (w : World) (x : ZTr) : Py ℚ := do
  let f ← w.zFreq x
  hzToNm f

end World
end AtomTk
