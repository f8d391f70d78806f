import Verif.Model.TransKeys

/-!
# The species scripts (species/Yb_II_171.py, Yb_II_173.py, Yb_II_174.py)

What the scripts do with the atom they get from `IO.generate_full_from_dataframe` (`Model/Load.lean`, `Model/Table.lean`).  Frequencies
are in Hz.  Reading the tables and writing the file (`Atom.save`) are not part of it; neither is the assignment of `quadratic_zeeman`
(Yb_II_171.py:51-52), which comes after the call that raises.
-/

namespace AtomTk
namespace World

def nameS : Str := "4f14.6s 2S1/2".toList
def nameP : Str := "4f14.6p 2P*1/2".toList
def nameD3 : Str := "4f14.5d 2D3/2".toList
def nameD5 : Str := "4f14.5d 2D5/2".toList
def nameBr : Str := "4f13.(2F*<7/2>).5d.6s.(3D) 3[3/2]*1/2".toList
def nameF : Str := "4f13.(2F*).6s2 2F*7/2".toList
def nameC : Str := "4f13.(2F*<7/2>).5d.6s.(1D) 1[3/2]*3/2".toList

/-- `atom.transitions[(a, b)].set_frequency(f)` (Yb_II_171.py:38-39, Yb_II_173.py:39-40, Yb_II_174.py:39-40). -/
def tuneNamed (σ : Ord') (a b : Str) (f : ℚ) : PyM Unit := do
  let t ← transGet a b
  setFrequency σ t f

/-- `t = Transition(atom.levels[a], atom.levels[b], A=A); t.add_to_atom(atom)` (Yb_II_173.py:43-44, 46-47, Yb_II_174.py:43-44, 47-48). -/
def pairNamed (a b : Str) (A : ℚ) : PyM Nat := do
  let t ← newTransNamed a b none (.hz A) none
  trAddToAtom t
  pure t

/-- `atom.add_transition((atom.levels[a], atom.levels[b]), A=A)` (Yb_II_171.py:44). -/
def addNamed (σ : Ord') (a b : Str) (A : ℚ) : PyM Nat := do
  let ra ← levelsGet a
  let rb ← levelsGet b
  match ra, rb with
  | .fine i, .fine j => addTransArg σ none (.hz A) none (.levels i j)
  | _, _ => PyM.raise .NotImplementedError

/-- `atom.add_transition(atom.levels[a], atom.levels[b], A=A)` (Yb_II_171.py:47): two positional arguments. -/
def addTwoNamed (σ : Ord') (a b : Str) (A : ℚ) : PyM Nat := do
  let ra ← levelsGet a
  let rb ← levelsGet b
  match ra, rb with
  | .fine i, .fine j => addTransArg σ none (.hz A) none (.two i j)
  | _, _ => PyM.raise .TypeError

/-- species/Yb_II_171.py:37-48. -/
def yb171 (σ1 σ2 σ3 σ4 : Ord') : PyM Unit := do
  tuneNamed σ1 nameD3 nameBr 320567693000000
  tuneNamed σ2 nameS nameP 811294110000000
  let t ← addNamed σ3 nameS nameD5 22
  setFrequency σ3 t 729476090000000
  let _ ← addTwoNamed σ4 nameF nameC 50000

/-- species/Yb_II_173.py:38-48. -/
def yb173 (σ1 σ2 σ3 : Ord') : PyM Unit := do
  tuneNamed σ1 nameD3 nameBr 320570339000000
  tuneNamed σ2 nameS nameP 811292506000000
  let t ← pairNamed nameS nameD5 22
  setFrequency σ3 t 729476090000000
  let _ ← pairNamed nameF nameC 50000

/-- species/Yb_II_174.py:38-49. -/
def yb174 (σ1 σ2 σ3 σ4 : Ord') : PyM Unit := do
  tuneNamed σ1 nameD3 nameBr 320571752000000
  tuneNamed σ2 nameS nameP 811291801000000
  let t ← pairNamed nameS nameD5 22
  setFrequency σ3 t 729475280000000
  let u ← pairNamed nameF nameC 50000
  setFrequency σ4 u 394423900000000

end World
end AtomTk
