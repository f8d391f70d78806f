import Verif.Model.Util
import Verif.Spec.Basic

/-! # Shapes of NIST configurations and term symbols, for the parsing properties -/

namespace AtomTk
open Util

/-- An ancestor with angular momentum, `({n}{X}[*]<{j}>)`. -/
def coreText (n : Nat) (X : Char) (st : Bool) (j : ℚ) : Str :=
  '(' :: (natStr n ++ X :: (starText st ++ '<' :: (numToFrac j ++ ['>', ')'])))

/-- An ancestor without angular momentum, `({n}{X}[*])`. -/
def ancText (n : Nat) (X : Char) (st : Bool) : Str := '(' :: (natStr n ++ X :: (starText st ++ [')']))

/-- `[A-Z]` -/
def isCapital (c : Char) : Bool := decide (65 ≤ c.toNat) && decide (c.toNat ≤ 90)

/-- No capital letter (such as the electron part `4f13.` or `.5d.6s` of a configuration). -/
def NoUp (s : Str) : Prop := ∀ x ∈ s, isCapital x = false

end AtomTk
