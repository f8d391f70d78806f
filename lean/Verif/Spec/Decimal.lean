import Verif.Model.Py
import Mathlib.Data.Rat.Defs
import Mathlib.Tactic.Positivity

/-!
# Written numbers

The number a text of decimal digits stands for, digit by digit, without reference to how `float(...)` reads it.
-/

namespace AtomTk

/-- Only the ten digits. -/
def AllDigits (s : Str) : Prop := ∀ c ∈ s, c ∈ ['0', '1', '2', '3', '4', '5', '6', '7', '8', '9']

/-- What a digit stands for. -/
def digitVal (c : Char) : ℕ := ['0', '1', '2', '3', '4', '5', '6', '7', '8', '9'].idxOf c

/-- Place value: the digit before `n` others counts 10^n. -/
def placeVal : Str → ℕ
  | [] => 0
  | c :: t => digitVal c * 10 ^ t.length + placeVal t

/-- An unsigned number: digits, or digits with one point among, before or after them. -/
inductive UDecimal : Str → ℚ → Prop
  | whole (a : Str) : AllDigits a → a ≠ [] → UDecimal a (placeVal a)
  | point (a b : Str) : AllDigits a → AllDigits b → a ++ b ≠ [] → UDecimal (a ++ '.' :: b) (placeVal (a ++ b) / 10 ^ b.length)

/-- A number, with or without a sign. -/
inductive Decimal : Str → ℚ → Prop
  | plain {s : Str} {x : ℚ} : UDecimal s x → Decimal s x
  | plus {s : Str} {x : ℚ} : UDecimal s x → Decimal ('+' :: s) x
  | minus {s : Str} {x : ℚ} : UDecimal s x → Decimal ('-' :: s) (-x)

end AtomTk
