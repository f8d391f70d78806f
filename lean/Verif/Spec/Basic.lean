import Mathlib.Algebra.Order.Field.Rat

/-! # Elementary notions used in property statements, independent of the model -/

namespace AtomTk

/-- `q` is an integer or half an odd integer. -/
def IsHalfInt (q : ℚ) : Prop := ∃ n : ℤ, q = (n : ℚ) / 2

/-- An angular-momentum quantum number: a non-negative half-integer 0, 1/2, 1, 3/2, ... -/
def IsSpin (q : ℚ) : Prop := ∃ n : ℕ, q = (n : ℚ) / 2

theorem IsSpin.isHalfInt {q : ℚ} (h : IsSpin q) : IsHalfInt q := by
  obtain ⟨n, rfl⟩ := h; exact ⟨n, by simp⟩

/-- The 21 spectroscopic letters, as stated in the documentation of `util.py`. -/
def specLetters : List Char := "SPDFGHIKLMNOQRTUVWXYZ".toList

/-- The optional parity star of a term symbol. -/
def starText (b : Bool) : List Char := if b then ['*'] else []

end AtomTk
