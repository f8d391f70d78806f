import Mathlib.Data.Nat.Factorial.Basic
import Mathlib.Algebra.BigOperators.Intervals
import Mathlib.Analysis.Real.Sqrt
import Mathlib.Data.Rat.Floor

/-! # Wigner symbols by Racah's formulas

The angular momentum libraries are third-party code.  What is assumed of them is stated here: the 3j and 6j symbols are
the ones of Racah's single-sum formulas.  All arguments are doubled, i.e. integers, as in py3nj.  Factorials of negative
numbers are read as "the term is absent" (`fac n = rfac n = 0`). -/

namespace AtomTk.Racah

/-- `n!`, absent for negative `n`. -/
def fac (n : ℤ) : ℚ := if n < 0 then 0 else (n.toNat.factorial : ℚ)

/-- `1 / n!`, absent for negative `n`. -/
def rfac (n : ℤ) : ℚ := if n < 0 then 0 else 1 / (n.toNat.factorial : ℚ)

/-- `(-1)^n` -/
def sgn (n : ℤ) : ℚ := if n % 2 = 0 then 1 else -1

/-- One term of the sum of the 3j symbol. -/
def term3 (p q r x y k : ℤ) : ℚ :=
  sgn k * (rfac k * rfac (p - k) * rfac (q - k) * rfac (r - k) * rfac (x + k) * rfac (y + k))

/-- The sum of the 3j symbol. -/
def sum3 (p q r x y : ℤ) : ℚ := ∑ k ∈ Finset.range (p.toNat + 1), term3 p q r x y k

/-- The square under the root of the 3j symbol. -/
def norm3 (a b c d e f : ℤ) : ℚ :=
  fac ((-a + b + c) / 2) * fac ((a - b + c) / 2) * fac ((a + b - c) / 2) * rfac ((a + b + c) / 2 + 1) *
  (fac ((a - d) / 2) * fac ((b - e) / 2) * fac ((c - f) / 2)) * (fac ((a + d) / 2) * fac ((b + e) / 2) * fac ((c + f) / 2))

/-- The sum of the 3j symbol in terms of its arguments. -/
def core3 (a b c d e f : ℤ) : ℚ :=
  sum3 ((a + b - c) / 2) ((a - d) / 2) ((b + e) / 2) ((c - b + d) / 2) ((c - a - e) / 2)

/-- The arguments are doubled angular momenta with matching projections, whose sum is an integer, and the projections add up
to zero. -/
def Int3 (a b c d e f : ℤ) : Prop :=
  d + e + f = 0 ∧ (a + b + c) % 2 = 0 ∧ (a + d) % 2 = 0 ∧ (b + e) % 2 = 0 ∧ (c + f) % 2 = 0

instance (a b c d e f : ℤ) : Decidable (Int3 a b c d e f) := by unfold Int3; infer_instance

/-- The 3j symbol `(a/2 b/2 c/2; d/2 e/2 f/2)`. -/
noncomputable def w3 (a b c d e f : ℤ) : ℝ :=
  if Int3 a b c d e f then sgn ((a - b - f) / 2) * (Real.sqrt (norm3 a b c d e f) * core3 a b c d e f) else 0

/-- The square of the triangle coefficient. -/
def delta (a b c : ℤ) : ℚ :=
  fac ((a + b - c) / 2) * fac ((b + c - a) / 2) * fac ((c + a - b) / 2) * rfac ((a + b + c) / 2 + 1)

/-- One term of the sum of the 6j symbol. -/
def term6 (s t u v p q r k : ℤ) : ℚ :=
  sgn k * (fac (k + 1) * rfac (k - s) * rfac (k - t) * rfac (k - u) * rfac (k - v) * rfac (p - k) * rfac (q - k) * rfac (r - k))

/-- The sum of the 6j symbol. -/
def sum6 (s t u v p q r : ℤ) : ℚ := ∑ k ∈ Finset.range (p.toNat + 1), term6 s t u v p q r k

/-- The sum of the 6j symbol in terms of its arguments. -/
def core6 (a b c d e f : ℤ) : ℚ :=
  sum6 ((a + b + c) / 2) ((a + e + f) / 2) ((d + b + f) / 2) ((d + e + c) / 2)
    ((a + b + d + e) / 2) ((b + c + e + f) / 2) ((a + c + d + f) / 2)

/-- The four triads have integer sums. -/
def Int6 (a b c d e f : ℤ) : Prop :=
  (a + b + c) % 2 = 0 ∧ (a + e + f) % 2 = 0 ∧ (d + b + f) % 2 = 0 ∧ (d + e + c) % 2 = 0

instance (a b c d e f : ℤ) : Decidable (Int6 a b c d e f) := by unfold Int6; infer_instance

/-- The square under the root of the 6j symbol. -/
def norm6 (a b c d e f : ℤ) : ℚ := delta a b c * delta a e f * delta d b f * delta d e c

/-- The 6j symbol `{a/2 b/2 c/2; d/2 e/2 f/2}`. -/
noncomputable def w6 (a b c d e f : ℤ) : ℝ :=
  if Int6 a b c d e f then Real.sqrt (norm6 a b c d e f) * core6 a b c d e f else 0

/-- The 3j symbol of quantum numbers given as fractions. -/
noncomputable def three (a b c d e f : ℚ) : ℝ := w3 ⌊2 * a⌋ ⌊2 * b⌋ ⌊2 * c⌋ ⌊2 * d⌋ ⌊2 * e⌋ ⌊2 * f⌋

/-- The 6j symbol of quantum numbers given as fractions. -/
noncomputable def six (a b c d e f : ℚ) : ℝ := w6 ⌊2 * a⌋ ⌊2 * b⌋ ⌊2 * c⌋ ⌊2 * d⌋ ⌊2 * e⌋ ⌊2 * f⌋

end AtomTk.Racah
