import Verif.Spec.Racah

/-! # The 9j symbol -/

namespace AtomTk.Racah

/-- The 9j symbol `{a/2 b/2 c/2; d/2 e/2 f/2; g/2 h/2 i/2}` as a sum over 6j symbols. -/
noncomputable def w9 (a b c d e f g h i : ℤ) : ℝ :=
  ∑ x ∈ Finset.range ((a + i).toNat + 1), (sgn x : ℝ) * (x + 1) * (w6 a b c f i x * w6 d e f b x h * w6 g h i x a d)

/-- The 9j symbol of quantum numbers given as fractions. -/
noncomputable def nine (a b c d e f g h i : ℚ) : ℝ :=
  w9 ⌊2 * a⌋ ⌊2 * b⌋ ⌊2 * c⌋ ⌊2 * d⌋ ⌊2 * e⌋ ⌊2 * f⌋ ⌊2 * g⌋ ⌊2 * h⌋ ⌊2 * i⌋

end AtomTk.Racah
