import Verif.Proofs.SixRec

/-! # The sum rule of the stretched 6j symbols -/

namespace AtomTk.Racah

/-- The summand. -/
def dgF (x m B E k : ℤ) : ℚ :=
  (x + m + 2 * k + 1) * (fac (x + k) * fac (x + m + k) * rfac (B + m + x + k + 1) * rfac (E + m + x + k + 1) * rfac (E - k) *
    rfac (B - k) * rfac k * rfac (m + k))

/-- The closed form. -/
def dgR (x m B E : ℤ) : ℚ := fac x * fac (B + E + m) * rfac (B + E + m + x + 1) * rfac E * rfac B * rfac (B + m) * rfac (E + m)

/-- The telescoping quantity. -/
def dgU (x m B E k : ℤ) : ℚ :=
  fac (x + k) * fac (x + m + k) * rfac (B + m + x + k) * rfac (E + 1 + m + x + k) * rfac (E + 1 - k) * rfac (B - k) * rfac (k - 1) * rfac (m + k - 1)

theorem dg_step {x m B E k : ℤ} (hx : 0 ≤ x) (hm : 0 ≤ m) (hk : 0 ≤ k) :
    ((B : ℚ) + E + m + x + 2) * (E + 1) * (E + m + 1) * dgF x m B (E + 1) k - (B + E + m + 1) * dgF x m B E k =
      dgU x m B E k - dgU x m B E (k + 1) := by
  unfold dgF dgU
  have e1 : fac (x + (k + 1)) = ((x : ℚ) + k + 1) * fac (x + k) := by
    rw [show x + (k + 1) = (x + k) + 1 by ring, fac_succ (by omega)]; push_cast; ring
  have e2 : fac (x + m + (k + 1)) = ((x : ℚ) + m + k + 1) * fac (x + m + k) := by
    rw [show x + m + (k + 1) = (x + m + k) + 1 by ring, fac_succ (by omega)]; push_cast; ring
  have e3 : rfac (B + m + x + k) = ((B : ℚ) + m + x + k + 1) * rfac (B + m + x + k + 1) := by
    rw [show B + m + x + k = (B + m + x + k + 1) - 1 by ring, rfac_pred]; push_cast; ring_nf
  have e4 : rfac (E + m + x + k + 1) = ((E : ℚ) + m + x + k + 2) * rfac (E + m + x + k + 2) := by
    rw [show E + m + x + k + 1 = (E + m + x + k + 2) - 1 by ring, rfac_pred]; push_cast; ring_nf
  have e5 : rfac (E - k) = ((E : ℚ) + 1 - k) * rfac (E + 1 - k) := by
    rw [show E - k = (E + 1 - k) - 1 by ring, rfac_pred]; push_cast; ring_nf
  have e6 : rfac (B - (k + 1)) = ((B : ℚ) - k) * rfac (B - k) := by
    rw [show B - (k + 1) = (B - k) - 1 by ring, rfac_pred]; push_cast; ring_nf
  have e7 : rfac (k - 1) = (k : ℚ) * rfac k := rfac_pred k
  have e8 : rfac (m + k - 1) = ((m : ℚ) + k) * rfac (m + k) := by rw [rfac_pred]; push_cast; ring
  rw [show B + m + x + (k + 1) = B + m + x + k + 1 by ring, show E + 1 + m + x + (k + 1) = E + m + x + k + 2 by ring,
    show E + 1 - (k + 1) = E - k by ring, show k + 1 - 1 = k by ring, show m + (k + 1) - 1 = m + k by ring,
    show E + 1 + m + x + k + 1 = E + m + x + k + 2 by ring, show E + 1 + m + x + k = E + m + x + k + 1 by ring, e1, e2, e3, e4, e5, e6, e7, e8]
  ring

theorem dougall (x m B E : ℕ) : ∑ k ∈ Finset.range (E + 1), dgF x m B E k = dgR x m B E := by
  induction E with
  | zero =>
    simp only [zero_add, Finset.range_one, Finset.sum_singleton]
    unfold dgF dgR
    have h1 : fac ((x : ℤ) + m + 1) = ((x : ℚ) + m + 1) * fac (x + m) := by
      rw [fac_succ (by omega)]; push_cast; ring
    have h2 : fac ((x : ℤ) + m + 1) ≠ 0 := (fac_pos (by omega)).ne'
    have h3 : fac ((B : ℤ) + m) ≠ 0 := (fac_pos (by omega)).ne'
    have h4 : rfac ((m : ℤ) + x + 1) = (fac ((x : ℤ) + m + 1))⁻¹ := by rw [rfac_eq, show (m : ℤ) + x + 1 = x + m + 1 by ring]
    have h5 : rfac ((B : ℤ) + m) = (fac ((B : ℤ) + m))⁻¹ := rfac_eq _
    have h6 : ((0 : ℕ) : ℤ) = 0 := rfl
    have h7 : rfac 0 = 1 := by rw [show (0 : ℤ) = ((0 : ℕ) : ℤ) by rfl, rfac_nat]; simp
    rw [h6]
    simp only [add_zero, zero_add, sub_zero, mul_zero, Int.cast_zero, Int.cast_natCast]
    rw [h4, h5, h7]
    have h8 : ((x : ℚ) + m + 1) * fac ((x : ℤ) + m) * (fac ((x : ℤ) + m + 1))⁻¹ = 1 := by rw [← h1]; exact mul_inv_cancel₀ h2
    have h9 : fac ((B : ℤ) + m) * (fac ((B : ℤ) + m))⁻¹ = 1 := mul_inv_cancel₀ h3
    linear_combination (fac x * rfac ((B : ℤ) + m + x + 1) * rfac B * rfac m) * (h8 - h9)
  | succ E ih =>
    have hs : ∑ k ∈ Finset.range (E + 1 + 1), (((B : ℚ) + E + m + x + 2) * (E + 1) * (E + m + 1) * dgF x m B (E + 1) k -
        (B + E + m + 1) * dgF x m B E k) = 0 := by
      have : ∀ k ∈ Finset.range (E + 1 + 1), (((B : ℚ) + E + m + x + 2) * (E + 1) * (E + m + 1) * dgF x m B (E + 1) k -
          (B + E + m + 1) * dgF x m B E k) = dgU x m B E k - dgU x m B E (k + 1 : ℕ) := by
        intro k _
        have := dg_step (x := x) (m := m) (B := B) (E := E) (k := k) (by omega) (by omega) (by omega)
        push_cast at this ⊢
        exact this
      rw [Finset.sum_congr rfl this]
      rw [Finset.sum_range_sub' (fun k : ℕ => dgU x m B E (k : ℤ))]
      have e1 : dgU x m B E ((0 : ℕ) : ℤ) = 0 := by
        unfold dgU
        rw [rfac_neg (n := ((0 : ℕ) : ℤ) - 1) (by omega)]; ring
      have e2 : dgU x m B E ((E + 1 + 1 : ℕ) : ℤ) = 0 := by
        unfold dgU
        rw [rfac_neg (n := (E : ℤ) + 1 - ((E + 1 + 1 : ℕ) : ℤ)) (by push_cast; omega)]; ring
      rw [e1, e2]; ring
    rw [Finset.sum_sub_distrib, ← Finset.mul_sum, ← Finset.mul_sum] at hs
    have hl : ∑ k ∈ Finset.range (E + 1 + 1), dgF x m B E k = dgR x m B E := by
      rw [Finset.sum_range_succ, ih]
      have : dgF x m B E ((E + 1 : ℕ) : ℤ) = 0 := by
        unfold dgF
        rw [rfac_neg (n := (E : ℤ) - ((E + 1 : ℕ) : ℤ)) (by push_cast; omega)]; ring
      rw [this, add_zero]
    rw [hl] at hs
    have hR : ((B : ℚ) + E + m + x + 2) * (E + 1) * (E + m + 1) * dgR x m B (E + 1) = (B + E + m + 1) * dgR x m B E := by
      unfold dgR
      have e1 : fac ((B : ℤ) + (E + 1) + m) = ((B : ℚ) + E + m + 1) * fac (B + E + m) := by
        rw [show (B : ℤ) + (E + 1) + m = (B + E + m) + 1 by ring, fac_succ (by omega)]; push_cast; ring
      have e2 : rfac ((B : ℤ) + E + m + x + 1) = ((B : ℚ) + E + m + x + 2) * rfac (B + (E + 1) + m + x + 1) := by
        rw [show (B : ℤ) + E + m + x + 1 = (B + (E + 1) + m + x + 1) - 1 by ring, rfac_pred]; push_cast; ring
      have e3 : rfac (E : ℤ) = ((E : ℚ) + 1) * rfac (E + 1) := by
        rw [show (E : ℤ) = (E + 1) - 1 by ring, rfac_pred]; push_cast; ring_nf
      have e4 : rfac ((E : ℤ) + m) = ((E : ℚ) + m + 1) * rfac (E + 1 + m) := by
        rw [show (E : ℤ) + m = (E + 1 + m) - 1 by ring, rfac_pred]; push_cast; ring
      rw [e1, e2, e3, e4]
      ring
    have hne : ((B : ℚ) + E + m + x + 2) * (E + 1) * (E + m + 1) ≠ 0 := by positivity
    have h2 : ((B : ℚ) + E + m + x + 2) * (E + 1) * (E + m + 1) * ∑ k ∈ Finset.range (E + 1 + 1), dgF x m B (E + 1) k =
        ((B : ℚ) + E + m + x + 2) * (E + 1) * (E + m + 1) * dgR x m B (E + 1) := by rw [hR]; linarith
    have := mul_left_cancel₀ hne h2
    push_cast
    exact this

end AtomTk.Racah
