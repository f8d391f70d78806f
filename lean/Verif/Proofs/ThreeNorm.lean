import Verif.Proofs.SixRec
import Verif.Proofs.SixSum
import Mathlib.Data.Nat.Choose.Sum
import Mathlib.Data.Rat.BigOperators
import Mathlib.Algebra.BigOperators.Field

/-! # The sum rule of 3j symbols -/

namespace AtomTk.Racah

/-- The quantity whose differences are the terms of the raising relation. -/
def ladU (p q r x y k : ℤ) : ℚ :=
  sgn k * (rfac (k - 1) * rfac (p - k) * rfac (q - k) * rfac (r + 1 - k) * rfac (x + k) * rfac (y - 1 + k))

theorem lad_term (p q r x y k : ℤ) :
    ((p : ℚ) + x + 1) * term3 p (q - 1) r (x + 1) y k + (r + 1) * term3 p q (r + 1) x (y - 1) k - (y + q) * term3 p q r x y k =
      ladU p q r x y k - ladU p q r x y (k + 1) := by
  have h1 : rfac (q - 1 - k) = (q - k) * rfac (q - k) := by
    have := rfac_pred (q - k); rw [show q - k - 1 = q - 1 - k by ring] at this; rw [this]; push_cast; ring
  have h2 : rfac (r - k) = (r + 1 - k) * rfac (r + 1 - k) := by
    have := rfac_pred (r + 1 - k); rw [show r + 1 - k - 1 = r - k by ring] at this; rw [this]; push_cast; ring
  have h3 : rfac (x + k) = (x + 1 + k) * rfac (x + 1 + k) := by
    have := rfac_pred (x + 1 + k); rw [show x + 1 + k - 1 = x + k by ring] at this; rw [this]; push_cast; ring
  have h4 : rfac (y - 1 + k) = (y + k) * rfac (y + k) := by
    have := rfac_pred (y + k); rw [show y + k - 1 = y - 1 + k by ring] at this; rw [this]; push_cast; ring
  have h5 : rfac (k - 1) = k * rfac k := rfac_pred k
  have h6 : rfac (p - (k + 1)) = (p - k) * rfac (p - k) := by
    have := rfac_pred (p - k); rw [show p - k - 1 = p - (k + 1) by ring] at this; rw [this]; push_cast; ring
  have h7 : rfac (q - (k + 1)) = (q - k) * rfac (q - k) := by
    rw [← h1]; congr 1; ring
  have h8 : rfac (r + 1 - (k + 1)) = (r + 1 - k) * rfac (r + 1 - k) := by
    rw [← h2]; congr 1; ring
  unfold term3 ladU
  rw [sgn_succ, h7, h8, h6, h1, h2, h5, show k + 1 - 1 = k by ring, show x + (k + 1) = x + 1 + k by ring,
    show y - 1 + (k + 1) = y + k by ring, h3, h4]
  ring

/-- The raising relation. -/
theorem sum3_up (p q r x y : ℤ) (hp : 0 ≤ p) :
    ((p : ℚ) + x + 1) * sum3 p (q - 1) r (x + 1) y + (r + 1) * sum3 p q (r + 1) x (y - 1) = (y + q) * sum3 p q r x y := by
  have h : ∀ N : ℕ, ∑ k ∈ Finset.range N, (((p : ℚ) + x + 1) * term3 p (q - 1) r (x + 1) y k + (r + 1) * term3 p q (r + 1) x (y - 1) k -
      (y + q) * term3 p q r x y k) = ladU p q r x y 0 - ladU p q r x y N := by
    intro N
    induction N with
    | zero => simp
    | succ N ih => rw [Finset.sum_range_succ, ih, lad_term]; push_cast; ring
  have h1 := h (p.toNat + 1)
  have e0 : ladU p q r x y 0 = 0 := by unfold ladU; rw [rfac_neg (n := 0 - 1) (by omega)]; ring
  have e1 : ladU p q r x y (p.toNat + 1 : ℕ) = 0 := by
    unfold ladU; rw [rfac_neg (n := p - (p.toNat + 1 : ℕ)) (by push_cast; omega)]; ring
  rw [e0, e1, Finset.sum_sub_distrib, Finset.sum_add_distrib, ← Finset.mul_sum, ← Finset.mul_sum, ← Finset.mul_sum] at h1
  unfold sum3
  linarith

theorem sum3_swap (p q r x y : ℤ) : sum3 p r q y x = sum3 p q r x y := by
  unfold sum3
  exact Finset.sum_congr rfl (fun k _ => by unfold term3; ring)

/-- The lowering relation. -/
theorem sum3_down (p q r x y : ℤ) (hp : 0 ≤ p) :
    ((p : ℚ) + y + 1) * sum3 p q (r - 1) x (y + 1) + (q + 1) * sum3 p (q + 1) r (x - 1) y = (x + r) * sum3 p q r x y := by
  rw [← sum3_swap p q (r - 1) x (y + 1), ← sum3_swap p (q + 1) r (x - 1) y, ← sum3_swap p q r x y]
  exact sum3_up p r q y x hp

/-- The sum in terms of `q = j₁ - m₁`, `t = j₂ - m₂`. -/
def lS (A B p q t : ℤ) : ℚ := sum3 p q (B + p - t) (A - q) (t - p)

/-- Its weight. -/
def lW (A B p q t : ℤ) : ℚ := fac q * fac (A + p - q) * (fac t * fac (B + p - t))

theorem sum3_none {p q r x y : ℤ} (h : ∀ k : ℤ, 0 ≤ k → k ≤ p → k ≤ q → k ≤ r → 0 ≤ x + k → 0 ≤ y + k → False) : sum3 p q r x y = 0 := by
  unfold sum3
  refine Finset.sum_eq_zero (fun k _ => ?_)
  unfold term3
  by_cases h1 : p - (k : ℤ) < 0
  · rw [rfac_neg h1]; ring
  by_cases h2 : q - (k : ℤ) < 0
  · rw [rfac_neg h2]; ring
  by_cases h3 : r - (k : ℤ) < 0
  · rw [rfac_neg h3]; ring
  by_cases h4 : x + (k : ℤ) < 0
  · rw [rfac_neg h4]; ring
  by_cases h5 : y + (k : ℤ) < 0
  · rw [rfac_neg h5]; ring
  exact absurd (h k (by omega) (by omega) (by omega) (by omega) (by omega) (by omega)) id

theorem lS_zero {A B p q t : ℤ} (h : q < 0 ∨ A + p < q ∨ t < 0 ∨ B + p < t) : lS A B p q t = 0 :=
  sum3_none (fun k _ _ _ _ _ _ => by omega)

theorem lS_up {A B p : ℤ} (hp : 0 ≤ p) (q t : ℤ) :
    ((A : ℚ) + p - q + 1) * lS A B p (q - 1) t + (B + p - t + 1) * lS A B p q (t - 1) = (q + t - p) * lS A B p q t := by
  have := sum3_up p q (B + p - t) (A - q) (t - p) hp
  unfold lS
  rw [show A - (q - 1) = A - q + 1 by ring, show B + p - (t - 1) = B + p - t + 1 by ring, show t - 1 - p = t - p - 1 by ring]
  push_cast at this
  linear_combination this

theorem lS_down {A B p : ℤ} (hp : 0 ≤ p) (q t : ℤ) :
    ((q : ℚ) + 1) * lS A B p (q + 1) t + (t + 1) * lS A B p q (t + 1) = (A + B + p - q - t) * lS A B p q t := by
  have := sum3_down p q (B + p - t) (A - q) (t - p) hp
  unfold lS
  rw [show A - (q + 1) = A - q - 1 by ring, show B + p - (t + 1) = B + p - t - 1 by ring, show t + 1 - p = t - p + 1 by ring]
  push_cast at this
  linear_combination this

theorem fac_pair {a b : ℤ} (ha : 0 ≤ a) (hb : 0 ≤ b) : fac a * fac (b + 1) * (a + 1) = fac (a + 1) * fac b * (b + 1) := by
  rw [fac_succ ha, fac_succ hb]; ring

/-- The sum of the squares for `n = j₁ - m₁ + j₂ - m₂`. -/
def lN (A B p n : ℤ) : ℚ := ∑ q ∈ Finset.range ((A + p).toNat + 1), lW A B p q (n - q) * lS A B p q (n - q) ^ 2

theorem lN_step {A B p : ℤ} (hp : 0 ≤ p) (n : ℤ) : ((n : ℚ) + 1 - p) * lN A B p (n + 1) = (A + B + p - n) * lN A B p n := by
  set R : ℕ := (A + p).toNat + 1 with hR
  -- the first of the two products of neighbours
  set X : ℕ → ℚ := fun q => lW A B p q (n + 1 - q) * lS A B p q (n + 1 - q) * (((A : ℚ) + p - q + 1) * lS A B p (q - 1) (n + 1 - q)) with hX
  set Y : ℕ → ℚ := fun q => lW A B p q (n - q) * lS A B p q (n - q) * (((q : ℚ) + 1) * lS A B p (q + 1) (n - q)) with hY
  set Z : ℕ → ℚ := fun q => lW A B p q (n + 1 - q) * lS A B p q (n + 1 - q) * (((B : ℚ) + p - (n + 1 - q) + 1) * lS A B p q (n - q)) with hZ
  have e1 : ((n : ℚ) + 1 - p) * lN A B p (n + 1) = ∑ q ∈ Finset.range R, X q + ∑ q ∈ Finset.range R, Z q := by
    unfold lN
    rw [← Finset.sum_add_distrib, Finset.mul_sum]
    refine Finset.sum_congr rfl (fun q _ => ?_)
    have := lS_up (A := A) (B := B) hp (q : ℤ) (n + 1 - q)
    rw [show n + 1 - (q : ℤ) - 1 = n - q by ring] at this
    simp only [hX, hZ]
    push_cast at this
    linear_combination (-1 : ℚ) * lW A B p q (n + 1 - q) * lS A B p q (n + 1 - q) * this
  have e2 : ((A : ℚ) + B + p - n) * lN A B p n = ∑ q ∈ Finset.range R, Y q + ∑ q ∈ Finset.range R, Z q := by
    unfold lN
    rw [← Finset.sum_add_distrib, Finset.mul_sum]
    refine Finset.sum_congr rfl (fun q _ => ?_)
    have := lS_down (A := A) (B := B) hp (q : ℤ) (n - q)
    rw [show n - (q : ℤ) + 1 = n + 1 - q by ring] at this
    have hz : Z q = lW A B p q (n - q) * lS A B p q (n - q) * (((n : ℚ) - q + 1) * lS A B p q (n + 1 - q)) := by
      simp only [hZ]
      by_cases h1 : n - (q : ℤ) < 0
      · rw [lS_zero (t := n - q) (by omega)]; ring
      by_cases h2 : B + p < n + 1 - (q : ℤ)
      · rw [lS_zero (t := n + 1 - q) (by omega)]; ring
      have := fac_pair (a := n - q) (b := B + p - (n + 1 - q)) (by omega) (by omega)
      rw [show n - (q : ℤ) + 1 = n + 1 - q by ring, show B + p - (n + 1 - (q : ℤ)) + 1 = B + p - (n - q) by ring] at this
      unfold lW
      push_cast at this
      linear_combination (-1 : ℚ) * fac q * fac (A + p - q) * lS A B p q (n + 1 - q) * lS A B p q (n - q) * this
    rw [hz]
    simp only [hY]
    push_cast at this
    linear_combination (-1 : ℚ) * lW A B p q (n - q) * lS A B p q (n - q) * this
  have e3 : ∑ q ∈ Finset.range R, X q = ∑ q ∈ Finset.range R, Y q := by
    rw [hR, Finset.sum_range_succ', Finset.sum_range_succ]
    have x0 : X 0 = 0 := by
      simp only [hX]
      rw [lS_zero (q := ((0 : ℕ) : ℤ) - 1) (by left; simp)]; ring
    have y0 : Y (A + p).toNat = 0 := by
      simp only [hY]
      rw [lS_zero (q := (((A + p).toNat : ℕ) : ℤ) + 1) (by omega)]; ring
    rw [x0, y0]
    congr 1
    refine Finset.sum_congr rfl (fun q hq => ?_)
    rw [Finset.mem_range] at hq
    simp only [hX, hY]
    rw [show (((q + 1 : ℕ) : ℤ)) - 1 = q by push_cast; ring, show n + 1 - ((q + 1 : ℕ) : ℤ) = n - q by push_cast; ring,
      show (((q + 1 : ℕ) : ℤ)) = (q : ℤ) + 1 by push_cast; ring]
    have := fac_pair (a := (q : ℤ)) (b := A + p - (q + 1)) (by omega) (by omega)
    rw [show A + p - ((q : ℤ) + 1) + 1 = A + p - q by ring] at this
    unfold lW
    push_cast at this ⊢
    linear_combination (-1 : ℚ) * (fac (n - q) * fac (B + p - (n - q))) * lS A B p (q + 1) (n - q) * lS A B p q (n - q) * this
  rw [e1, e2, e3]

/-- Vandermonde's sum. -/
theorem vander (A B p : ℕ) : ∑ q ∈ Finset.range (p + 1), (A + (p - q)).choose (p - q) * (B + q).choose q = (A + B + p + 1).choose p := by
  induction A generalizing p with
  | zero =>
    induction p with
    | zero => simp
    | succ p ih =>
      rw [Finset.sum_range_succ]
      have e : ∑ q ∈ Finset.range (p + 1), (0 + (p + 1 - q)).choose (p + 1 - q) * (B + q).choose q =
          ∑ q ∈ Finset.range (p + 1), (0 + (p - q)).choose (p - q) * (B + q).choose q :=
        Finset.sum_congr rfl (fun q _ => by simp)
      rw [e, ih]
      rw [show 0 + B + (p + 1) + 1 = (0 + B + p + 1) + 1 by ring, Nat.choose_succ_succ]
      simp
      ring_nf
  | succ A ihA =>
    induction p with
    | zero => simp
    | succ p ih =>
      have e : ∑ q ∈ Finset.range (p + 1 + 1), (A + 1 + (p + 1 - q)).choose (p + 1 - q) * (B + q).choose q =
          (∑ q ∈ Finset.range (p + 1 + 1), (A + (p + 1 - q)).choose (p + 1 - q) * (B + q).choose q) +
          ∑ q ∈ Finset.range (p + 1), (A + 1 + (p - q)).choose (p - q) * (B + q).choose q := by
        rw [Finset.sum_range_succ, Finset.sum_range_succ _ (p + 1)]
        refine Eq.trans ?_ (add_right_comm _ _ _)
        rw [← Finset.sum_add_distrib]
        congr 1
        · refine Finset.sum_congr rfl (fun q hq => ?_)
          rw [Finset.mem_range] at hq
          obtain ⟨m, hm⟩ : ∃ m, p - q = m := ⟨_, rfl⟩
          rw [show p + 1 - q = m + 1 by omega, hm, show A + 1 + (m + 1) = (A + 1 + m) + 1 by ring, Nat.choose_succ_succ,
            show A + (m + 1) = A + 1 + m by ring]
          ring
        · simp
      rw [e, ih, ihA, show A + 1 + B + (p + 1) + 1 = (A + B + (p + 1) + 1) + 1 by ring, Nat.choose_succ_succ, add_comm]
      congr 2
      ring

theorem lS_base {A B p q : ℕ} (hq : q ≤ p) : lS A B p q ((p : ℤ) - q) = sgn q * (rfac q * rfac ((p : ℤ) - q) * rfac B * rfac A) := by
  have r0 : rfac 0 = 1 := by rw [show (0 : ℤ) = ((0 : ℕ) : ℤ) by rfl, rfac_nat]; simp
  unfold lS sum3
  rw [Finset.sum_eq_single_of_mem q (by rw [Finset.mem_range]; omega)]
  · unfold term3
    rw [show (q : ℤ) - q = 0 by ring, show (B : ℤ) + p - (p - q) - q = B by ring, show (A : ℤ) - q + q = A by ring,
      show (p : ℤ) - q - p + q = 0 by ring, r0]
    ring
  · intro k _ hk
    unfold term3
    by_cases h : (q : ℤ) - k < 0
    · rw [rfac_neg h]; ring
    · rw [rfac_neg (n := (p : ℤ) - q - p + k) (by omega)]; ring

theorem choose_fac (a b : ℕ) : ((a + b).choose b : ℚ) * (a.factorial * b.factorial) = ((a + b).factorial : ℚ) := by
  have := Nat.add_choose_mul_factorial_mul_factorial a b
  have h3 : (((a + b).choose b * a.factorial * b.factorial : ℕ) : ℚ) = ((a + b).factorial : ℚ) := by rw [this]
  push_cast at h3
  linarith

theorem lN_base (A B p : ℕ) : lN A B p p * ((p.factorial : ℚ) * (A + B + 1).factorial * A.factorial * B.factorial) = ((A + B + p + 1).factorial : ℚ) := by
  have hp := Nat.factorial_pos p
  have hA := Nat.factorial_pos A
  have hB := Nat.factorial_pos B
  have e : lN A B p p = ∑ q ∈ Finset.range (p + 1), ((((A + (p - q)).choose (p - q) * (B + q).choose q : ℕ) : ℚ) / (A.factorial * B.factorial)) := by
    unfold lN
    have hsub : Finset.range (p + 1) ⊆ Finset.range (((A : ℤ) + p).toNat + 1) := by
      intro q hq
      rw [Finset.mem_range] at hq ⊢
      omega
    rw [← Finset.sum_subset hsub]
    · refine Finset.sum_congr rfl (fun q hq => ?_)
      rw [Finset.mem_range] at hq
      obtain ⟨m, rfl⟩ : ∃ m, p = q + m := ⟨p - q, by omega⟩
      rw [lS_base (by omega)]
      unfold lW
      rw [show ((q + m : ℕ) : ℤ) - q = (m : ℤ) by push_cast; ring, show (A : ℤ) + (q + m : ℕ) - q = ((A + m : ℕ) : ℤ) by push_cast; ring,
        show (B : ℤ) + (q + m : ℕ) - m = ((B + q : ℕ) : ℤ) by push_cast; ring, show q + m - q = m by omega]
      simp only [fac_nat, rfac_nat]
      rw [← choose_fac A m, ← choose_fac B q]
      have h1 := Nat.factorial_pos m
      have h2 := Nat.factorial_pos q
      have h3 : sgn (q : ℤ) ^ 2 = 1 := by rw [sq, sgn_sq]
      have e : ∀ x : ℚ, (sgn (q : ℤ) * x) ^ 2 = x ^ 2 := fun x => by rw [mul_pow, h3, one_mul]
      rw [e]
      push_cast
      field_simp
    · intro q _ hq
      rw [Finset.mem_range] at hq
      unfold lW
      rw [fac_neg (n := (p : ℤ) - q) (by omega)]
      ring
  rw [e, ← Finset.sum_div, ← Nat.cast_sum, vander]
  have := choose_fac (A + B + 1) p
  rw [show A + B + 1 + p = A + B + p + 1 by ring] at this
  rw [← this]
  field_simp

/-- The sum of squares of the 3j symbol's sums, for each third projection. -/
theorem lN_all (A B p i : ℕ) (hi : i ≤ A + B) : lN A B p ((p : ℤ) + i) * (fac i * fac ((A : ℤ) + B - i)) = lN A B p p * ((A + B).factorial : ℚ) := by
  induction i with
  | zero =>
    rw [show ((p : ℤ) + (0 : ℕ)) = p by simp, show (A : ℤ) + B - (0 : ℕ) = ((A + B : ℕ) : ℤ) by push_cast; ring, fac_nat, fac_nat]
    simp
  | succ i ih =>
    have ih := ih (by omega)
    have hs := lN_step (A := (A : ℤ)) (B := (B : ℤ)) (p := (p : ℤ)) (by omega) ((p : ℤ) + i)
    rw [show ((p : ℤ) + (i + 1 : ℕ)) = (p : ℤ) + i + 1 by push_cast; ring]
    obtain ⟨m, hm⟩ : ∃ m : ℕ, A + B = i + 1 + m := ⟨A + B - (i + 1), by omega⟩
    have hm' : (A : ℤ) + B = i + 1 + m := by exact_mod_cast hm
    have hm'' : (A : ℚ) + B = i + 1 + m := by exact_mod_cast hm
    rw [← ih, show (A : ℤ) + B - (i + 1 : ℕ) = m by push_cast; linarith, show (A : ℤ) + B - i = (m : ℤ) + 1 by linarith,
      show (((i + 1 : ℕ)) : ℤ) = (i : ℤ) + 1 by push_cast; ring, fac_succ (by omega), fac_succ (by omega)]
    push_cast at hs ⊢
    linear_combination (fac i * fac m) * hs + (fac i * fac m) * lN A B p ((p : ℤ) + i) * hm''

/-- The sum rule: over the first projection at fixed third. -/
theorem w3_norm {a b c f : ℤ} (h : Tri a b c) (hf : |f| ≤ c) (hc : (c + f) % 2 = 0) :
    ∑ q ∈ Finset.range (a.toNat + 1), ((c : ℝ) + 1) * w3 a b c (a - 2 * q) (2 * q - a - f) f ^ 2 = 1 := by
  obtain ⟨h1, h2, h3⟩ := h
  rw [abs_le] at h2 hf
  obtain ⟨p, hp⟩ : ∃ p : ℕ, 2 * (p : ℤ) = a + b - c := ⟨((a + b - c) / 2).toNat, by omega⟩
  obtain ⟨A, hA⟩ : ∃ A : ℕ, 2 * (A : ℤ) = a + c - b := ⟨((a + c - b) / 2).toNat, by omega⟩
  obtain ⟨B, hB⟩ : ∃ B : ℕ, 2 * (B : ℤ) = b + c - a := ⟨((b + c - a) / 2).toNat, by omega⟩
  obtain ⟨i, hi⟩ : ∃ i : ℕ, 2 * (i : ℤ) = c + f := ⟨((c + f) / 2).toNat, by omega⟩
  obtain rfl : a = A + p := by omega
  obtain rfl : b = B + p := by omega
  obtain rfl : c = A + B := by omega
  obtain rfl : f = 2 * i - A - B := by omega
  have key : ∀ q : ℕ, ((((A : ℤ) + B : ℤ) : ℝ) + 1) * w3 (A + p) (B + p) (A + B) (A + p - 2 * q) (2 * q - (A + p) - (2 * i - A - B)) (2 * i - A - B) ^ 2 =
      (((A + B + 1) * (fac B * fac A * fac p * rfac ((A : ℤ) + B + p + 1) * (fac i * fac ((A : ℤ) + B - i))) *
        (lW A B p q ((p : ℤ) + i - q) * lS A B p q ((p : ℤ) + i - q) ^ 2) : ℚ) : ℝ) := by
    intro q
    rw [w3_sq, if_pos (by unfold Int3; omega)]
    unfold norm3 core3 lW lS
    rw [show (-((A : ℤ) + p) + (B + p) + (A + B)) / 2 = B by omega, show ((A : ℤ) + p - (B + p) + (A + B)) / 2 = A by omega,
      show ((A : ℤ) + p + (B + p) - (A + B)) / 2 = p by omega, show ((A : ℤ) + p + (B + p) + (A + B)) / 2 + 1 = (A : ℤ) + B + p + 1 by omega,
      show ((A : ℤ) + p - (A + p - 2 * q)) / 2 = q by omega, show ((A : ℤ) + p + (A + p - 2 * q)) / 2 = A + p - q by omega,
      show ((B : ℤ) + p - (2 * q - (A + p) - (2 * i - A - B))) / 2 = p + i - q by omega,
      show ((B : ℤ) + p + (2 * q - (A + p) - (2 * i - A - B))) / 2 = B + p - (p + i - q) by omega,
      show ((A : ℤ) + B - (2 * i - A - B)) / 2 = A + B - i by omega, show ((A : ℤ) + B + (2 * i - A - B)) / 2 = i by omega,
      show ((A : ℤ) + B - (B + p) + (A + p - 2 * q)) / 2 = A - q by omega,
      show ((A : ℤ) + B - (A + p) - (2 * q - (A + p) - (2 * i - A - B))) / 2 = p + i - q - p by omega]
    push_cast
    ring
  rw [Finset.sum_congr rfl (fun q _ => key q), ← Rat.cast_sum, ← Finset.mul_sum]
  have e1 : ∑ q ∈ Finset.range (((A : ℤ) + p).toNat + 1), lW A B p q ((p : ℤ) + i - q) * lS A B p q ((p : ℤ) + i - q) ^ 2 = lN A B p ((p : ℤ) + i) := rfl
  rw [e1]
  have e2 := lN_all A B p i (by omega)
  have e3 := lN_base A B p
  have r1 : rfac ((A : ℤ) + B + p + 1) = 1 / ((A + B + p + 1).factorial : ℚ) := by
    rw [show (A : ℤ) + B + p + 1 = ((A + B + p + 1 : ℕ) : ℤ) by push_cast; ring, rfac_nat]
  have hq : ((A : ℚ) + B + 1) * (fac B * fac A * fac p * rfac ((A : ℤ) + B + p + 1) * (fac i * fac ((A : ℤ) + B - i))) * lN A B p ((p : ℤ) + i) = 1 := by
    have : ((A : ℚ) + B + 1) * (fac B * fac A * fac p * rfac ((A : ℤ) + B + p + 1) * (fac i * fac ((A : ℤ) + B - i))) * lN A B p ((p : ℤ) + i) =
        ((A : ℚ) + B + 1) * (fac B * fac A * fac p * rfac ((A : ℤ) + B + p + 1)) * (lN A B p ((p : ℤ) + i) * (fac i * fac ((A : ℤ) + B - i))) := by ring
    rw [this, e2, r1, fac_nat, fac_nat, fac_nat]
    have hne : ((A + B + p + 1).factorial : ℚ) ≠ 0 := by
      have := Nat.factorial_pos (A + B + p + 1); positivity
    rw [Nat.factorial_succ (A + B)] at e3
    push_cast at e3
    field_simp
    linear_combination e3
  rw [hq]
  norm_num

end AtomTk.Racah
