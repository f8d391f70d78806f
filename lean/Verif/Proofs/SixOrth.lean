import Verif.Proofs.Dougall
import Mathlib.Data.Rat.BigOperators
import Mathlib.Algebra.BigOperators.Field

/-! # Orthogonality of the 6j symbols -/

namespace AtomTk.Racah

theorem sum6_zero {s t u v p q r : ℤ} (h : ∀ k : ℤ, k < s ∨ k < t ∨ k < u ∨ k < v ∨ p < k ∨ q < k ∨ r < k) : sum6 s t u v p q r = 0 := by
  unfold sum6
  refine Finset.sum_eq_zero (fun k _ => ?_)
  rcases h k with h | h | h | h | h | h | h
  · exact term6_low (by omega)
  · exact term6_low (by omega)
  · exact term6_low (by omega)
  · exact term6_low (by omega)
  · exact term6_out (by omega)
  · exact term6_out (by omega)
  · exact term6_out (by omega)

theorem core6_zero {a b c d e f : ℤ} (hi : Int6 a b c d e f) (h : ¬(Tri a e f ∧ Tri d b f)) : core6 a b c d e f = 0 := by
  obtain ⟨h1, h2, h3, h4⟩ := hi
  have h' : a + e < f ∨ e + f < a ∨ a + f < e ∨ d + b < f ∨ b + f < d ∨ d + f < b := by
    by_contra hn
    refine h ⟨⟨h2, ?_, by omega⟩, ⟨h3, ?_, by omega⟩⟩ <;> (rw [abs_le]; constructor <;> omega)
  unfold core6
  refine sum6_zero (fun k => ?_)
  omega

/-- The half-integer's `j(j+1)`. -/
def cas (c : ℤ) : ℚ := (c : ℚ) / 2 * ((c : ℚ) / 2 + 1)

theorem rfac_zero : rfac 0 = 1 := by rw [show (0 : ℤ) = ((0 : ℕ) : ℤ) by rfl, rfac_nat]; simp
theorem rfac_one : rfac 1 = 1 := by rw [show (1 : ℤ) = ((1 : ℕ) : ℤ) by rfl, rfac_nat]; simp

/-- The recurrence at zero. -/
theorem core6_zero_two {a b c : ℤ} (h : (a + b + c) % 2 = 0) (h0 : 0 ≤ a + b + c) :
    core6 a b c b a 2 = (2 * cas c - 2 * cas a - 2 * cas b) * core6 a b c b a 0 := by
  obtain ⟨s, hs⟩ : ∃ s : ℕ, a + b + c = 2 * s := ⟨((a + b + c) / 2).toNat, by omega⟩
  unfold core6
  rw [show (a + b + c) / 2 = (s : ℤ) by omega, show (a + a + 2) / 2 = a + 1 by omega, show (b + b + 2) / 2 = b + 1 by omega,
    show (b + a + c) / 2 = (s : ℤ) by omega, show (a + b + b + a) / 2 = a + b by omega, show (b + c + a + 2) / 2 = (s : ℤ) + 1 by omega,
    show (a + c + b + 2) / 2 = (s : ℤ) + 1 by omega, show (a + a + 0) / 2 = a by omega, show (b + b + 0) / 2 = b by omega,
    show (b + c + a + 0) / 2 = (s : ℤ) by omega, show (a + c + b + 0) / 2 = (s : ℤ) by omega]
  rw [sum6_bound _ _ _ _ _ _ _ (s + 2) (by omega), sum6_bound _ _ _ _ _ _ _ (s + 1) (by omega)]
  rw [Finset.sum_range_succ, Finset.sum_range_succ, Finset.sum_range_succ]
  rw [Finset.sum_eq_zero (s := Finset.range s) (fun k hk => term6_low (by simp at hk; omega)),
    Finset.sum_eq_zero (s := Finset.range s) (fun k hk => term6_low (by simp at hk; omega))]
  unfold term6
  have e0 : fac (((s + 1 : ℕ) : ℤ) + 1) = ((s : ℚ) + 2) * fac ((s : ℤ) + 1) := by
    rw [fac_succ (by omega)]; push_cast; ring
  have e1 : rfac ((s : ℤ) - (a + 1)) = ((s : ℚ) - a) * rfac (s - a) := by
    rw [show (s : ℤ) - (a + 1) = (s - a) - 1 by ring, rfac_pred]; push_cast; ring
  have e2 : rfac ((s : ℤ) - (b + 1)) = ((s : ℚ) - b) * rfac (s - b) := by
    rw [show (s : ℤ) - (b + 1) = (s - b) - 1 by ring, rfac_pred]; push_cast; ring
  have e3 : rfac (a + b - ((s + 1 : ℕ) : ℤ)) = ((a : ℚ) + b - s) * rfac (a + b - s) := by
    rw [show a + b - ((s + 1 : ℕ) : ℤ) = (a + b - s) - 1 by push_cast; ring, rfac_pred]; push_cast; ring
  have hc : (c : ℚ) = 2 * s - a - b := by
    have : c = 2 * s - a - b := by omega
    rw [this]; push_cast; ring
  rw [e0, e1, e2, e3]
  rw [show ((s + 1 : ℕ) : ℤ) - (s : ℤ) = 1 by push_cast; ring, show ((s + 1 : ℕ) : ℤ) - (a + 1) = s - a by push_cast; ring,
    show ((s + 1 : ℕ) : ℤ) - (b + 1) = s - b by push_cast; ring, show (s : ℤ) + 1 - ((s + 1 : ℕ) : ℤ) = 0 by push_cast; ring,
    show (s : ℤ) - s = 0 by ring, show (s : ℤ) + 1 - s = 1 by ring, rfac_zero, rfac_one,
    show ((s + 1 : ℕ) : ℤ) = (s : ℤ) + 1 by push_cast; ring, sgn_succ]
  unfold cas
  rw [hc]
  ring

theorem delta_step {a e f : ℤ} (h : Tri a e (f - 2)) (h' : Tri a e f) :
    delta a e f * (((a : ℚ) / 2 + e / 2 + 1 - f / 2) * ((a : ℚ) / 2 + e / 2 + 1 + f / 2)) =
    delta a e (f - 2) * (((f : ℚ) / 2 + a / 2 - e / 2) * ((f : ℚ) / 2 - a / 2 + e / 2)) := by
  obtain ⟨h1, h2, h3⟩ := h
  obtain ⟨g1, g2, g3⟩ := h'
  rw [abs_le] at h2
  unfold delta
  obtain ⟨x, hx⟩ : ∃ x : ℤ, a + e - f = 2 * x := ⟨(a + e - f) / 2, by omega⟩
  obtain ⟨y, hy⟩ : ∃ y : ℤ, e + (f - 2) - a = 2 * y := ⟨(e + (f - 2) - a) / 2, by omega⟩
  obtain ⟨z, hz⟩ : ∃ z : ℤ, (f - 2) + a - e = 2 * z := ⟨((f - 2) + a - e) / 2, by omega⟩
  rw [show (a + e - (f - 2)) / 2 = x + 1 by omega, show (a + e - f) / 2 = x by omega, show (e + (f - 2) - a) / 2 = y by omega,
    show (e + f - a) / 2 = y + 1 by omega, show ((f - 2) + a - e) / 2 = z by omega, show (f + a - e) / 2 = z + 1 by omega,
    show (a + e + (f - 2)) / 2 + 1 = (x + y + z + 3) - 1 by omega, show (a + e + f) / 2 + 1 = x + y + z + 3 by omega, rfac_pred,
    fac_succ (n := x) (by omega), fac_succ (n := y) (by omega), fac_succ (n := z) (by omega)]
  have hf : f = y + z + 2 := by omega
  have ha : a = x + z + 1 := by omega
  have he : e = x + y + 1 := by omega
  rw [hf, ha, he]
  push_cast
  ring

/-- The sum where it is meant, zero for impossible parities. -/
def oS (a b c d e f : ℤ) : ℚ := if (a + e + f) % 2 = 0 then core6 a b c d e f else 0

/-- The weight. -/
def oW (a b d e f : ℤ) : ℚ := delta a e f * delta d b f

/-- See `oT`. -/
def oY (a b d e : ℤ) (j : ℚ) : ℚ :=
  (j + 1 + (a : ℚ) / 2 - (e : ℚ) / 2) * (j + 1 - (a : ℚ) / 2 + (e : ℚ) / 2) * (j + 1 + (d : ℚ) / 2 - (b : ℚ) / 2) * (j + 1 - (d : ℚ) / 2 + (b : ℚ) / 2)

/-- The Wronskian. -/
def oT (a b c c' d e f : ℤ) : ℚ :=
  oW a b d e f * oY a b d e ((f : ℚ) / 2) / ((f : ℚ) / 2 + 1) *
    (oS a b c d e (f + 2) * oS a b c' d e f - oS a b c' d e (f + 2) * oS a b c d e f)

theorem oS_zero {a b c d e f : ℤ} (h1 : (a + b + c) % 2 = 0) (h2 : (d + e + c) % 2 = 0) (h : ¬(Tri a e f ∧ Tri d b f)) :
    oS a b c d e f = 0 := by
  unfold oS
  split
  · rename_i hp
    exact core6_zero ⟨h1, hp, by omega, h2⟩ h
  · rfl

theorem oT_step {a b c c' d e f : ℤ} (h1 : (a + b + c) % 2 = 0) (h2 : (d + e + c) % 2 = 0) (h0 : 0 ≤ a + b + c)
    (h1' : (a + b + c') % 2 = 0) (h2' : (d + e + c') % 2 = 0) (h0' : 0 ≤ a + b + c') (hf : 0 ≤ f) :
    oT a b c c' d e f - oT a b c c' d e (f - 2) =
      2 * (cas c - cas c') * (f + 1) * (oW a b d e f * (oS a b c d e f * oS a b c' d e f)) := by
  by_cases ht : Tri a e f ∧ Tri d b f
  swap
  · have e1 := oS_zero h1 h2 ht
    have e2 := oS_zero h1' h2' ht
    unfold oT
    rw [show f - 2 + 2 = f by ring, e1, e2]
    ring
  obtain ⟨ht1, ht2⟩ := ht
  have hi : Int6 a b c d e f := ⟨h1, ht1.1, ht2.1, h2⟩
  have hi' : Int6 a b c' d e f := ⟨h1', ht1.1, ht2.1, h2'⟩
  have hp := ht1.1
  have o1 : ∀ c, oS a b c d e (f + 2) = core6 a b c d e (f + 2) := fun c => if_pos (by omega)
  have o2 : ∀ c, oS a b c d e f = core6 a b c d e f := fun c => if_pos (by omega)
  have o3 : ∀ c, oS a b c d e (f - 2) = core6 a b c d e (f - 2) := fun c => if_pos (by omega)
  rcases hf.lt_or_eq with hf0 | hf0
  · have r := core6_rec hi h0
    have r' := core6_rec hi' h0'
    have hj : (f : ℚ) / 2 ≠ 0 := by
      have : (0 : ℚ) < f := by exact_mod_cast hf0
      positivity
    have hj1 : (f : ℚ) / 2 + 1 ≠ 0 := by
      have : (0 : ℚ) < f := by exact_mod_cast hf0
      positivity
    -- the previous weight
    have key : ∀ c, (a + b + c) % 2 = 0 → (d + e + c) % 2 = 0 →
        oW a b d e f * (((a : ℚ)/2+e/2+1-f/2)*((a : ℚ)/2+e/2+1+f/2)*((d : ℚ)/2+b/2+1-f/2)*((d : ℚ)/2+b/2+1+f/2)) * core6 a b c d e (f - 2) =
        oW a b d e (f - 2) * oY a b d e ((f : ℚ) / 2 - 1) * core6 a b c d e (f - 2) := by
      intro c k1 k2
      by_cases ht' : Tri a e (f - 2) ∧ Tri d b (f - 2)
      · congr 1
        have d1 := delta_step ht'.1 ht1
        have d2 := delta_step ht'.2 ht2
        unfold oW oY
        calc _ = (delta a e f * (((a : ℚ) / 2 + e / 2 + 1 - f / 2) * ((a : ℚ) / 2 + e / 2 + 1 + f / 2))) *
              (delta d b f * (((d : ℚ) / 2 + b / 2 + 1 - f / 2) * ((d : ℚ) / 2 + b / 2 + 1 + f / 2))) := by ring
          _ = _ := by rw [d1, d2]; ring
      · rw [core6_zero ⟨k1, by omega, by omega, k2⟩ ht']
        ring
    have k := key c h1 h2
    have k' := key c' h1' h2'
    unfold oT
    rw [show f - 2 + 2 = f by ring, o1, o1, o2, o2, o3, o3]
    rw [show (((f - 2 : ℤ) : ℚ)) / 2 = (f : ℚ) / 2 - 1 by push_cast; ring]
    have hA : recA ((a : ℚ) / 2) (b / 2) (d / 2) (e / 2) (f / 2) = f / 2 * oY a b d e ((f : ℚ) / 2) := by
      unfold recA oY; ring
    have hC : recC ((a : ℚ) / 2) (b / 2) (d / 2) (e / 2) (f / 2) =
        ((f : ℚ) / 2 + 1) * (((a : ℚ)/2+e/2+1-f/2)*((a : ℚ)/2+e/2+1+f/2)*((d : ℚ)/2+b/2+1-f/2)*((d : ℚ)/2+b/2+1+f/2)) := by
      unfold recC; ring
    have hB : recB ((a : ℚ) / 2) (b / 2) (c / 2) (d / 2) (e / 2) (f / 2) - recB ((a : ℚ) / 2) (b / 2) (c' / 2) (d / 2) (e / 2) (f / 2) =
        -2 * (cas c - cas c') * (f + 1) * ((f : ℚ) / 2 * ((f : ℚ) / 2 + 1)) := by
      unfold recB cas; ring
    rw [hA, hC] at r r'
    rw [show (f : ℚ) / 2 - 1 + 1 = (f : ℚ) / 2 by ring]
    generalize oY a b d e ((f : ℚ) / 2) = Y at *
    generalize oY a b d e ((f : ℚ) / 2 - 1) = Y1 at *
    generalize recB ((a : ℚ) / 2) (b / 2) (c / 2) (d / 2) (e / 2) (f / 2) = B at *
    generalize recB ((a : ℚ) / 2) (b / 2) (c' / 2) (d / 2) (e / 2) (f / 2) = B' at *
    generalize (((a : ℚ)/2+e/2+1-f/2)*((a : ℚ)/2+e/2+1+f/2)*((d : ℚ)/2+b/2+1-f/2)*((d : ℚ)/2+b/2+1+f/2)) = X at *
    generalize core6 a b c d e (f + 2) = x at *
    generalize core6 a b c' d e (f + 2) = x' at *
    generalize core6 a b c d e f = y at *
    generalize core6 a b c' d e f = y' at *
    generalize core6 a b c d e (f - 2) = z at *
    generalize core6 a b c' d e (f - 2) = z' at *
    generalize oW a b d e f = w at *
    generalize oW a b d e (f - 2) = w1 at *
    generalize cas c - cas c' = D at *
    generalize (f : ℚ) / 2 = N at *
    have hN : N * (N + 1) ≠ 0 := mul_ne_zero hj hj1
    apply mul_left_cancel₀ hN
    have e1 : N * (N + 1) * (w * Y / (N + 1) * (x * y' - x' * y) - w1 * Y1 / N * (y * z' - y' * z)) =
        N * w * Y * (x * y' - x' * y) - (N + 1) * w1 * Y1 * (y * z' - y' * z) := by
      field_simp
    rw [e1]
    linear_combination w * y' * r - w * y * r' - w * y * y' * hB - (N + 1) * y' * k + (N + 1) * y * k'
  · subst hf0
    have ha : a = e := by
      have := ht1.2.1
      rw [abs_le] at this
      omega
    have hd : d = b := by
      have := ht2.2.1
      rw [abs_le] at this
      omega
    subst ha hd
    have z1 := core6_zero_two (a := a) (b := d) (c := c) h1 h0
    have z2 := core6_zero_two (a := a) (b := d) (c := c') h1' h0'
    have n1 := oS_zero (a := a) (b := d) (c := c) (d := d) (e := a) (f := 0 - 2) h1 h2 (by
      rintro ⟨⟨_, h, _⟩, _⟩; have := abs_nonneg (a - a); omega)
    have n2 := oS_zero (a := a) (b := d) (c := c') (d := d) (e := a) (f := 0 - 2) h1' h2' (by
      rintro ⟨⟨_, h, _⟩, _⟩; have := abs_nonneg (a - a); omega)
    have t2 : oT a d c c' d a (0 - 2) = 0 := by
      unfold oT; rw [n1, n2]; ring
    rw [t2, sub_zero]
    unfold oT
    rw [o1, o1, o2, o2]
    rw [show (0 : ℤ) + 2 = 2 by rfl, z1, z2]
    unfold oY
    push_cast
    ring

theorem oT_sum {a b c c' d e : ℤ} (h1 : (a + b + c) % 2 = 0) (h2 : (d + e + c) % 2 = 0) (h0 : 0 ≤ a + b + c)
    (h1' : (a + b + c') % 2 = 0) (h2' : (d + e + c') % 2 = 0) (h0' : 0 ≤ a + b + c') (N : ℕ) :
    ∑ f ∈ Finset.range N, (2 * (cas c - cas c') * ((f : ℤ) + 1) * (oW a b d e f * (oS a b c d e f * oS a b c' d e f))) =
      oT a b c c' d e (N - 1) + oT a b c c' d e (N - 2) := by
  have neg : ∀ f : ℤ, f < 0 → oT a b c c' d e f = 0 := by
    intro f hf
    have hn : ¬(Tri a e f ∧ Tri d b f) := by
      rintro ⟨⟨_, h, _⟩, _⟩; have := abs_nonneg (a - e); omega
    unfold oT
    rw [oS_zero h1 h2 hn, oS_zero h1' h2' hn]; ring
  induction N with
  | zero => simp [neg]
  | succ N ih =>
    rw [Finset.sum_range_succ, ih]
    have := oT_step h1 h2 h0 h1' h2' h0' (f := (N : ℤ)) (by omega)
    push_cast at this ⊢
    rw [← this, show (N : ℤ) + 1 - 1 = N by ring, show (N : ℤ) + 1 - 2 = N - 1 by ring]
    ring

/-- Different rows are orthogonal (in terms of Racah's sums). -/
theorem oS_orth {a b c c' d e : ℤ} (h1 : (a + b + c) % 2 = 0) (h2 : (d + e + c) % 2 = 0) (h1' : (a + b + c') % 2 = 0) (h2' : (d + e + c') % 2 = 0)
    (ha : 0 ≤ a + b) (hc : 0 ≤ c) (hc' : 0 ≤ c') (hne : c ≠ c') (N : ℕ) (hN : a + e < N) :
    ∑ f ∈ Finset.range N, (((f : ℤ) + 1) * (oW a b d e f * (oS a b c d e f * oS a b c' d e f)) : ℚ) = 0 := by
  have big : ∀ f : ℤ, a + e < f + 2 → oT a b c c' d e f = 0 := by
    intro f hf
    have hn : ¬(Tri a e (f + 2) ∧ Tri d b (f + 2)) := by
      rintro ⟨⟨_, _, h⟩, _⟩; omega
    unfold oT
    rw [oS_zero h1 h2 hn, oS_zero h1' h2' hn]; ring
  have hs := oT_sum h1 h2 (by omega) h1' h2' (by omega) N
  rw [big _ (by omega), big _ (by omega), add_zero] at hs
  have hD : 2 * (cas c - cas c') ≠ 0 := by
    have e : 2 * (cas c - cas c') = ((c - c' : ℤ) : ℚ) * ((c + c' + 2 : ℤ) : ℚ) / 2 := by unfold cas; push_cast; ring
    rw [e]
    have x1 : ((c - c' : ℤ) : ℚ) ≠ 0 := by exact_mod_cast sub_ne_zero.2 hne
    have x2 : ((c + c' + 2 : ℤ) : ℚ) ≠ 0 := by
      have : c + c' + 2 ≠ 0 := by omega
      exact_mod_cast this
    exact div_ne_zero (mul_ne_zero x1 x2) (by norm_num)
  apply mul_left_cancel₀ hD
  rw [Finset.mul_sum, mul_zero, ← hs]
  exact Finset.sum_congr rfl (fun f _ => by ring)

theorem w6_oS {a b c d e f : ℤ} (h1 : (a + b + c) % 2 = 0) (h2 : (d + e + c) % 2 = 0) :
    w6 a b c d e f = Real.sqrt (delta a b c * delta d e c : ℚ) * (Real.sqrt (oW a b d e f : ℚ) * ((oS a b c d e f : ℚ) : ℝ)) := by
  unfold w6 oS
  by_cases hp : (a + e + f) % 2 = 0
  · rw [if_pos ⟨h1, hp, by omega, h2⟩, if_pos hp]
    rw [show norm6 a b c d e f = (delta a b c * delta d e c) * oW a b d e f by unfold norm6 oW; ring, Rat.cast_mul, Real.sqrt_mul]
    · ring
    · exact_mod_cast mul_nonneg (delta_nonneg _ _ _) (delta_nonneg _ _ _)
  · rw [if_neg (fun h => hp h.2.1), if_neg hp]; simp

/-- Orthogonality in the last argument. -/
theorem w6_orth {a b c c' d e : ℤ} (ha : 0 ≤ a + b) (hc : 0 ≤ c) (hc' : 0 ≤ c') (hne : c ≠ c') (N : ℕ) (hN : a + e < N) :
    ∑ f ∈ Finset.range N, (((f : ℤ) : ℝ) + 1) * (w6 a b c d e f * w6 a b c' d e f) = 0 := by
  by_cases h1 : (a + b + c) % 2 = 0 ∧ (d + e + c) % 2 = 0
  swap
  · refine Finset.sum_eq_zero (fun f _ => ?_)
    rw [show w6 a b c d e f = 0 from if_neg (fun h => h1 ⟨h.1, h.2.2.2⟩)]; ring
  by_cases h2 : (a + b + c') % 2 = 0 ∧ (d + e + c') % 2 = 0
  swap
  · refine Finset.sum_eq_zero (fun f _ => ?_)
    rw [show w6 a b c' d e f = 0 from if_neg (fun h => h2 ⟨h.1, h.2.2.2⟩)]; ring
  have hs := oS_orth h1.1 h1.2 h2.1 h2.2 ha hc hc' hne N hN
  have hr : ∑ f ∈ Finset.range N, (((f : ℤ) : ℝ) + 1) * (w6 a b c d e f * w6 a b c' d e f) =
      Real.sqrt (delta a b c * delta d e c : ℚ) * Real.sqrt (delta a b c' * delta d e c' : ℚ) *
        ((∑ f ∈ Finset.range N, (((f : ℤ) + 1) * (oW a b d e f * (oS a b c d e f * oS a b c' d e f)) : ℚ) : ℚ) : ℝ) := by
    rw [Rat.cast_sum, Finset.mul_sum]
    refine Finset.sum_congr rfl (fun f _ => ?_)
    rw [w6_oS h1.1 h1.2, w6_oS h2.1 h2.2]
    have hw : Real.sqrt (oW a b d e f : ℚ) * Real.sqrt (oW a b d e f : ℚ) = ((oW a b d e f : ℚ) : ℝ) :=
      Real.mul_self_sqrt (by unfold oW; exact_mod_cast mul_nonneg (delta_nonneg _ _ _) (delta_nonneg _ _ _))
    push_cast
    linear_combination ((f : ℝ) + 1) * Real.sqrt (delta a b c * delta d e c) * Real.sqrt (delta a b c' * delta d e c') *
      (oS a b c d e f : ℝ) * (oS a b c' d e f : ℝ) * hw
  rw [hr, hs]
  simp

/-- Turning the last two columns upside down. -/
theorem w6_turn' (a b c d e f : ℤ) : w6 a e f d b c = w6 a b c d e f := by
  rw [← w6_12 a b c d e f, ← w6_23 b a c e d f, ← w6_turn b c a e f d]
  exact (w6_12 e a f b d c).trans (w6_23 e f a b c d)

/-- Orthogonality in the third argument. -/
theorem w6_orth' {a b d e f f' : ℤ} (ha : 0 ≤ a + e) (hf : 0 ≤ f) (hf' : 0 ≤ f') (hne : f ≠ f') (N : ℕ) (hN : a + b < N) :
    ∑ c ∈ Finset.range N, (((c : ℤ) : ℝ) + 1) * (w6 a b c d e f * w6 a b c d e f') = 0 := by
  rw [← w6_orth (a := a) (b := e) (c := f) (c' := f') (d := d) (e := b) ha hf hf' hne N hN]
  refine Finset.sum_congr rfl (fun c _ => ?_)
  rw [w6_turn' a b c d e f, w6_turn' a b c d e f']

theorem stretched_sq (x m B E k : ℕ) : (((x + m + 2 * (k : ℤ) : ℤ) : ℝ) + 1) * (((B + m + (E + k : ℕ) + k : ℤ) : ℝ) + 1) *
    w6 (B + k + m : ℤ) (x + (B + k)) (x + m + 2 * k) (x + (E + k) + m) (E + k) (B + k + m + (E + k)) ^ 2 * ((dgR x m (B + k) (E + k) : ℚ) : ℝ) =
      ((dgF x m (B + k) (E + k) k : ℚ) : ℝ) := by
  rw [w6_sq_single B (x + k) (m + k) 0 (E + k) (B + k + m) x (B + k) (E + k + m) E k (x + m + k) (x + m + (B + k) + (E + k)) E x 0 B 0 k (m + k)
    (by push_cast; ring) (by push_cast; ring) (by push_cast; ring) (by push_cast; ring) (by push_cast; ring) (by push_cast; ring)
    (by push_cast; ring) (by push_cast; ring) (by push_cast; ring) (by push_cast; ring) (by push_cast; ring) (by push_cast; ring)
    (by push_cast; ring) (by push_cast; ring) (by push_cast; ring) (by push_cast; ring) (by push_cast; ring) (by push_cast; ring)
    (by push_cast; ring) (by simp) (by simp)]
  unfold dgR dgF t6
  have c1 : fac ((x : ℤ) + k) = (x + k).factorial := by rw [← fac_nat]; push_cast; rfl
  have c2 : fac ((x : ℤ) + m + k) = (x + m + k).factorial := by rw [← fac_nat]; push_cast; rfl
  have c3 : rfac ((B : ℤ) + k + m + x + k + 1) = 1 / (B + (x + k) + (m + k) + 1).factorial := by rw [← rfac_nat]; congr 1; push_cast; ring
  have c4 : rfac ((E : ℤ) + k + m + x + k + 1) = 1 / (E + k + (x + m + k) + 1).factorial := by rw [← rfac_nat]; congr 1; push_cast; ring
  have c5 : rfac ((E : ℤ) + k - k) = 1 / E.factorial := by rw [← rfac_nat]; congr 1; ring
  have c6 : rfac ((B : ℤ) + k - k) = 1 / B.factorial := by rw [← rfac_nat]; congr 1; ring
  have c7 : rfac ((k : ℤ)) = 1 / k.factorial := rfac_nat k
  have c8 : rfac ((m : ℤ) + k) = 1 / (m + k).factorial := by rw [← rfac_nat]; congr 1
  have d1 : fac (x : ℤ) = x.factorial := fac_nat x
  have d2 : fac ((B : ℤ) + k + (E + k) + m) = (B + k + (E + k) + m).factorial := by rw [← fac_nat]; push_cast; rfl
  have d3 : rfac ((B : ℤ) + k + (E + k) + m + x + 1) = 1 / (x + m + (B + k) + (E + k) + 1).factorial := by rw [← rfac_nat]; congr 1; push_cast; ring
  have d4 : rfac ((E : ℤ) + k) = 1 / (E + k).factorial := by rw [← rfac_nat]; congr 1
  have d5 : rfac ((B : ℤ) + k) = 1 / (B + k).factorial := by rw [← rfac_nat]; congr 1
  have d6 : rfac ((B : ℤ) + k + m) = 1 / (B + k + m).factorial := by rw [← rfac_nat]; congr 1
  have d7 : rfac ((E : ℤ) + k + m) = 1 / (E + k + m).factorial := by rw [← rfac_nat]; congr 1
  rw [c1, c2, c3, c4, c5, c6, c7, c8, d1, d2, d3, d4, d5, d6, d7]
  have g1 : (0 + (E + k) + (B + k + m) + 1).factorial = (B + k + (E + k) + m + 1) * (B + k + (E + k) + m).factorial := by
    rw [← Nat.factorial_succ]; congr 1; ring
  have g2 : x + (B + k) + (E + k + m) + 1 = x + m + (B + k) + (E + k) + 1 := by ring
  rw [g1, g2]
  have hp : ∀ n : ℕ, ((n.factorial : ℕ) : ℝ) ≠ 0 := fun n => by exact_mod_cast (Nat.factorial_pos n).ne'
  have hq : ((B : ℝ) + k + (E + k) + m + 1) ≠ 0 := by positivity
  push_cast
  simp only [Nat.factorial_zero, Nat.cast_one]
  have p1 := hp (x + k); have p2 := hp (x + m + k); have p3 := hp (B + (x + k) + (m + k) + 1); have p4 := hp (E + k + (x + m + k) + 1)
  have p5 := hp E; have p6 := hp B; have p7 := hp k; have p8 := hp (m + k); have p9 := hp x; have p10 := hp (B + k + (E + k) + m)
  have p11 := hp (x + m + (B + k) + (E + k) + 1); have p12 := hp (E + k); have p13 := hp (B + k); have p14 := hp (B + k + m)
  have p15 := hp (E + k + m)
  field_simp
  ring

theorem dgR_pos (x m B E : ℕ) : 0 < dgR x m B E := by
  unfold dgR
  have h1 := fac_pos (n := (x : ℤ)) (by omega)
  have h2 := fac_pos (n := (B : ℤ) + E + m) (by omega)
  have h3 := rfac_pos (n := (B : ℤ) + E + m + x + 1) (by omega)
  have h4 := rfac_pos (n := (E : ℤ)) (by omega)
  have h5 := rfac_pos (n := (B : ℤ)) (by omega)
  have h6 := rfac_pos (n := (B : ℤ) + m) (by omega)
  have h7 := rfac_pos (n := (E : ℤ) + m) (by omega)
  positivity

theorem dgF_pos {x m B E k : ℕ} (hB : k ≤ B) (hE : k ≤ E) : 0 < dgF x m B E k := by
  unfold dgF
  have h1 := fac_pos (n := (x : ℤ) + k) (by omega)
  have h2 := fac_pos (n := (x : ℤ) + m + k) (by omega)
  have h3 := rfac_pos (n := (B : ℤ) + m + x + k + 1) (by omega)
  have h4 := rfac_pos (n := (E : ℤ) + m + x + k + 1) (by omega)
  have h5 := rfac_pos (n := (E : ℤ) - k) (by omega)
  have h6 := rfac_pos (n := (B : ℤ) - k) (by omega)
  have h7 := rfac_pos (n := (k : ℤ)) (by omega)
  have h8 := rfac_pos (n := (m : ℤ) + k) (by omega)
  push_cast
  positivity

/-- The column with the largest last argument, one case. -/
theorem stretched_case (x m B E : ℕ) (N : ℕ) (hN : B + m + (x + B) < N) :
    (∑ c ∈ Finset.range N, (((c : ℤ) : ℝ) + 1) * (((B + m + E : ℤ) : ℝ) + 1) * w6 (B + m : ℤ) (x + B) c (x + E + m) E (B + m + E) ^ 2 = 1) ∧
    ∀ c, Tri (B + m : ℤ) (x + B) c → Tri (x + E + m : ℤ) E c → w6 (B + m : ℤ) (x + B) c (x + E + m) E (B + m + E) ≠ 0 := by
  have hR := dgR_pos x m B E
  have hR' : ((dgR x m B E : ℚ) : ℝ) ≠ 0 := by exact_mod_cast hR.ne'
  have key : ∀ k : ℕ, k ≤ B → k ≤ E → (((x + m + 2 * k : ℕ) : ℝ) + 1) * (((B + m + E : ℤ) : ℝ) + 1) *
      w6 (B + m : ℤ) (x + B) (x + m + 2 * k : ℕ) (x + E + m) E (B + m + E) ^ 2 = ((dgF x m B E k / dgR x m B E : ℚ) : ℝ) := by
    intro k hB hE
    obtain ⟨B', rfl⟩ := Nat.exists_eq_add_of_le hB
    obtain ⟨E', rfl⟩ := Nat.exists_eq_add_of_le hE
    have := stretched_sq x m B' E' k
    rw [Rat.cast_div, eq_div_iff hR']
    rw [show (((k + B' : ℕ) : ℤ)) = (B' : ℤ) + k by push_cast; ring, show (((k + E' : ℕ) : ℤ)) = (E' : ℤ) + k by push_cast; ring]
    rw [show ((x + m + 2 * k : ℕ) : ℤ) = (x : ℤ) + m + 2 * k by push_cast; ring]
    rw [← this]
    push_cast
    try ring
  constructor
  · have himg : ∑ c ∈ Finset.range N, (((c : ℤ) : ℝ) + 1) * (((B + m + E : ℤ) : ℝ) + 1) * w6 (B + m : ℤ) (x + B) c (x + E + m) E (B + m + E) ^ 2 =
        ∑ k ∈ Finset.range (E + 1), ((dgF x m B E k / dgR x m B E : ℚ) : ℝ) := by
      symm
      have hz : ∀ k ∈ Finset.range (E + 1), ¬k ≤ B → ((dgF x m B E k / dgR x m B E : ℚ) : ℝ) = 0 := by
        intro k _ hk
        have : dgF x m B E k = 0 := by
          unfold dgF; rw [rfac_neg (n := (B : ℤ) - k) (by omega)]; ring
        rw [this]; simp
      rw [← Finset.sum_filter_add_sum_filter_not (Finset.range (E + 1)) (fun k => k ≤ B)]
      rw [Finset.sum_eq_zero (s := (Finset.range (E + 1)).filter (fun k => ¬k ≤ B)) (by
        intro k hk
        rw [Finset.mem_filter] at hk
        exact hz k hk.1 hk.2), add_zero]
      refine Finset.sum_bij_ne_zero (fun k _ _ => x + m + 2 * k) ?_ ?_ ?_ ?_
      · intro k hk _
        rw [Finset.mem_filter, Finset.mem_range] at hk
        rw [Finset.mem_range]
        omega
      · intro k _ _ k' _ _ h
        omega
      · intro c _ hne
        have ht : Tri (B + m : ℤ) (x + B) c ∧ Tri (x + E + m : ℤ) E c := by
          by_contra hn
          apply hne
          rw [w6_zero (fun h => hn ⟨h.1, h.2.2.2⟩)]
          ring
        obtain ⟨⟨_, _, t1⟩, t2, t3, t4⟩ := ht
        rw [abs_le] at t3
        have hk : c = x + m + 2 * ((c - x - m) / 2) := by omega
        refine ⟨(c - x - m) / 2, ?_, ?_, hk.symm⟩
        · rw [Finset.mem_filter, Finset.mem_range]
          omega
        · rw [← key _ (by omega) (by omega), ← hk]
          exact hne
      · intro k hk _
        rw [Finset.mem_filter, Finset.mem_range] at hk
        rw [← key k hk.2 (by omega)]
        push_cast
        rfl
    rw [himg, ← Rat.cast_sum, ← Finset.sum_div, dougall, div_self hR.ne']
    norm_num
  · intro c h1 h2
    obtain ⟨_, _, t1⟩ := h1
    obtain ⟨t2, t3, t4⟩ := h2
    rw [abs_le] at t3
    obtain ⟨k, rfl⟩ : ∃ k : ℕ, c = ((x + m + 2 * k : ℕ) : ℤ) := ⟨((c - x - m) / 2).toNat, by omega⟩
    have hB : k ≤ B := by push_cast at t1; omega
    have hE : k ≤ E := by push_cast at t4; omega
    have h := key k hB hE
    intro h0
    rw [h0] at h
    have hpos : 0 < dgF x m B E k / dgR x m B E := div_pos (dgF_pos hB hE) hR
    have hpos' : (0 : ℝ) < ((dgF x m B E k / dgR x m B E : ℚ) : ℝ) := by exact_mod_cast hpos
    rw [← h] at hpos'
    norm_num at hpos'

theorem Tri.nonneg {a b c : ℤ} (h : Tri a b c) : 0 ≤ a ∧ 0 ≤ b ∧ 0 ≤ c := by
  obtain ⟨_, h1, h2⟩ := h
  rw [abs_le] at h1
  omega

/-- The column with the largest last argument. -/
theorem stretched_col {a b c d e : ℤ} (h : Tri a b c) (h' : Tri d e c) :
    ∃ f0, 0 ≤ f0 ∧ f0 ≤ a + e ∧ (∀ N : ℕ, a + b < N → d + e < N →
      ∑ c ∈ Finset.range N, (((c : ℤ) : ℝ) + 1) * ((f0 : ℝ) + 1) * w6 a b c d e f0 ^ 2 = 1) ∧ w6 a b c d e f0 ≠ 0 := by
  -- one of the four arrangements
  have main : ∀ {a b d e : ℤ}, Tri a b c → Tri d e c → a + e ≤ d + b → b + e ≤ a + d → (∀ N : ℕ, a + b < N →
      ∑ c ∈ Finset.range N, (((c : ℤ) : ℝ) + 1) * (((a + e : ℤ) : ℝ) + 1) * w6 a b c d e (a + e) ^ 2 = 1) ∧ w6 a b c d e (a + e) ≠ 0 := by
    intro a b d e h h' h1 h2
    have n1 := h.nonneg
    have n2 := h'.nonneg
    obtain ⟨p1, p2, p3⟩ := h
    obtain ⟨q1, q2, q3⟩ := h'
    have p2' := p2
    have q2' := q2
    rw [abs_le] at p2' q2'
    obtain ⟨x, hx⟩ : ∃ x : ℕ, d + b - a - e = 2 * x := ⟨((d + b - a - e) / 2).toNat, by omega⟩
    obtain ⟨m, hm⟩ : ∃ m : ℕ, a + d - b - e = 2 * m := ⟨((a + d - b - e) / 2).toNat, by omega⟩
    obtain ⟨E, hE⟩ : ∃ E : ℕ, e = E := ⟨e.toNat, by omega⟩
    obtain ⟨B, hB⟩ : ∃ B : ℕ, a - m = B := ⟨(a - m).toNat, by omega⟩
    obtain rfl : a = B + m := by omega
    obtain rfl : b = x + B := by omega
    obtain rfl : d = x + E + m := by omega
    subst hE
    refine ⟨fun N hN => ?_, ?_⟩
    · have := (stretched_case x m B E N (by omega)).1
      push_cast at this ⊢
      exact this
    · exact (stretched_case x m B E (B + m + (x + B) + 1) (by omega)).2 c ⟨p1, p2, p3⟩ ⟨q1, q2, q3⟩
  have n1 := h.nonneg
  have n2 := h'.nonneg
  have sw : ∀ {a b c : ℤ}, Tri a b c → Tri b a c := by
    rintro a b c ⟨x, y, z⟩
    exact ⟨by omega, by rw [abs_sub_comm]; exact y, by omega⟩
  rcases le_total (a + e) (d + b) with h1 | h1 <;> rcases le_total (b + e) (a + d) with h2 | h2
  · exact ⟨a + e, by omega, le_rfl, fun N h3 _ => (main h h' h1 h2).1 N h3, (main h h' h1 h2).2⟩
  · have := main (sw h') (sw h) (by omega) (by omega)
    have e0 : ∀ c, w6 e d c b a (e + a) = w6 a b c d e (a + e) := by
      intro c; rw [w6_12, w6_turn, show e + a = a + e by ring]
    refine ⟨a + e, by omega, le_rfl, fun N _ h3 => ?_, ?_⟩
    · refine Eq.trans (Finset.sum_congr rfl (fun c _ => ?_)) (this.1 N (by omega))
      rw [← e0, show a + e = e + a by ring]
    · rw [← e0]; exact this.2
  · have := main h' h (by omega) (by omega)
    have e0 : ∀ c, w6 d e c a b (d + b) = w6 a b c d e (d + b) := fun c => w6_turn a b c d e (d + b)
    refine ⟨d + b, by omega, h1, fun N _ h3 => ?_, ?_⟩
    · exact Eq.trans (Finset.sum_congr rfl (fun c _ => by rw [← e0])) (this.1 N h3)
    · rw [← e0]; exact this.2
  · have := main (sw h) (sw h') (by omega) (by omega)
    have e0 : ∀ c, w6 b a c e d (b + d) = w6 a b c d e (b + d) := fun c => w6_12 a b c d e (b + d)
    refine ⟨b + d, by omega, by omega, fun N h3 _ => ?_, ?_⟩
    · exact Eq.trans (Finset.sum_congr rfl (fun c _ => by rw [← e0])) (this.1 N (by omega))
    · rw [← e0]; exact this.2

/-- The rows are normalised: the sum over the last argument. -/
theorem w6_norm {a b c d e : ℤ} (h : Tri a b c) (h' : Tri d e c) (N : ℕ) (hN : a + e < N) :
    ∑ f ∈ Finset.range N, (((f : ℤ) : ℝ) + 1) * (((c : ℤ) : ℝ) + 1) * w6 a b c d e f ^ 2 = 1 := by
  obtain ⟨f0, g1, g2, g3, g4⟩ := stretched_col h h'
  obtain ⟨f0, rfl⟩ := Int.eq_ofNat_of_zero_le g1
  have n1 := h.nonneg
  have n2 := h'.nonneg
  obtain ⟨c, rfl⟩ := Int.eq_ofNat_of_zero_le n1.2.2
  set M : ℕ := (a + b).toNat + (d + e).toNat + 1 with hM
  have hcM : c ∈ Finset.range M := by
    rw [Finset.mem_range]; have := h.2.2; omega
  have hfN : f0 ∈ Finset.range N := by rw [Finset.mem_range]; omega
  have s1 : ∑ c' ∈ Finset.range M, ∑ f ∈ Finset.range N, (((c' : ℤ) : ℝ) + 1) * (((f : ℤ) : ℝ) + 1) * (w6 a b c d e f * w6 a b c' d e f) * w6 a b c' d e f0 =
      (((c : ℤ) : ℝ) + 1) * w6 a b c d e f0 * ∑ f ∈ Finset.range N, (((f : ℤ) : ℝ) + 1) * w6 a b c d e f ^ 2 := by
    rw [Finset.sum_eq_single_of_mem c hcM, Finset.mul_sum]
    · exact Finset.sum_congr rfl (fun f _ => by ring)
    · intro c' _ hne
      have := w6_orth (a := a) (b := b) (c := (c : ℤ)) (c' := (c' : ℤ)) (d := d) (e := e) (by omega) (by omega) (by omega) (by omega) N hN
      have h2 : ∑ f ∈ Finset.range N, (((c' : ℤ) : ℝ) + 1) * (((f : ℤ) : ℝ) + 1) * (w6 a b c d e f * w6 a b c' d e f) * w6 a b c' d e f0 =
          (((c' : ℤ) : ℝ) + 1) * w6 a b c' d e f0 * ∑ f ∈ Finset.range N, (((f : ℤ) : ℝ) + 1) * (w6 a b c d e f * w6 a b c' d e f) := by
        rw [Finset.mul_sum]
        exact Finset.sum_congr rfl (fun f _ => by ring)
      rw [h2, this, mul_zero]
  have s2 : ∑ c' ∈ Finset.range M, ∑ f ∈ Finset.range N, (((c' : ℤ) : ℝ) + 1) * (((f : ℤ) : ℝ) + 1) * (w6 a b c d e f * w6 a b c' d e f) * w6 a b c' d e f0 =
      w6 a b c d e f0 := by
    rw [Finset.sum_comm, Finset.sum_eq_single_of_mem f0 hfN]
    · have := g3 M (by omega) (by omega)
      calc _ = w6 a b c d e f0 * ∑ c ∈ Finset.range M, (((c : ℤ) : ℝ) + 1) * (((f0 : ℤ) : ℝ) + 1) * w6 a b c d e f0 ^ 2 := by
            rw [Finset.mul_sum]
            exact Finset.sum_congr rfl (fun c' _ => by ring)
        _ = _ := by rw [this, mul_one]
    · intro f _ hne
      have := w6_orth' (a := a) (b := b) (d := d) (e := e) (f := (f : ℤ)) (f' := (f0 : ℤ)) (by omega) (by omega) (by omega) (by omega) M (by omega)
      have h2 : ∑ c' ∈ Finset.range M, (((c' : ℤ) : ℝ) + 1) * (((f : ℤ) : ℝ) + 1) * (w6 a b c d e f * w6 a b c' d e f) * w6 a b c' d e f0 =
          (((f : ℤ) : ℝ) + 1) * w6 a b c d e f * ∑ c' ∈ Finset.range M, (((c' : ℤ) : ℝ) + 1) * (w6 a b c' d e f * w6 a b c' d e f0) := by
        rw [Finset.mul_sum]
        exact Finset.sum_congr rfl (fun c' _ => by ring)
      rw [h2, this, mul_zero]
  rw [s1] at s2
  have g4' : w6 a b c d e f0 ≠ 0 := g4
  apply mul_left_cancel₀ g4'
  rw [mul_one]
  conv_rhs => rw [← s2]
  rw [Finset.mul_sum, Finset.mul_sum]
  exact Finset.sum_congr rfl (fun f _ => by ring)

end AtomTk.Racah
