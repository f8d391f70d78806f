import Verif.Spec.Racah
import Mathlib.Tactic.FieldSimp
import Mathlib.Tactic.Linarith
import Mathlib.Tactic.Ring
import Mathlib.Tactic.LinearCombination
import Mathlib.Tactic.NormNum

/-! # Vanishing and symmetry of the Wigner symbols -/

namespace AtomTk.Racah

theorem fac_nonneg (n : ℤ) : 0 ≤ fac n := by
  unfold fac; split <;> positivity

theorem rfac_nonneg (n : ℤ) : 0 ≤ rfac n := by
  unfold rfac; split <;> positivity

theorem fac_neg {n : ℤ} (h : n < 0) : fac n = 0 := by unfold fac; rw [if_pos h]
theorem rfac_neg {n : ℤ} (h : n < 0) : rfac n = 0 := by unfold rfac; rw [if_pos h]

theorem fac_pos {n : ℤ} (h : 0 ≤ n) : 0 < fac n := by
  unfold fac; rw [if_neg (by omega)]; exact_mod_cast Nat.factorial_pos _

theorem rfac_pos {n : ℤ} (h : 0 ≤ n) : 0 < rfac n := by
  unfold rfac; rw [if_neg (by omega)]; have := Nat.factorial_pos n.toNat; positivity

theorem rfac_eq (n : ℤ) : rfac n = (fac n)⁻¹ := by
  unfold rfac fac; split <;> simp

theorem fac_succ {n : ℤ} (h : 0 ≤ n) : fac (n + 1) = (n + 1) * fac n := by
  obtain ⟨m, rfl⟩ := Int.eq_ofNat_of_zero_le h
  unfold fac
  rw [if_neg (by omega), if_neg (by omega)]
  have : ((m : ℤ) + 1).toNat = m + 1 := by omega
  rw [this, Nat.factorial_succ]
  push_cast
  simp

theorem sgn_sq (n : ℤ) : sgn n * sgn n = 1 := by unfold sgn; split <;> norm_num

theorem sgn_ne (n : ℤ) : sgn n ≠ 0 := by unfold sgn; split <;> norm_num

theorem sgn_sub (m n : ℤ) : sgn (m - n) = sgn m * sgn n := by
  unfold sgn
  rcases Int.emod_two_eq_zero_or_one m with hm | hm <;> rcases Int.emod_two_eq_zero_or_one n with hn | hn
  · rw [if_pos (by omega), if_pos hm, if_pos hn]; norm_num
  · rw [if_neg (by omega), if_pos hm, if_neg (by omega)]; norm_num
  · rw [if_neg (by omega), if_neg (by omega), if_pos hn]; norm_num
  · rw [if_pos (by omega), if_neg (by omega), if_neg (by omega)]; norm_num

/-! ## The sum of the 3j symbol -/

theorem term3_out {p q r x y k : ℤ} (h : k < 0 ∨ p < k ∨ q < k ∨ r < k) : term3 p q r x y k = 0 := by
  unfold term3
  rcases h with h | h | h | h
  · rw [rfac_neg h]; ring
  · rw [rfac_neg (show p - k < 0 by omega)]; ring
  · rw [rfac_neg (show q - k < 0 by omega)]; ring
  · rw [rfac_neg (show r - k < 0 by omega)]; ring

theorem sum3_bound (p q r x y : ℤ) (N : Nat) (h : p.toNat + 1 ≤ N ∨ (q.toNat + 1 ≤ N) ∨ r.toNat + 1 ≤ N) :
    sum3 p q r x y = ∑ k ∈ Finset.range N, term3 p q r x y k := by
  unfold sum3
  have key : ∀ M M' : Nat, M ≤ M' → (∀ k : Nat, M ≤ k → term3 p q r x y k = 0) →
      ∑ k ∈ Finset.range M, term3 p q r x y k = ∑ k ∈ Finset.range M', term3 p q r x y k := by
    intro M M' hM h0
    refine Finset.sum_subset (by intro k hk; simp at *; omega) (fun k hk hk' => ?_)
    simp at hk'
    exact h0 k hk'
  have e1 := key (p.toNat + 1) (p.toNat + 1 + N) (by omega) (fun k hk => term3_out (by omega))
  rw [e1]
  symm
  refine key N (p.toNat + 1 + N) (by omega) (fun k hk => term3_out ?_)
  omega

theorem sum3_pq (p q r x y : ℤ) : sum3 p q r x y = sum3 q p r x y := by
  rw [sum3_bound p q r x y (q.toNat + 1) (by omega)]
  unfold sum3
  refine Finset.sum_congr rfl (fun k _ => ?_)
  unfold term3; ring

theorem sum3_qr (p q r x y : ℤ) : sum3 p q r x y = sum3 p r q x y := by
  unfold sum3
  refine Finset.sum_congr rfl (fun k _ => ?_)
  unfold term3; ring

theorem sum3_xy (p q r x y : ℤ) : sum3 p q r x y = sum3 p q r y x := by
  unfold sum3
  refine Finset.sum_congr rfl (fun k _ => ?_)
  unfold term3; ring

/-- Counting the terms backwards. -/
theorem sum3_flip (p q r x y : ℤ) : sum3 p q r x y = sgn p * sum3 p (x + p) (y + p) (q - p) (r - p) := by
  rcases lt_or_ge p 0 with hp | hp
  · have h0 : ∀ q r x y, sum3 p q r x y = 0 := by
      intro q r x y
      unfold sum3
      exact Finset.sum_eq_zero (fun k _ => term3_out (by omega))
    rw [h0, h0, mul_zero]
  · obtain ⟨n, rfl⟩ := Int.eq_ofNat_of_zero_le hp
    unfold sum3
    rw [← Finset.sum_range_reflect, Finset.mul_sum]
    refine Finset.sum_congr rfl (fun k hk => ?_)
    simp only [Finset.mem_range] at hk
    have hk' : ((((n : ℤ).toNat + 1 - 1 - k : Nat)) : ℤ) = (n : ℤ) - k := by simp at hk ⊢; omega
    rw [hk']
    unfold term3
    rw [sgn_sub]
    rw [show (n : ℤ) - (n - k) = k by ring, show q - ((n : ℤ) - k) = q - n + k by ring, show r - ((n : ℤ) - k) = r - n + k by ring,
      show x + ((n : ℤ) - k) = x + n - k by ring, show y + ((n : ℤ) - k) = y + n - k by ring]
    ring

/-! ## Vanishing -/

theorem norm3_nonneg (a b c d e f : ℤ) : 0 ≤ norm3 a b c d e f := by
  unfold norm3
  apply_rules [mul_nonneg, fac_nonneg, rfac_nonneg]

/-- The selection rules of the 3j symbol. -/
def Sel3 (a b c d e f : ℤ) : Prop :=
  d + e + f = 0 ∧ (a + b + c) % 2 = 0 ∧ (a + d) % 2 = 0 ∧ (b + e) % 2 = 0 ∧ (c + f) % 2 = 0 ∧
  |d| ≤ a ∧ |e| ≤ b ∧ |f| ≤ c ∧ |a - b| ≤ c ∧ c ≤ a + b

theorem norm3_zero {a b c d e f : ℤ} (hi : Int3 a b c d e f) (h : ¬Sel3 a b c d e f) : norm3 a b c d e f = 0 := by
  obtain ⟨h1, h2, h3, h4, h5⟩ := hi
  unfold norm3
  by_contra hne
  simp only [mul_eq_zero, not_or] at hne
  obtain ⟨⟨⟨⟨⟨x1, x2⟩, x3⟩, x4⟩, ⟨x5, x6⟩, x7⟩, ⟨x8, x9⟩, x10⟩ := hne
  have key : ∀ n, ¬fac n = 0 → 0 ≤ n := by
    intro n hn
    by_contra hlt
    exact hn (fac_neg (by omega))
  have := key _ x1; have := key _ x2; have := key _ x3
  have := key _ x5; have := key _ x6; have := key _ x7; have := key _ x8; have := key _ x9; have := key _ x10
  refine h ⟨h1, h2, h3, h4, h5, ?_, ?_, ?_, ?_, ?_⟩ <;> first | (rw [abs_le]; constructor <;> omega) | omega

theorem w3_zero {a b c d e f : ℤ} (h : ¬Sel3 a b c d e f) : w3 a b c d e f = 0 := by
  unfold w3
  split
  · rename_i hi
    rw [norm3_zero hi h]; simp
  · rfl

theorem w3_sq (a b c d e f : ℤ) : w3 a b c d e f ^ 2 =
    if Int3 a b c d e f then ((norm3 a b c d e f * core3 a b c d e f ^ 2 : ℚ) : ℝ) else 0 := by
  unfold w3
  split
  · rw [mul_pow, mul_pow, Real.sq_sqrt (by exact_mod_cast norm3_nonneg a b c d e f)]
    have : ((sgn ((a - b - f) / 2) : ℚ) : ℝ) ^ 2 = 1 := by
      rw [sq]; exact_mod_cast sgn_sq _
    rw [this]; push_cast; ring
  · simp

/-! ## Symmetries -/

theorem sq_flip {a b c d e f : ℤ} (hi : Int3 a b c d e f) : core3 a b c (-d) (-e) (-f) ^ 2 = core3 a b c d e f ^ 2 := by
  obtain ⟨h1, h2, h3, h4, h5⟩ := hi
  unfold core3
  rw [sum3_flip ((a + b - c) / 2) ((a - d) / 2)]
  rw [show (c - b + d) / 2 + (a + b - c) / 2 = (a - -d) / 2 by omega,
    show (c - a - e) / 2 + (a + b - c) / 2 = (b + -e) / 2 by omega,
    show (a - d) / 2 - (a + b - c) / 2 = (c - b + -d) / 2 by omega,
    show (b + e) / 2 - (a + b - c) / 2 = (c - a - -e) / 2 by omega, mul_pow, sq (sgn _), sgn_sq, one_mul]

/-- Reversing all projections does not change the square. -/
theorem w3_sq_flip (a b c d e f : ℤ) : w3 a b c (-d) (-e) (-f) ^ 2 = w3 a b c d e f ^ 2 := by
  rw [w3_sq, w3_sq]
  by_cases hi : Int3 a b c d e f
  · have hi' : Int3 a b c (-d) (-e) (-f) := by
      obtain ⟨h1, h2, h3, h4, h5⟩ := hi
      refine ⟨?_, ?_, ?_, ?_, ?_⟩ <;> omega
    rw [if_pos hi, if_pos hi', sq_flip hi]
    congr 2
    unfold norm3
    simp only [sub_neg_eq_add, ← sub_eq_add_neg]
    ring
  · have hi' : ¬Int3 a b c (-d) (-e) (-f) := by
      intro h
      obtain ⟨h1, h2, h3, h4, h5⟩ := h
      refine hi ⟨?_, ?_, ?_, ?_, ?_⟩ <;> omega
    rw [if_neg hi, if_neg hi']

/-- Exchanging the first two columns does not change the square. -/
theorem w3_sq_12 (a b c d e f : ℤ) : w3 b a c e d f ^ 2 = w3 a b c d e f ^ 2 := by
  rw [← w3_sq_flip, w3_sq, w3_sq]
  by_cases hi : Int3 a b c d e f
  · have hi' : Int3 b a c (-e) (-d) (-f) := by
      obtain ⟨h1, h2, h3, h4, h5⟩ := hi
      refine ⟨?_, ?_, ?_, ?_, ?_⟩ <;> omega
    rw [if_pos hi, if_pos hi']
    have hc : core3 b a c (-e) (-d) (-f) = core3 a b c d e f := by
      unfold core3
      rw [sum3_qr, sum3_xy]
      congr 1 <;> congr 1 <;> ring
    have hn : norm3 b a c (-e) (-d) (-f) = norm3 a b c d e f := by
      unfold norm3
      rw [show -b + a + c = a - b + c by ring, show b - a + c = -a + b + c by ring, show b + a - c = a + b - c by ring,
        show b + a + c = a + b + c by ring]
      simp only [sub_neg_eq_add, ← sub_eq_add_neg]
      ring
    rw [hc, hn]
  · have hi' : ¬Int3 b a c (-e) (-d) (-f) := by
      intro h
      obtain ⟨h1, h2, h3, h4, h5⟩ := h
      refine hi ⟨?_, ?_, ?_, ?_, ?_⟩ <;> omega
    rw [if_neg hi, if_neg hi']

/-- Exchanging the last two columns does not change the square. -/
theorem w3_sq_23 (a b c d e f : ℤ) : w3 a c b d f e ^ 2 = w3 a b c d e f ^ 2 := by
  rw [w3_sq, w3_sq]
  by_cases hi : Int3 a b c d e f
  · have hi' : Int3 a c b d f e := by
      obtain ⟨h1, h2, h3, h4, h5⟩ := hi
      refine ⟨?_, ?_, ?_, ?_, ?_⟩ <;> omega
    rw [if_pos hi, if_pos hi']
    obtain ⟨h1, h2, h3, h4, h5⟩ := hi
    have hc : core3 a c b d f e ^ 2 = core3 a b c d e f ^ 2 := by
      unfold core3
      rw [sum3_pq ((a + b - c) / 2), sum3_flip ((a - d) / 2)]
      rw [show (c - b + d) / 2 + (a - d) / 2 = (a + c - b) / 2 by omega,
        show (c - a - e) / 2 + (a - d) / 2 = (c + f) / 2 by omega,
        show (a + b - c) / 2 - (a - d) / 2 = (b - c + d) / 2 by omega,
        show (b + e) / 2 - (a - d) / 2 = (b - a - f) / 2 by omega, mul_pow, sq (sgn _), sgn_sq, one_mul,
        sum3_pq]
    have hn : norm3 a c b d f e = norm3 a b c d e f := by
      unfold norm3
      rw [show -a + c + b = -a + b + c by ring, show a - c + b = a + b - c by ring, show a + c - b = a - b + c by ring,
        show a + c + b = a + b + c by ring]
      ring
    rw [hc, hn]
  · have hi' : ¬Int3 a c b d f e := by
      intro h
      obtain ⟨h1, h2, h3, h4, h5⟩ := h
      refine hi ⟨?_, ?_, ?_, ?_, ?_⟩ <;> omega
    rw [if_neg hi, if_neg hi']

/-- Exchanging the outer columns does not change the square. -/
theorem w3_sq_13 (a b c d e f : ℤ) : w3 c b a f e d ^ 2 = w3 a b c d e f ^ 2 := by
  rw [w3_sq_12, w3_sq_23, w3_sq_12]

/-! ## The 6j symbol -/

theorem delta_nonneg (a b c : ℤ) : 0 ≤ delta a b c := by
  unfold delta
  apply_rules [mul_nonneg, fac_nonneg, rfac_nonneg]

theorem norm6_nonneg (a b c d e f : ℤ) : 0 ≤ norm6 a b c d e f := by
  unfold norm6
  exact mul_nonneg (mul_nonneg (mul_nonneg (delta_nonneg _ _ _) (delta_nonneg _ _ _)) (delta_nonneg _ _ _)) (delta_nonneg _ _ _)

/-- The triangle rule for doubled angular momenta. -/
def Tri (a b c : ℤ) : Prop := (a + b + c) % 2 = 0 ∧ |a - b| ≤ c ∧ c ≤ a + b

theorem delta_zero {a b c : ℤ} (h2 : (a + b + c) % 2 = 0) (h : ¬Tri a b c) : delta a b c = 0 := by
  unfold delta
  by_contra hne
  simp only [mul_eq_zero, not_or] at hne
  obtain ⟨⟨⟨x1, x2⟩, x3⟩, x4⟩ := hne
  have key : ∀ n, ¬fac n = 0 → 0 ≤ n := by
    intro n hn
    by_contra hlt
    exact hn (fac_neg (by omega))
  have := key _ x1; have := key _ x2; have := key _ x3
  refine h ⟨h2, ?_, ?_⟩ <;> first | (rw [abs_le]; constructor <;> omega) | omega

theorem delta_swap (a b c : ℤ) : delta a b c = delta b a c := by
  unfold delta
  rw [show b + a - c = a + b - c by ring, show a + c - b = c + a - b by ring, show c + b - a = b + c - a by ring,
    show b + a + c = a + b + c by ring]
  ring

theorem delta_rot (a b c : ℤ) : delta a b c = delta b c a := by
  unfold delta
  rw [show a + b + c = b + c + a by ring]
  ring

theorem w6_zero {a b c d e f : ℤ} (h : ¬(Tri a b c ∧ Tri a e f ∧ Tri d b f ∧ Tri d e c)) : w6 a b c d e f = 0 := by
  unfold w6
  split
  · rename_i hi
    obtain ⟨h1, h2, h3, h4⟩ := hi
    have : norm6 a b c d e f = 0 := by
      unfold norm6
      by_contra hne
      simp only [mul_eq_zero, not_or] at hne
      obtain ⟨⟨⟨x1, x2⟩, x3⟩, x4⟩ := hne
      refine h ⟨?_, ?_, ?_, ?_⟩
      · by_contra hh; exact x1 (delta_zero h1 hh)
      · by_contra hh; exact x2 (delta_zero h2 hh)
      · by_contra hh; exact x3 (delta_zero h3 hh)
      · by_contra hh; exact x4 (delta_zero h4 hh)
    rw [this]; simp
  · rfl

theorem w6_sq (a b c d e f : ℤ) : w6 a b c d e f ^ 2 =
    if Int6 a b c d e f then ((norm6 a b c d e f * core6 a b c d e f ^ 2 : ℚ) : ℝ) else 0 := by
  unfold w6
  split
  · rw [mul_pow, Real.sq_sqrt (by exact_mod_cast norm6_nonneg a b c d e f)]
    push_cast; ring
  · simp

theorem term6_out {s t u v p q r k : ℤ} (h : p < k ∨ q < k ∨ r < k) : term6 s t u v p q r k = 0 := by
  unfold term6
  rcases h with h | h | h
  · rw [rfac_neg (show p - k < 0 by omega)]; ring
  · rw [rfac_neg (show q - k < 0 by omega)]; ring
  · rw [rfac_neg (show r - k < 0 by omega)]; ring

theorem sum6_bound (s t u v p q r : ℤ) (N : Nat) (h : p.toNat + 1 ≤ N ∨ (q.toNat + 1 ≤ N) ∨ r.toNat + 1 ≤ N) :
    sum6 s t u v p q r = ∑ k ∈ Finset.range N, term6 s t u v p q r k := by
  unfold sum6
  have key : ∀ M M' : Nat, M ≤ M' → (∀ k : Nat, M ≤ k → term6 s t u v p q r k = 0) →
      ∑ k ∈ Finset.range M, term6 s t u v p q r k = ∑ k ∈ Finset.range M', term6 s t u v p q r k := by
    intro M M' hM h0
    refine Finset.sum_subset (by intro k hk; simp at *; omega) (fun k hk hk' => ?_)
    simp at hk'
    exact h0 k hk'
  have e1 := key (p.toNat + 1) (p.toNat + 1 + N) (by omega) (fun k hk => term6_out (by omega))
  rw [e1]
  symm
  refine key N (p.toNat + 1 + N) (by omega) (fun k hk => term6_out ?_)
  omega

theorem sum6_pq (s t u v p q r : ℤ) : sum6 s t u v p q r = sum6 s t u v q p r := by
  rw [sum6_bound s t u v p q r (q.toNat + 1) (by omega)]
  unfold sum6
  refine Finset.sum_congr rfl (fun k _ => ?_)
  unfold term6; ring

theorem sum6_qr (s t u v p q r : ℤ) : sum6 s t u v p q r = sum6 s t u v p r q := by
  unfold sum6
  refine Finset.sum_congr rfl (fun k _ => ?_)
  unfold term6; ring

theorem sum6_low (s t u v s' t' u' v' p q r : ℤ) (h : ∀ k : ℤ, rfac (k - s) * rfac (k - t) * rfac (k - u) * rfac (k - v) =
    rfac (k - s') * rfac (k - t') * rfac (k - u') * rfac (k - v')) : sum6 s t u v p q r = sum6 s' t' u' v' p q r := by
  unfold sum6
  refine Finset.sum_congr rfl (fun k _ => ?_)
  unfold term6
  linear_combination sgn k * fac (k + 1) * rfac (p - k) * rfac (q - k) * rfac (r - k) * h k

/-- Exchanging the first two columns. -/
theorem w6_12 (a b c d e f : ℤ) : w6 b a c e d f = w6 a b c d e f := by
  unfold w6
  have hi : Int6 b a c e d f ↔ Int6 a b c d e f := by unfold Int6; omega
  have hn : norm6 b a c e d f = norm6 a b c d e f := by
    unfold norm6
    rw [delta_swap b a c, delta_swap e d c, delta_swap b d f, delta_swap e a f]
    ring
  have hc : core6 b a c e d f = core6 a b c d e f := by
    unfold core6
    rw [sum6_qr, show b + a + c = a + b + c by ring, show b + d + f = d + b + f by ring, show e + a + f = a + e + f by ring,
      show e + d + c = d + e + c by ring, show b + a + e + d = a + b + d + e by ring]
    exact sum6_low _ _ _ _ _ _ _ _ _ _ _ (fun k => by ring)
  simp only [hi, hn, hc]

/-- Exchanging the last two columns. -/
theorem w6_23 (a b c d e f : ℤ) : w6 a c b d f e = w6 a b c d e f := by
  unfold w6
  have hi : Int6 a c b d f e ↔ Int6 a b c d e f := by unfold Int6; omega
  have hn : norm6 a c b d f e = norm6 a b c d e f := by
    unfold norm6
    rw [delta_rot a c b, delta_swap c b a, ← delta_rot a b c, delta_rot a f e, delta_swap f e a, ← delta_rot a e f,
      delta_rot d c e, delta_swap c e d, ← delta_rot d e c, delta_rot d f b, delta_swap f b d, ← delta_rot d b f]
    ring
  have hc : core6 a c b d f e = core6 a b c d e f := by
    unfold core6
    rw [sum6_pq, sum6_qr, sum6_pq, show a + c + b = a + b + c by ring, show a + f + e = a + e + f by ring, show d + c + e = d + e + c by ring,
      show d + f + b = d + b + f by ring, show c + b + f + e = b + c + e + f by ring]
    exact sum6_low _ _ _ _ _ _ _ _ _ _ _ (fun k => by ring)
  simp only [hi, hn, hc]

/-- Turning the first two columns upside down. -/
theorem w6_turn (a b c d e f : ℤ) : w6 d e c a b f = w6 a b c d e f := by
  unfold w6
  have hi : Int6 d e c a b f ↔ Int6 a b c d e f := by unfold Int6; omega
  have hn : norm6 d e c a b f = norm6 a b c d e f := by
    unfold norm6; ring
  have hc : core6 d e c a b f = core6 a b c d e f := by
    unfold core6
    rw [sum6_qr, show d + e + a + b = a + b + d + e by ring, show d + c + a + f = a + c + d + f by ring,
      show e + c + b + f = b + c + e + f by ring]
    rw [sum6_qr]
    exact sum6_low _ _ _ _ _ _ _ _ _ _ _ (fun k => by ring)
  simp only [hi, hn, hc]

end AtomTk.Racah
