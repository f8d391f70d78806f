import Verif.Proofs.SixOrth
import Verif.Spec.Nine

/-! # Sum rules of products of 6j symbols and of 9j symbols -/

namespace AtomTk.Racah

theorem Tri.swap {a b c : ℤ} (h : Tri a b c) : Tri b a c := by
  obtain ⟨x, y, z⟩ := h
  exact ⟨by omega, by rw [abs_sub_comm]; exact y, by omega⟩

theorem Tri.rot {a b c : ℤ} (h : Tri a b c) : Tri b c a := by
  obtain ⟨x, y, z⟩ := h
  rw [abs_le] at y
  refine ⟨by omega, ?_, by omega⟩
  rw [abs_le]
  omega

theorem w6_tri {a b c d e f : ℤ} (h : w6 a b c d e f ≠ 0) : Tri a b c ∧ Tri a e f ∧ Tri d b f ∧ Tri d e c := by
  by_contra hn
  exact h (w6_zero hn)

/-- The sum over the last argument, bounded by the other triad. -/
theorem w6_norm2 {a b c d e : ℤ} (h : Tri a b c) (h' : Tri d e c) (N : ℕ) (hN : d + b < N) :
    ∑ f ∈ Finset.range N, (((f : ℤ) : ℝ) + 1) * (((c : ℤ) : ℝ) + 1) * w6 a b c d e f ^ 2 = 1 := by
  refine Eq.trans (Finset.sum_congr rfl (fun f _ => ?_)) (w6_norm h' h N hN)
  rw [w6_turn]

/-- The sum over the third argument. -/
theorem w6_norm' {a b d e f : ℤ} (h : Tri a e f) (h' : Tri d b f) (N : ℕ) (hN : a + b < N) :
    ∑ c ∈ Finset.range N, (((c : ℤ) : ℝ) + 1) * (((f : ℤ) : ℝ) + 1) * w6 a b c d e f ^ 2 = 1 := by
  refine Eq.trans (Finset.sum_congr rfl (fun c _ => ?_)) (w6_norm h h' N hN)
  rw [w6_turn' a b c d e f]

/-- The squares of products of two 6j symbols (jK coupling). -/
theorem w66_norm {lc sc lo so Jc K J : ℤ} (h1 : Tri sc lc Jc) (h2 : Tri lo K Jc) (h3 : Tri so J K) (M N : ℕ) (hM : lo + lc < M) (hN : so + sc < N) :
    ∑ L ∈ Finset.range M, ∑ S ∈ Finset.range N, ((Jc : ℝ) + 1) * (((L : ℤ) : ℝ) + 1) * ((K : ℝ) + 1) * (((S : ℤ) : ℝ) + 1) *
      (w6 sc lc Jc lo K L * w6 L sc K so J S) ^ 2 = 1 := by
  refine Eq.trans (Finset.sum_congr rfl (fun L _ => ?_)) (w6_norm2 h1 h2 M hM)
  by_cases h0 : w6 sc lc Jc lo K L = 0
  · rw [h0]; simp
  · have ht := (w6_tri h0).2.1
    have := w6_norm2 (a := (L : ℤ)) (b := sc) (c := K) (d := so) (e := J) ht.rot.rot h3 N hN
    calc _ = ((Jc : ℝ) + 1) * (((L : ℤ) : ℝ) + 1) * w6 sc lc Jc lo K L ^ 2 *
          ∑ S ∈ Finset.range N, (((S : ℤ) : ℝ) + 1) * ((K : ℝ) + 1) * w6 L sc K so J S ^ 2 := by
            rw [Finset.mul_sum]
            exact Finset.sum_congr rfl (fun S _ => by ring)
      _ = _ := by rw [this]; ring

theorem w6_cyc (a b c d e f : ℤ) : w6 b c a e f d = w6 a b c d e f := by
  rw [← w6_12 a b c d e f, ← w6_23 b a c e d f]

/-- The squares of 9j symbols (jj coupling). -/
theorem w9_norm {a b c d e f i : ℤ} (h1 : Tri a b c) (h2 : Tri d e f) (h3 : Tri c f i) (M N : ℕ) (hM : a + d < M) (hN : b + e < N) :
    ∑ g ∈ Finset.range M, ∑ h ∈ Finset.range N, ((c : ℝ) + 1) * ((f : ℝ) + 1) * (((g : ℤ) : ℝ) + 1) * (((h : ℤ) : ℝ) + 1) *
      w9 a b c d e f g h i ^ 2 = 1 := by
  set X : ℕ := (a + i).toNat + 1 with hX
  have n1 := h1.nonneg
  have n2 := h2.nonneg
  have n3 := h3.nonneg
  have hC : ∀ g h x : ℤ, w6 g h i x a d = w6 a d g h i x := by
    intro g h x
    rw [← w6_cyc g h i x a d, ← w6_turn h i g a d x]
  -- the sum over g
  have hg : ∀ (h : ℕ) (x x' : ℕ), w6 a b c f i x * w6 d e f b x h * ∑ g ∈ Finset.range M, (((g : ℤ) : ℝ) + 1) * (w6 g h i x a d * w6 g h i x' a d) =
      if x = x' then w6 a b c f i x * w6 d e f b x h * (1 / (((x : ℤ) : ℝ) + 1)) else 0 := by
    intro h x x'
    by_cases h0 : w6 a b c f i x * w6 d e f b x h = 0
    · rw [h0]; simp
    rw [mul_eq_zero, not_or] at h0
    have t1 := (w6_tri h0.1).2.1
    have t2 := (w6_tri h0.2).2.1
    split
    · rename_i hxx
      subst hxx
      have := w6_norm' (a := a) (b := d) (d := (h : ℤ)) (e := i) (f := (x : ℤ)) t1 t2.rot.rot M hM
      congr 1
      have hx : (((x : ℤ) : ℝ) + 1) ≠ 0 := by
        have : (0 : ℝ) ≤ ((x : ℤ) : ℝ) := by exact_mod_cast Nat.zero_le x
        positivity
      rw [eq_div_iff hx, Finset.sum_mul]
      exact Eq.trans (Finset.sum_congr rfl (fun g _ => by rw [hC]; ring)) this
    · rename_i hxx
      have := w6_orth' (a := a) (b := d) (d := (h : ℤ)) (e := i) (f := (x : ℤ)) (f' := (x' : ℤ)) (by omega) (by omega) (by omega) (by omega) M hM
      rw [Finset.sum_congr rfl (fun (g : ℕ) _ => by rw [hC g h x, hC g h x']), this, mul_zero]
  have hsq : ∀ h : ℕ, ∑ g ∈ Finset.range M, (((g : ℤ) : ℝ) + 1) * w9 a b c d e f g h i ^ 2 =
      ∑ x ∈ Finset.range X, (((x : ℤ) : ℝ) + 1) * (w6 a b c f i x * w6 d e f b x h) ^ 2 := by
    intro h
    have e1 : ∀ g : ℕ, (((g : ℤ) : ℝ) + 1) * w9 a b c d e f g h i ^ 2 =
        ∑ x ∈ Finset.range X, ∑ x' ∈ Finset.range X, (((g : ℤ) : ℝ) + 1) *
          ((((sgn x : ℚ) : ℝ) * ((x : ℝ) + 1) * (w6 a b c f i x * w6 d e f b x h * w6 g h i x a d)) *
           (((sgn x' : ℚ) : ℝ) * ((x' : ℝ) + 1) * (w6 a b c f i x' * w6 d e f b x' h * w6 g h i x' a d))) := by
      intro g
      unfold w9
      rw [sq, Finset.sum_mul_sum, Finset.mul_sum]
      exact Finset.sum_congr rfl (fun x _ => by rw [Finset.mul_sum])
    rw [Finset.sum_congr rfl (fun g _ => e1 g), Finset.sum_comm]
    refine Finset.sum_congr rfl (fun x hx => ?_)
    rw [Finset.sum_comm]
    have e2 : ∀ x' : ℕ, ∑ g ∈ Finset.range M, (((g : ℤ) : ℝ) + 1) *
          ((((sgn x : ℚ) : ℝ) * ((x : ℝ) + 1) * (w6 a b c f i x * w6 d e f b x h * w6 g h i x a d)) *
           (((sgn x' : ℚ) : ℝ) * ((x' : ℝ) + 1) * (w6 a b c f i x' * w6 d e f b x' h * w6 g h i x' a d))) =
        ((sgn x : ℚ) : ℝ) * ((sgn x' : ℚ) : ℝ) * ((x : ℝ) + 1) * ((x' : ℝ) + 1) * (w6 a b c f i x' * w6 d e f b x' h) *
          (if x = x' then w6 a b c f i x * w6 d e f b x h * (1 / (((x : ℤ) : ℝ) + 1)) else 0) := by
      intro x'
      rw [← hg h x x', Finset.mul_sum, Finset.mul_sum]
      exact Finset.sum_congr rfl (fun g _ => by ring)
    rw [Finset.sum_congr rfl (fun x' _ => e2 x'), Finset.sum_eq_single_of_mem x hx]
    · rw [if_pos rfl]
      have hs : ((sgn x : ℚ) : ℝ) * ((sgn x : ℚ) : ℝ) = 1 := by
        have := sgn_sq x
        exact_mod_cast this
      rw [hs]
      have hx' : ((x : ℝ) + 1) ≠ 0 := by positivity
      simp only [Int.cast_natCast]
      field_simp
    · intro x' _ hne
      rw [if_neg (Ne.symm hne), mul_zero]
  rw [Finset.sum_comm]
  have e3 : ∀ h : ℕ, ∑ g ∈ Finset.range M, ((c : ℝ) + 1) * ((f : ℝ) + 1) * (((g : ℤ) : ℝ) + 1) * (((h : ℤ) : ℝ) + 1) * w9 a b c d e f g h i ^ 2 =
      ∑ x ∈ Finset.range X, ((c : ℝ) + 1) * ((f : ℝ) + 1) * (((h : ℤ) : ℝ) + 1) * ((((x : ℤ) : ℝ) + 1) * (w6 a b c f i x * w6 d e f b x h) ^ 2) := by
    intro h
    rw [← Finset.mul_sum, ← hsq h, Finset.mul_sum]
    exact Finset.sum_congr rfl (fun g _ => by ring)
  rw [Finset.sum_congr rfl (fun h _ => e3 h), Finset.sum_comm]
  refine Eq.trans (Finset.sum_congr rfl (fun x _ => ?_)) (w6_norm h1 h3.rot X (by omega))
  by_cases h0 : w6 a b c f i x = 0
  · rw [h0]; simp
  have t := (w6_tri h0).2.2.1
  have := w6_norm2 (a := d) (b := e) (c := f) (d := b) (e := (x : ℤ)) h2 t.rot N hN
  calc _ = ((c : ℝ) + 1) * (((x : ℤ) : ℝ) + 1) * w6 a b c f i x ^ 2 *
        ∑ h ∈ Finset.range N, (((h : ℤ) : ℝ) + 1) * ((f : ℝ) + 1) * w6 d e f b x h ^ 2 := by
          rw [Finset.mul_sum]
          exact Finset.sum_congr rfl (fun S _ => by ring)
    _ = _ := by rw [this]; ring

end AtomTk.Racah
