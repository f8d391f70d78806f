import Verif.Proofs.SixSum
import Verif.Proofs.SubTrans
import Mathlib.Algebra.BigOperators.Group.Finset.Basic

/-! # Strengths of hyperfine and Zeeman transitions -/

namespace AtomTk
namespace Strengths
open Racah

/-- The hyperfine numbers are those allowed by the triangle rule. -/
theorem mem_hfFs_tri (a b : ℕ) (f : ℤ) : half f ∈ hfFs (half a) (half b) ↔ Tri b f a := by
  have hI : IsSpin (half a) := ⟨a, by unfold half; simp⟩
  have hJ : IsSpin (half b) := ⟨b, by unfold half; simp⟩
  obtain ⟨n, hn, _⟩ := spin_count hI hJ
  unfold hfFs
  rw [mem_arange_nat hn]
  have e : |half b - half a| = half |(b : ℤ) - a| := by
    unfold half
    rw [← sub_div, abs_div]
    push_cast
    simp
  rw [e] at hn ⊢
  have hn' : (b : ℤ) + a + 2 = |(b : ℤ) - a| + 2 * n := by
    unfold half at hn
    have : ((b : ℚ) + a + 2) = (|(b : ℤ) - a| : ℤ) + 2 * n := by push_cast at hn ⊢; linarith
    exact_mod_cast this
  have key : ∀ i : ℕ, half f = half |(b : ℤ) - a| + i ↔ f = |(b : ℤ) - a| + 2 * i := by
    intro i
    unfold half
    constructor
    · intro h
      have : (f : ℚ) = (|(b : ℤ) - a| : ℤ) + 2 * i := by linarith
      exact_mod_cast this
    · intro h
      rw [h]; push_cast; ring
  unfold Tri
  constructor
  · rintro ⟨i, hi, h⟩
    rw [key] at h
    rw [abs_le]
    rcases abs_cases ((b : ℤ) - a) with ⟨h1, h2⟩ | ⟨h1, h2⟩ <;> rw [h1] at hn' h <;> omega
  · rintro ⟨h1, h2, h3⟩
    rw [abs_le] at h2
    refine ⟨((f - |(b : ℤ) - a|) / 2).toNat, ?_, ?_⟩
    · rcases abs_cases ((b : ℤ) - a) with ⟨g1, g2⟩ | ⟨g1, g2⟩ <;> rw [g1] at hn' ⊢ <;> omega
    · rw [key]
      rcases abs_cases ((b : ℤ) - a) with ⟨g1, g2⟩ | ⟨g1, g2⟩ <;> rw [g1] at hn' ⊢ <;> omega

theorem six_half (a b c d e f : ℤ) : six (half a) (half b) (half c) (half d) (half e) (half f) = w6 a b c d e f := by
  unfold six
  simp only [floor_half]

theorem three_half (a b c d e f : ℤ) : three (half a) (half b) (half c) (half d) (half e) (half f) = w3 a b c d e f := by
  unfold three
  simp only [floor_half]

theorem half_one : half 2 = 1 := by unfold half; norm_num
theorem half_two : half 4 = 2 := by unfold half; norm_num

/-- A sum over a list without repetitions of a function supported on three points. -/
theorem sum_three {l : List ℚ} (hl : l.Nodup) (g : ℚ → ℝ) {p q r : ℚ} (hpq : p ≠ q) (hpr : p ≠ r) (hqr : q ≠ r)
    (h1 : ∀ x ∈ l, x ≠ p → x ≠ q → x ≠ r → g x = 0) (h2 : ∀ x, x = p ∨ x = q ∨ x = r → x ∉ l → g x = 0) :
    (l.map g).sum = g p + g q + g r := by
  classical
  rw [← List.sum_toFinset g hl]
  have e1 : ∑ x ∈ l.toFinset, g x = ∑ x ∈ l.toFinset ∪ {p, q, r}, g x := by
    refine Finset.sum_subset Finset.subset_union_left (fun x hx hn => ?_)
    rw [Finset.mem_union] at hx
    rcases hx with hx | hx
    · exact absurd hx hn
    · refine h2 x ?_ (by simpa using hn)
      simpa using hx
  have e2 : ∑ x ∈ ({p, q, r} : Finset ℚ), g x = ∑ x ∈ l.toFinset ∪ {p, q, r}, g x := by
    refine Finset.sum_subset Finset.subset_union_right (fun x hx hn => ?_)
    rw [Finset.mem_union] at hx
    simp only [Finset.mem_insert, Finset.mem_singleton, not_or] at hn
    rcases hx with hx | hx
    · exact h1 x (by simpa using hx) hn.1 hn.2.1 hn.2.2
    · simp at hx; tauto
  rw [e1, ← e2, Finset.sum_insert (by simp [hpq, hpr]), Finset.sum_insert (by simp [hqr]), Finset.sum_singleton]
  ring

/-- The sum rule of the dipole symbol, for doubled numbers. -/
theorem six_sum_half (i j j' : ℕ) (f : ℤ) (hf : Tri j f i) (hj : Tri j' j 2) :
    ((hfFs (half i) (half j')).map (fun F' => ((2 * F' + 1 : ℚ) : ℝ) * six (half j) (half j') 1 F' (half f) (half i) ^ 2)).sum =
      1 / ((2 * half j + 1 : ℚ) : ℝ) := by
  obtain ⟨hf1, hf2, hf3⟩ := hf
  obtain ⟨hj1, hj2, hj3⟩ := hj
  rw [abs_le] at hf2 hj2
  have hI : IsSpin (half i) := ⟨i, by unfold half; simp⟩
  have hJ' : IsSpin (half j') := ⟨j', by unfold half; simp⟩
  -- the three natural numbers
  obtain ⟨x, hx⟩ : ∃ x : ℕ, 2 * (x : ℤ) = j + f - i := ⟨((j + f - i) / 2).toNat, by omega⟩
  obtain ⟨y, hy⟩ : ∃ y : ℕ, 2 * (y : ℤ) = f + i - j := ⟨((f + i - j) / 2).toNat, by omega⟩
  obtain ⟨z, hz⟩ : ∃ z : ℕ, 2 * (z : ℤ) = i + j - f := ⟨((i + j - f) / 2).toNat, by omega⟩
  obtain ⟨α, hα⟩ : ∃ α : ℤ, (j' : ℤ) = j + 2 * α := ⟨(j' - j) / 2, by omega⟩
  have ef : f = x + y := by omega
  have ei : (i : ℤ) = y + z := by omega
  have ej : (j : ℤ) = x + z := by omega
  have ej' : (j' : ℤ) = x + z + 2 * α := by omega
  have hα3 : α = 1 ∨ α = 0 ∨ α = -1 := by omega
  have hsum : α = 1 ∨ (α = 0 ∧ 1 ≤ x + z) ∨ (α = -1 ∧ 2 ≤ x + z) := by omega
  set g : ℚ → ℝ := fun F' => ((2 * F' + 1 : ℚ) : ℝ) * six (half j) (half j') 1 F' (half f) (half i) ^ 2 with hg
  have hgf : ∀ f' : ℤ, g (half f') = ((f' + 1 : ℤ) : ℝ) * w6 j' f' i f j 2 ^ 2 := by
    intro f'
    simp only [hg]
    rw [← six_spell, ← half_one, six_half]
    congr 1
    unfold half
    push_cast
    ring
  have hgb : ∀ β : ℤ, (β = 1 ∨ β = 0 ∨ β = -1) → g (half (f + 2 * β)) = (((x + y + 2 * β + 1 : ℤ) * wsq x y z α β : ℚ) : ℝ) := by
    intro β hβ
    rw [hgf]
    have := wun_sq x y z hα3 hβ
    unfold wun at this
    rw [ej', ei, ef, ej, this]
    push_cast
    ring
  have hn : (hfFs (half i) (half j')).Nodup := by
    obtain ⟨n, h1, _⟩ := spin_count hI hJ'
    unfold hfFs
    exact AtomTk.arange_nodup h1
  have hne : ∀ a b : ℤ, a ≠ b → half a ≠ half b := fun a b h h' => h (half_inj h')
  rw [sum_three hn g (hne (f + 2 * 1) (f + 2 * 0) (by omega)) (hne (f + 2 * 1) (f + 2 * -1) (by omega))
    (hne (f + 2 * 0) (f + 2 * -1) (by omega)), hgb 1 (by simp), hgb 0 (by simp), hgb (-1) (by simp)]
  · have := wsq_sum x y z hsum
    have e : (2 * half j + 1 : ℚ) = x + z + 1 := by
      unfold half
      have : ((j : ℤ) : ℚ) = x + z := by rw [ej]; push_cast; ring
      rw [this]; ring
    rw [e]
    have h3 : (((x + y + 2 * 1 + 1 : ℤ) * wsq x y z α 1 : ℚ)) + ((x + y + 2 * 0 + 1 : ℤ) * wsq x y z α 0 : ℚ) +
        ((x + y + 2 * -1 + 1 : ℤ) * wsq x y z α (-1) : ℚ) = 1 / (x + z + 1) := by
      rw [← this]; push_cast; ring
    exact_mod_cast congrArg (fun q : ℚ => (q : ℝ)) h3
  · intro F' hF' n1 n2 n3
    obtain ⟨f', rfl⟩ := half_of (hfFs_spin hI hJ' hF').isHalfInt
    rw [hgf, w6_zero]
    · simp
    · rintro ⟨-, -, ⟨t1, t2, t3⟩, -⟩
      rw [abs_le] at t2
      have a1 : f' ≠ f + 2 * 1 := fun h => n1 (by rw [h])
      have a2 : f' ≠ f + 2 * 0 := fun h => n2 (by rw [h])
      have a3 : f' ≠ f + 2 * -1 := fun h => n3 (by rw [h])
      omega
  · intro F' hF' hnm
    have : ∃ f', F' = half f' := by
      rcases hF' with rfl | rfl | rfl <;> exact ⟨_, rfl⟩
    obtain ⟨f', rfl⟩ := this
    rw [hgf, w6_zero]
    · simp
    · rintro ⟨t, -⟩
      exact hnm ((mem_hfFs_tri i j' f').2 t)

/-- Only one projection contributes. -/
theorem threeSum_one {n : Nat} (hn : n ≠ 0) (a b m1 m2 : ℤ) :
    threeSum n (half a) 1 (half b) (half m1) (half m2) qs1 = w3 a 2 b (-m1) (m1 - m2) m2 ^ n := by
  have e : ∀ q : ℤ, three (half a) 1 (half b) (-half m1) (half q) (half m2) = if q = m1 - m2 then w3 a 2 b (-m1) (m1 - m2) m2 else 0 := by
    intro q
    rw [half_neg, ← half_one, three_half]
    split
    · rename_i h; rw [h]
    · rename_i h
      apply w3_zero
      rintro ⟨h1, -⟩
      omega
  unfold threeSum qs1
  have f1 : ((-1 : ℚ)) = half (-2) := by unfold half; norm_num
  have f2 : ((0 : ℚ)) = half 0 := by unfold half; norm_num
  simp only [List.map_cons, List.map_nil, List.sum_cons, List.sum_nil]
  have g1 := e (-2); have g2 := e 0; have g3 := e 2
  rw [← f1] at g1; rw [← f2] at g2; rw [half_one] at g3
  rw [g1, g2, g3]
  by_cases c1 : -2 = m1 - m2
  · rw [if_pos c1, if_neg (by omega), if_neg (by omega)]; simp [hn]
  · by_cases c2 : 0 = m1 - m2
    · rw [if_neg c1, if_pos c2, if_neg (by omega)]; simp [hn]
    · by_cases c3 : 2 = m1 - m2
      · rw [if_neg c1, if_neg c2, if_pos c3]; simp [hn]
      · rw [if_neg c1, if_neg c2, if_neg c3, w3_zero]
        · simp [hn]
        · rintro ⟨-, h2, -, h3, -, -, h4, -⟩
          rw [abs_le] at h4
          omega

/-- Only one projection contributes. -/
theorem threeSum_two {n : Nat} (hn : n ≠ 0) (a b m1 m2 : ℤ) :
    threeSum n (half a) 2 (half b) (half m1) (half m2) qs2 = w3 a 4 b (-m1) (m1 - m2) m2 ^ n := by
  have e : ∀ q : ℤ, three (half a) 2 (half b) (-half m1) (half q) (half m2) = if q = m1 - m2 then w3 a 4 b (-m1) (m1 - m2) m2 else 0 := by
    intro q
    rw [half_neg, ← half_two, three_half]
    split
    · rename_i h; rw [h]
    · rename_i h
      apply w3_zero
      rintro ⟨h1, -⟩
      omega
  unfold threeSum qs2
  have f1 : ((-1 : ℚ)) = half (-2) := by unfold half; norm_num
  have f2 : ((0 : ℚ)) = half 0 := by unfold half; norm_num
  have f3 : ((-2 : ℚ)) = half (-4) := by unfold half; norm_num
  simp only [List.map_cons, List.map_nil, List.sum_cons, List.sum_nil]
  have g1 := e (-2); have g2 := e 0; have g3 := e 2; have g4 := e (-4); have g5 := e 4
  rw [← f1] at g1; rw [← f2] at g2; rw [half_one] at g3; rw [← f3] at g4; rw [half_two] at g5
  rw [g1, g2, g3, g4, g5]
  by_cases c1 : -2 = m1 - m2
  · rw [if_neg (by omega), if_pos c1, if_neg (by omega), if_neg (by omega), if_neg (by omega)]; simp [hn]
  · by_cases c2 : 0 = m1 - m2
    · rw [if_neg (by omega), if_neg c1, if_pos c2, if_neg (by omega), if_neg (by omega)]; simp [hn]
    · by_cases c3 : 2 = m1 - m2
      · rw [if_neg (by omega), if_neg c1, if_neg c2, if_pos c3, if_neg (by omega)]; simp [hn]
      · by_cases c4 : -4 = m1 - m2
        · rw [if_pos c4, if_neg c1, if_neg c2, if_neg c3, if_neg (by omega)]; simp [hn]
        · by_cases c5 : 4 = m1 - m2
          · rw [if_neg c4, if_neg c1, if_neg c2, if_neg c3, if_pos c5]; simp [hn]
          · rw [if_neg c4, if_neg c1, if_neg c2, if_neg c3, if_neg c5, w3_zero]
            · simp [hn]
            · rintro ⟨-, h2, -, h3, -, -, h4, -⟩
              rw [abs_le] at h4
              omega

/-- The two orders of the levels. -/
theorem w3_turn (a k b m1 m2 : ℤ) : w3 b k a (-m2) (m2 - m1) m1 ^ 2 = w3 a k b (-m1) (m1 - m2) m2 ^ 2 := by
  rw [w3_sq_13, ← w3_sq_flip]
  congr 2 <;> ring

theorem threeSum_nonneg (F1 k F2 m1 m2 : ℚ) (qs : List ℚ) : 0 ≤ threeSum 2 F1 k F2 m1 m2 qs := by
  unfold threeSum
  refine List.sum_nonneg ?_
  intro x hx
  obtain ⟨q, -, rfl⟩ := List.mem_map.1 hx
  positivity

/-- The triangle rule of the hyperfine numbers. -/
theorem six_tri {J1 F1 J2 F2 I : ℚ} {k : ℤ} (h1 : IsHalfInt F1) (h2 : IsHalfInt F2) (h : six J1 J2 (half k) F2 F1 I ≠ 0) :
    |F1 - F2| ≤ half k ∧ half k ≤ F1 + F2 := by
  obtain ⟨f1, rfl⟩ := half_of h1
  obtain ⟨f2, rfl⟩ := half_of h2
  unfold six at h
  simp only [floor_half] at h
  by_contra hc
  refine h (w6_zero ?_)
  rintro ⟨-, -, -, t1, t2, t3⟩
  apply hc
  rw [abs_le] at t2 ⊢
  unfold half
  have a1 : (f1 : ℚ) - f2 ≤ k := by exact_mod_cast (by omega : f1 - f2 ≤ k)
  have a2 : -(k : ℚ) ≤ f1 - f2 := by exact_mod_cast (by omega : -k ≤ f1 - f2)
  have a3 : (k : ℚ) ≤ f1 + f2 := by exact_mod_cast (by omega : k ≤ f1 + f2)
  refine ⟨⟨by linarith, by linarith⟩, by linarith⟩

end Strengths
end AtomTk
