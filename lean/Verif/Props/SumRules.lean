import Verif.Proofs.ThreeNorm
import Verif.Props.CouplingSum
import Verif.Props.SubTrans
import Verif.Props.Level

/-! # C96-C98: sum rules of hyperfine and Zeeman line strengths (atom.py:753-836) -/

namespace AtomTk
open Util World Strengths Racah

/-! ## C96 -/

/-- The sum rule of the 6j symbol over hyperfine numbers, for any multipole `k`. -/
theorem six_sum_gen (i j j' k : ℕ) (f : ℤ) (hf : Tri j f i) (hj : Tri j' j k) :
    ((hfFs (half i) (half j')).map (fun F' => ((2 * F' + 1 : ℚ) : ℝ) * six (half j) (half j') (half k) F' (half f) (half i) ^ 2)).sum =
      1 / ((2 * half j + 1 : ℚ) : ℝ) := by
  classical
  have hI : IsSpin (half i) := ⟨i, by unfold half; simp⟩
  have hJ' : IsSpin (half j') := ⟨j', by unfold half; simp⟩
  have hn : (hfFs (half i) (half j')).Nodup := by
    obtain ⟨n, h1, _⟩ := spin_count hI hJ'
    unfold hfFs
    exact AtomTk.arange_nodup h1
  rw [← List.sum_toFinset _ hn, sum_halves _ (j' + i + 1)]
  · have e : ∀ n : ℕ, ((2 * half n + 1 : ℚ) : ℝ) * six (half j) (half j') (half k) (half n) (half f) (half i) ^ 2 =
        (1 / ((2 * half j + 1 : ℚ) : ℝ)) * ((((n : ℤ) : ℝ) + 1) * (((j : ℤ) : ℝ) + 1) * w6 j' k j f i n ^ 2) := by
      intro n
      rw [six_half, two_half, two_half, ← w6_cyc (j : ℤ) j' k n f i]
      have : ((j : ℝ) + 1) ≠ 0 := by positivity
      push_cast
      field_simp
    rw [Finset.sum_congr rfl (fun n _ => e n), ← Finset.mul_sum]
    have t1 : Tri j' k j := hj.swap.rot
    have t2 : Tri f i j := hf.rot
    rw [w6_norm t1 t2 _ (by push_cast; omega), mul_one]
  · intro L hL
    rw [List.mem_toFinset] at hL
    obtain ⟨n, rfl⟩ := spin_nat_half (hfFs_spin hI hJ' hL)
    have := ((mem_hfFs_tri i j' n).1 hL).rot.rot.2.2
    exact ⟨n, by omega, rfl⟩
  · intro n _ hL
    rw [List.mem_toFinset, mem_hfFs_tri] at hL
    rw [six_half, w6_zero]
    · ring
    · rintro ⟨-, -, t, -⟩
      exact hL (t.swap)

/-- The leading multipole of a line: 1 for E1 and M1, else 2. -/
def leading (al : Types) : ℕ := if al.1 || al.2.1 then 1 else 2

theorem hStrength_leading (al : Types) (h : al.any = true) (I J F J' F' : ℚ) : hStrength al I J F J' F' =
    ((2 * F + 1 : ℚ) : ℝ) * (((2 * F' + 1 : ℚ) : ℝ) * six J J' (half ((2 * leading al : ℕ) : ℤ)) F' F I ^ 2) := by
  obtain ⟨x, y, z⟩ := al
  unfold hStrength leading
  simp only [Types.any] at h
  by_cases h1 : (x || y) = true
  · rw [if_pos h1, if_pos h1, show half ((2 * 1 : ℕ) : ℤ) = 1 from half_one]; push_cast; ring
  · have h2 : z = true := by simp only [h1, Bool.false_or] at h; exact h
    rw [if_neg h1, if_neg h1, if_pos h2, show half ((2 * 2 : ℕ) : ℤ) = 2 from half_two]; push_cast; ring

/-- The selection rule of the code, with both `J` not zero, is the triangle rule of the leading multipole. -/
theorem leading_tri {j j' : ℕ} {p p' : ℤ} {same : Bool} {n : ℤ} (hn : half j - half j' = n) (h0 : ¬(j = 0 ∧ j' = 0))
    (h : (Types.any (allowedTypes (half j) (half j') p p' same)) = true) :
    Tri j' j ((2 * leading (allowedTypes (half j) (half j') p p' same) : ℕ) : ℤ) := by
  have hn' : (j : ℤ) - j' = 2 * n := by
    unfold half at hn
    have : ((j : ℤ) : ℚ) - (j' : ℤ) = 2 * n := by linarith
    exact_mod_cast this
  have habs : ∀ k : ℕ, |half j' - half j| ≤ k ↔ |n| ≤ k := by
    intro k
    rw [show half j' - half j = ((-n : ℤ) : ℚ) by push_cast; linarith, ← Int.cast_abs, abs_neg]
    exact_mod_cast Iff.rfl
  have a1 := habs 1
  have a2 := habs 2
  push_cast at a1 a2
  unfold leading
  unfold allowedTypes Types.any at *
  simp only [a1, a2] at *
  unfold Tri
  by_cases h1 : |n| ≤ 1
  · simp only [h1, decide_true, Bool.true_and] at h ⊢
    have : (decide (p ≠ p') || decide (p = p')) = true := by
      by_cases e : p = p' <;> simp [e]
    rw [if_pos this]
    rw [abs_le] at h1 ⊢
    push_cast
    omega
  · simp only [h1, decide_false, Bool.false_and, Bool.or_self, Bool.false_or, Bool.and_eq_true, decide_eq_true_eq] at h ⊢
    rw [if_neg (by simp)]
    have h2 := h.1.1
    rw [abs_le] at h1 h2 ⊢
    push_cast
    omega

/-- C96: of every line that the code allows, other than J = 0 to J' = 0, the strengths from one F add up to `(2F+1)/(2J+1)`, those to
one F' to `(2F'+1)/(2J'+1)`, and all of them to `2I+1`, whatever the leading multipole. -/
theorem C96_sums {W : Wig} (hW : W.Good) {I J J' : ℚ} (hI : IsSpin I) (hJ : IsSpin J) (hJ' : IsSpin J') (hint : ∃ n : ℤ, J - J' = n)
    (h0 : ¬(J = 0 ∧ J' = 0)) (p p' : ℤ) (same : Bool) (al : Types) (hal : al = allowedTypes J J' p p' same) (hany : al.any = true) :
    ∃ v : ℚ → ℚ → ℝ, (∀ F ∈ hfFs I J, ∀ F' ∈ hfFs I J', hFactor W al I J F J' F' = .ok (v F F')) ∧
      (∀ F ∈ hfFs I J, ((hfFs I J').map (fun F' => v F F')).sum = ((2 * F + 1 : ℚ) : ℝ) / ((2 * J + 1 : ℚ) : ℝ)) ∧
      (∀ F' ∈ hfFs I J', ((hfFs I J).map (fun F => v F F')).sum = ((2 * F' + 1 : ℚ) : ℝ) / ((2 * J' + 1 : ℚ) : ℝ)) ∧
      ((hfFs I J).map (fun F => ((hfFs I J').map (fun F' => v F F')).sum)).sum = ((2 * I + 1 : ℚ) : ℝ) := by
  have hval : ∀ F ∈ hfFs I J, ∀ F' ∈ hfFs I J', hFactor W al I J F J' F' = .ok (hStrength al I J F J' F') := fun F hF F' hF' =>
    hFactor_ok hW al hI.isHalfInt hJ.isHalfInt (hfFs_spin hI hJ hF).isHalfInt hJ'.isHalfInt (hfFs_spin hI hJ' hF').isHalfInt
  obtain ⟨i, rfl⟩ := spin_nat_half hI
  obtain ⟨j, rfl⟩ := spin_nat_half hJ
  obtain ⟨j', rfl⟩ := spin_nat_half hJ'
  obtain ⟨n, hn⟩ := hint
  have hz : ∀ x : ℕ, half x = 0 ↔ x = 0 := by
    intro x
    unfold half
    simp
  rw [hz, hz] at h0
  have ht : Tri j' j ((2 * leading al : ℕ) : ℤ) := by
    rw [hal] at hany ⊢
    exact leading_tri hn h0 hany
  have row : ∀ F ∈ hfFs (half i) (half j), ((hfFs (half i) (half j')).map (fun F' => hStrength al (half i) (half j) F (half j') F')).sum =
      ((2 * F + 1 : ℚ) : ℝ) / ((2 * half j + 1 : ℚ) : ℝ) := by
    intro F hF
    obtain ⟨f, rfl⟩ := spin_nat_half (hfFs_spin hI hJ hF)
    simp only [hStrength_leading al hany]
    rw [List.sum_map_mul_left, six_sum_gen i j j' _ f ((mem_hfFs_tri i j f).1 hF) ht, mul_one_div]
  have col : ∀ F' ∈ hfFs (half i) (half j'), ((hfFs (half i) (half j)).map (fun F => hStrength al (half i) (half j) F (half j') F')).sum =
      ((2 * F' + 1 : ℚ) : ℝ) / ((2 * half j' + 1 : ℚ) : ℝ) := by
    intro F' hF'
    obtain ⟨f, rfl⟩ := spin_nat_half (hfFs_spin hI hJ' hF')
    have e : (fun F => hStrength al (half i) (half j) F (half j') (half f)) = fun F => ((2 * half f + 1 : ℚ) : ℝ) *
        (((2 * F + 1 : ℚ) : ℝ) * six (half j') (half j) (half ((2 * leading al : ℕ) : ℤ)) F (half f) (half i) ^ 2) := by
      funext F
      rw [hStrength_leading al hany, six_swap (half j') (half f) (half j) F (half i)]
      ring
    rw [e, List.sum_map_mul_left, six_sum_gen i j' j _ f ((mem_hfFs_tri i j' f).1 hF') ht.swap, mul_one_div]
  refine ⟨fun F F' => hStrength al (half i) (half j) F (half j') F', hval, row, col, ?_⟩
  rw [List.map_congr_left row]
  have hs := sum_degeneracy hI hJ
  simp only [div_eq_mul_inv]
  rw [List.sum_map_mul_right]
  have e : ((hfFs (half i) (half j)).map (fun F => ((2 * F + 1 : ℚ) : ℝ))).sum = (((2 * half i + 1) * (2 * half j + 1) : ℚ) : ℝ) := by
    rw [← hs, Rat.cast_list_sum, List.map_map]
    rfl
  rw [e]
  have hne : ((2 * half j + 1 : ℚ) : ℝ) ≠ 0 := by
    rw [two_half]
    have : (0 : ℚ) < ((j + 1 : ℤ) : ℚ) := by positivity
    exact_mod_cast this.ne'
  rw [Rat.cast_mul, mul_assoc, mul_inv_cancel₀ hne, mul_one]

/-- A quadrupole line: J = 1/2 to J' = 5/2 of the same parity, nuclear spin 1/2. -/
example : Types.any (allowedTypes (1/2) (5/2) 0 0 false) = true ∧ leading (allowedTypes (1/2) (5/2) 0 0 false) = 2 ∧ hfFs (1/2) (5/2) = [2, 3] ∧
    ∃ n : ℤ, (1/2 : ℚ) - 5/2 = n := ⟨by decide +kernel, by decide +kernel, by decide +kernel, -2, by norm_num⟩

/-! ## C97 -/

theorem zMs_halves (f : ℕ) : zMs (half f) = (List.range (f + 1)).map (fun i : ℕ => half (-(f : ℤ) + 2 * i)) := by
  unfold zMs arange
  have e : half f + 1 - -half f = ((f + 1 : ℕ) : ℚ) := by unfold half; push_cast; ring
  rw [e, Int.ceil_natCast, Int.toNat_natCast]
  refine List.map_congr_left (fun i _ => ?_)
  unfold half
  push_cast
  ring

/-- A sum over the projections of `f/2`. -/
theorem zMs_sum (f : ℕ) (g : ℚ → ℝ) : ((zMs (half f)).map g).sum = ∑ q ∈ Finset.range (f + 1), g (half ((f : ℤ) - 2 * q)) := by
  rw [zMs_halves, List.map_map, ← Finset.sum_range_reflect]
  rw [← List.sum_toFinset _ List.nodup_range, List.toFinset_range]
  refine Finset.sum_congr rfl (fun i hi => ?_)
  rw [Finset.mem_range] at hi
  simp only [Function.comp]
  congr 2
  omega

theorem mem_zMs (f : ℕ) (m : ℤ) : half m ∈ zMs (half f) ↔ |m| ≤ f ∧ ((f : ℤ) + m) % 2 = 0 := by
  rw [zMs_halves, List.mem_map, abs_le]
  constructor
  · rintro ⟨i, hi, h⟩
    rw [List.mem_range] at hi
    have := half_inj h
    omega
  · rintro ⟨⟨h1, h2⟩, h3⟩
    refine ⟨(((f : ℤ) + m) / 2).toNat, List.mem_range.2 (by omega), ?_⟩
    congr 1
    omega

/-- The sum rule of the 3j symbol over the projections of one level. -/
theorem three_sum_gen {a b k : ℕ} {m : ℤ} (hm : half m ∈ zMs (half a)) (ht : Tri a b k) (g : ℚ → ℝ)
    (hg : ∀ m' : ℤ, g (half m') = w3 a k b (-m) (m - m') m' ^ 2) : ((zMs (half b)).map g).sum = 1 / ((2 * half a + 1 : ℚ) : ℝ) := by
  rw [mem_zMs] at hm
  rw [zMs_sum]
  have hne : (((a : ℤ) : ℝ) + 1) ≠ 0 := by
    have : (0 : ℝ) ≤ ((a : ℤ) : ℝ) := by positivity
    positivity
  have e : ((2 * half a + 1 : ℚ) : ℝ) = ((a : ℤ) : ℝ) + 1 := by rw [two_half]; push_cast; ring
  rw [e, eq_div_iff hne, Finset.sum_mul]
  have := w3_norm (a := (b : ℤ)) (b := (k : ℤ)) (c := (a : ℤ)) (f := -m) ht.rot (by rw [abs_neg]; exact hm.1) (by omega)
  rw [Int.toNat_natCast] at this
  refine Eq.trans (Finset.sum_congr rfl (fun q _ => ?_)) this
  rw [hg, ← w3_sq_13, mul_comm]
  congr 3
  ring

/-- C97 in full: the strengths from one Zeeman sublevel to the sublevels of the other hyperfine level add up to `1/(2F+1)`, for
the leading multipole of the hyperfine transition. -/
def C97_full : Prop := ∀ (W : Wig), W.Good → ∀ (al : Types) (F m F' : ℚ), IsSpin F → IsSpin F' → m ∈ zMs F → al.any = true →
  Couples F F' (leading al) →
  ∃ v : ℚ → ℝ, (∀ m' ∈ zMs F', zFactor W al F m F' m' = .ok (v m')) ∧ ((zMs F').map v).sum = 1 / ((2 * F + 1 : ℚ) : ℝ)

theorem zDipole_sum {al : Types} (hal : (al.1 || al.2.1) = true) {F m F' : ℚ} (hF : IsSpin F) (hF' : IsSpin F') (hm : m ∈ zMs F)
    (hc : Couples F F' 1) : ((zMs F').map (fun m' => zStrength al F m F' m')).sum = 1 / ((2 * F + 1 : ℚ) : ℝ) := by
  obtain ⟨x, rfl⟩ := half_of (zMs_half hF hm)
  obtain ⟨a, rfl⟩ := spin_nat_half hF
  obtain ⟨b, rfl⟩ := spin_nat_half hF'
  rw [show (1 : ℚ) = half ((2 : ℕ) : ℤ) from half_one.symm] at hc
  refine three_sum_gen hm (couples_tri.1 hc) _ (fun _ => ?_)
  unfold zStrength
  rw [if_pos hal, threeSum_one (by decide)]
  rfl

/-- C97 for the dipole types. -/
theorem C97_dipole_partial {W : Wig} (hW : W.Good) (al : Types) {F m F' : ℚ} (hF : IsSpin F) (hF' : IsSpin F') (hm : m ∈ zMs F)
    (hal : (al.1 || al.2.1) = true) (hc : Couples F F' 1) :
    ∃ v : ℚ → ℝ, (∀ m' ∈ zMs F', zFactor W al F m F' m' = .ok (v m')) ∧ ((zMs F').map v).sum = 1 / ((2 * F + 1 : ℚ) : ℝ) :=
  ⟨fun m' => zStrength al F m F' m', fun _ hm' => zFactor_ok hW al hF.isHalfInt (zMs_half hF hm) hF'.isHalfInt (zMs_half hF' hm'),
    zDipole_sum hal hF hF' hm hc⟩

/-- C97 for pure E2 transitions between levels of the same F.  (Missing are F ≠ F', for which the code puts F in place of F'.) -/
theorem C97_quadrupole_partial {W : Wig} (hW : W.Good) {F m : ℚ} (hF : IsSpin F) (hm : m ∈ zMs F) (h1 : 1 ≤ F) :
    ∃ v : ℚ → ℝ, (∀ m' ∈ zMs F, zFactor W (false, false, true) F m F m' = .ok (v m')) ∧
      ((zMs F).map v).sum = 1 / ((2 * F + 1 : ℚ) : ℝ) := by
  refine ⟨fun m' => zStrength (false, false, true) F m F m', fun m' hm' =>
    zFactor_ok hW _ hF.isHalfInt (zMs_half hF hm) hF.isHalfInt (zMs_half hF hm'), ?_⟩
  obtain ⟨x, rfl⟩ := half_of (zMs_half hF hm)
  obtain ⟨a, rfl⟩ := spin_nat_half hF
  have ha : 2 ≤ a := by
    unfold half at h1
    have : (2 : ℚ) ≤ ((a : ℤ) : ℚ) := by linarith
    exact_mod_cast this
  refine three_sum_gen (k := 4) hm ⟨by push_cast; omega, by simp, by push_cast; omega⟩ _ (fun _ => ?_)
  simp only [zStrength, Bool.or_self, Bool.false_eq_true, if_false, if_true]
  rw [threeSum_two (by decide)]
  rfl

/-- A quadrupole transition out of F = 0 has no strength at all. -/
theorem zQuad_zero (m' : ℤ) : zStrength (false, false, true) 0 0 2 (half m') = 0 := by
  have e0 : half 0 = 0 := by unfold half; simp
  simp only [zStrength, Bool.or_self, Bool.false_eq_true, if_false, if_true]
  have := threeSum_two (n := 2) (by decide) 0 0 0 m'
  rw [e0] at this
  rw [this, w3_zero, zero_pow two_ne_zero]
  rintro ⟨-, -, -, -, -, -, -, -, h9, -⟩
  revert h9
  decide

/-- C97 fails: all strengths of the E2 transition from F = 0 to F' = 2 are zero. -/
theorem C97_fails : ¬C97_full := by
  intro h
  obtain ⟨v, h1, h2⟩ := h exactWig exactWig_good (false, false, true) 0 0 2 ⟨0, by simp⟩ ⟨4, by norm_num⟩ (by decide +kernel) rfl
    ⟨by simp [leading], by simp [leading], 0, by simp [leading]⟩
  have : (zMs 2).map v = (zMs 2).map (fun _ => (0 : ℝ)) := by
    refine List.map_congr_left (fun m' hm' => ?_)
    have h3 := h1 m' hm'
    rw [zFactor_ok exactWig_good _ ⟨0, by simp⟩ ⟨0, by simp⟩ ⟨4, by norm_num⟩ (zMs_half ⟨4, by norm_num⟩ hm')] at h3
    obtain ⟨x, rfl⟩ := half_of (zMs_half ⟨4, by norm_num⟩ hm')
    rw [zQuad_zero] at h3
    exact (Except.ok.inj h3).symm
  rw [this] at h2
  norm_num at h2

example : ∃ v : ℚ → ℝ, (∀ m' ∈ zMs 2, zFactor exactWig (true, false, false) 1 1 2 m' = .ok (v m')) ∧
    ((zMs 2).map v).sum = 1 / ((2 * 1 + 1 : ℚ) : ℝ) :=
  C97_dipole_partial exactWig_good _ ⟨2, by norm_num⟩ ⟨4, by norm_num⟩ (by decide +kernel) rfl ⟨by norm_num, by norm_num, -2, by norm_num⟩

example : IsSpin 2 ∧ (-1) ∈ zMs 2 ∧ (1 : ℚ) ≤ 2 := ⟨⟨4, by norm_num⟩, by decide +kernel, by norm_num⟩

/-! ## C98 -/

/-- C98 in full: all the Zeeman lines of a level `(F, m)` together have the share `1/(2J+1)` of the parent line, whatever F and m.
`types F F'` are the types of the hyperfine transitions. -/
def C98_full : Prop := ∀ (W : Wig), W.Good → ∀ (I J J' : ℚ), IsSpin I → IsSpin J → IsSpin J' → (∃ n : ℤ, J - J' = n) → ¬(J = 0 ∧ J' = 0) →
  ∀ (p p' : ℤ) (same : Bool) (al : Types), al = allowedTypes J J' p p' same → al.any = true →
  ∃ (v : ℚ → ℚ → ℝ) (types : ℚ → ℚ → Types) (z : ℚ → ℚ → ℚ → ℚ → ℝ), ∀ F ∈ hfFs I J, ∀ m ∈ zMs F,
    (∀ F' ∈ hfFs I J', hFactor W al I J F J' F' = .ok (v F F') ∧ hAllowed W al I J F J' F' = .ok (types F F') ∧
      ∀ m' ∈ zMs F', zFactor W (types F F') F m F' m' = .ok (z F m F' m')) ∧
    ((hfFs I J').map (fun F' => v F F' * ((zMs F').map (fun m' => z F m F' m')).sum)).sum = 1 / ((2 * J + 1 : ℚ) : ℝ)

/-- C98 for the dipole types. -/
theorem C98_dipole_partial {W : Wig} (hW : W.Good) {I J J' : ℚ} (hI : IsSpin I) (hJ : IsSpin J) (hJ' : IsSpin J')
    (hint : ∃ n : ℤ, J - J' = n) (h0 : ¬(J = 0 ∧ J' = 0)) (p p' : ℤ) (same : Bool) (al : Types) (hal : al = allowedTypes J J' p p' same)
    (hd : (al.1 || al.2.1) = true) :
    ∃ (v : ℚ → ℚ → ℝ) (types : ℚ → ℚ → Types) (z : ℚ → ℚ → ℚ → ℚ → ℝ), ∀ F ∈ hfFs I J, ∀ m ∈ zMs F,
      (∀ F' ∈ hfFs I J', hFactor W al I J F J' F' = .ok (v F F') ∧ hAllowed W al I J F J' F' = .ok (types F F') ∧
        ∀ m' ∈ zMs F', zFactor W (types F F') F m F' m' = .ok (z F m F' m')) ∧
      ((hfFs I J').map (fun F' => v F F' * ((zMs F').map (fun m' => z F m F' m')).sum)).sum = 1 / ((2 * J + 1 : ℚ) : ℝ) := by
  have hany : al.any = true := by simp [Types.any, hd]
  obtain ⟨v, h1, h2, -, -⟩ := C96_sums hW hI hJ hJ' hint h0 p p' same al hal hany
  refine ⟨v, fun F F' => hTypes al I J F J' F', fun F m F' m' => zStrength (hTypes al I J F J' F') F m F' m', fun F hF m hm => ?_⟩
  have sF := hfFs_spin hI hJ hF
  refine ⟨fun F' hF' => ⟨h1 F hF F' hF', hAllowed_ok hW al hI.isHalfInt hJ.isHalfInt sF.isHalfInt hJ'.isHalfInt (hfFs_spin hI hJ' hF').isHalfInt,
    fun m' hm' => zFactor_ok hW _ sF.isHalfInt (zMs_half sF hm) (hfFs_spin hI hJ' hF').isHalfInt (zMs_half (hfFs_spin hI hJ' hF') hm')⟩, ?_⟩
  have hp : ((2 * F + 1 : ℚ) : ℝ) ≠ 0 := by
    have := sF.nonneg
    have : (0 : ℚ) < 2 * F + 1 := by linarith
    exact_mod_cast this.ne'
  have e : ∀ F' ∈ hfFs I J', v F F' * ((zMs F').map (fun m' => zStrength (hTypes al I J F J' F') F m F' m')).sum =
      v F F' * (1 / ((2 * F + 1 : ℚ) : ℝ)) := by
    intro F' hF'
    have sF' := hfFs_spin hI hJ' hF'
    by_cases h6 : six J J' 1 F' F I = 0
    · have h7 := h1 F hF F' hF'
      rw [hFactor_ok hW al hI.isHalfInt hJ.isHalfInt sF.isHalfInt hJ'.isHalfInt sF'.isHalfInt] at h7
      have h8 := Except.ok.inj h7
      unfold hStrength at h8
      rw [if_pos hd, h6] at h8
      have : v F F' = 0 := by rw [← h8]; simp
      rw [this]; ring
    · rw [zDipole_sum ?_ sF sF' hm ?_]
      · unfold hTypes
        simpa [h6] using hd
      · have h7 := six_tri (k := 2) sF.isHalfInt sF'.isHalfInt (by rw [half_one]; exact h6)
        rw [half_one] at h7
        refine ⟨h7.1, h7.2, ?_⟩
        obtain ⟨f, rfl⟩ := spin_nat_half sF
        obtain ⟨f', rfl⟩ := spin_nat_half sF'
        obtain ⟨j, rfl⟩ := spin_nat_half hJ
        obtain ⟨j', rfl⟩ := spin_nat_half hJ'
        obtain ⟨i, rfl⟩ := spin_nat_half hI
        rw [← half_one, six_half] at h6
        have t := (w6_tri h6).2.2.2
        rw [show (1 : ℚ) = half ((2 : ℕ) : ℤ) from half_one.symm]
        exact (couples_tri.2 t.swap).2.2
  rw [List.map_congr_left e, List.sum_map_mul_right, h2 F hF]
  field_simp

/-- C98 fails for quadrupole lines: of J = 0 to J' = 2 without nuclear spin the Zeeman lines have no strength. -/
theorem C98_fails : ¬C98_full := by
  intro h
  obtain ⟨v, types, z, h1⟩ := h exactWig exactWig_good 0 0 2 ⟨0, by simp⟩ ⟨0, by simp⟩ ⟨4, by norm_num⟩ ⟨-2, by norm_num⟩ (by norm_num) 0 0 false
    (false, false, true) (by decide +kernel) rfl
  obtain ⟨h2, h3⟩ := h1 0 (by decide +kernel) 0 (by decide +kernel)
  have hl : hfFs 0 2 = [2] := by decide +kernel
  rw [hl] at h2 h3
  obtain ⟨-, h4, h5⟩ := h2 2 (by simp)
  rw [hAllowed_ok exactWig_good _ ⟨0, by simp⟩ ⟨0, by simp⟩ ⟨0, by simp⟩ ⟨4, by norm_num⟩ ⟨4, by norm_num⟩] at h4
  have ht : types 0 2 = (false, false, true) ∨ types 0 2 = (false, false, false) := by
    rw [← Except.ok.inj h4]
    unfold hTypes
    simp
    tauto
  have hz : (zMs 2).map (fun m' => z 0 0 2 m') = (zMs 2).map (fun _ => (0 : ℝ)) := by
    refine List.map_congr_left (fun m' hm' => ?_)
    have h6 := h5 m' hm'
    rw [zFactor_ok exactWig_good _ ⟨0, by simp⟩ ⟨0, by simp⟩ ⟨4, by norm_num⟩ (zMs_half ⟨4, by norm_num⟩ hm')] at h6
    obtain ⟨x, rfl⟩ := half_of (zMs_half ⟨4, by norm_num⟩ hm')
    rw [← Except.ok.inj h6]
    rcases ht with ht | ht <;> rw [ht]
    · exact zQuad_zero x
    · simp [zStrength]
  simp only [List.map_cons, List.map_nil, List.sum_cons, List.sum_nil] at h3
  rw [hz] at h3
  norm_num at h3

/-- The D2 line with nuclear spin 3/2. -/
example : (allowedTypes (1/2) (3/2) 0 1 false).1 = true ∧ 2 ∈ hfFs (3/2) (1/2) ∧ (-1) ∈ zMs 2 ∧ ¬((1/2 : ℚ) = 0 ∧ (3/2 : ℚ) = 0) :=
  ⟨by decide +kernel, by decide +kernel, by decide +kernel, by norm_num⟩

end AtomTk
