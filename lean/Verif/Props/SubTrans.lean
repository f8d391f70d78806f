import Verif.Proofs.SubStrength
import Verif.Props.Energies
import Verif.Props.Subs

/-! # C30, C32-C35, C41: hyperfine and Zeeman transitions

`Racah.three` and `Racah.six` are the exact symbols; `W.Good` says that the Wigner functions of the code return them. -/

namespace AtomTk
open Util World Strengths

/-! ## C34 -/

/-- Some multipole of a transition of types `al` connects the hyperfine levels `(J, F)` and `(J', F')`. -/
def Coupled (al : Types) (I J F J' F' : ℚ) : Prop :=
  ((al.1 = true ∨ al.2.1 = true) ∧ Racah.six J J' 1 F' F I ≠ 0) ∨ (al.2.2 = true ∧ Racah.six J J' 2 F' F I ≠ 0)

/-- The full claim; `|J - J'| ≤ 1` is all that the code asks of a dipole transition. -/
def C34_full : Prop := ∀ (W : Wig) (al : Types) (I J J' : ℚ), W.Good → IsSpin I → IsSpin J → IsSpin J' →
  (al.1 = true ∨ al.2.1 = true → |J - J'| ≤ 1) →
  ∃ v : ℚ → ℚ → ℝ, (∀ F ∈ hfFs I J, ∀ F' ∈ hfFs I J', hFactor W al I J F J' F' = .ok (v F F') ∧ 0 ≤ v F F' ∧
      hFactor W al I J' F' J F = .ok (v F F') ∧ (¬Coupled al I J F J' F' → v F F' = 0)) ∧
    (al.1 = true ∨ al.2.1 = true → ∀ F ∈ hfFs I J,
      ((hfFs I J').map (fun F' => v F F')).sum = ((2 * F + 1 : ℚ) : ℝ) / ((2 * J + 1 : ℚ) : ℝ))

/-- C34 but for the sum rule: the strength exists, is not negative, does not depend on the order, and vanishes exactly with
the 6j symbol of the leading multipole. -/
theorem C34_values_partial {W : Wig} (hW : W.Good) (al : Types) {I J F J' F' : ℚ} (hI : IsSpin I) (hJ : IsSpin J) (hJ' : IsSpin J')
    (hF : F ∈ hfFs I J) (hF' : F' ∈ hfFs I J') :
    ∃ v, hFactor W al I J F J' F' = .ok v ∧ 0 ≤ v ∧ hFactor W al I J' F' J F = .ok v ∧
      (¬Coupled al I J F J' F' → v = 0) ∧
      (al.1 = true ∨ al.2.1 = true → (v = 0 ↔ Racah.six J J' 1 F' F I = 0)) ∧
      (al.1 = false → al.2.1 = false → al.2.2 = true → (v = 0 ↔ Racah.six J J' 2 F' F I = 0)) := by
  have s1 := hfFs_spin hI hJ hF
  have s2 := hfFs_spin hI hJ' hF'
  have p : 0 < (((2 * F + 1) * (2 * F' + 1) : ℚ) : ℝ) := by
    have := s1.nonneg; have := s2.nonneg
    have : (0 : ℚ) < (2 * F + 1) * (2 * F' + 1) := by positivity
    exact_mod_cast this
  refine ⟨hStrength al I J F J' F', hFactor_ok hW al hI.isHalfInt hJ.isHalfInt s1.isHalfInt hJ'.isHalfInt s2.isHalfInt, ?_, ?_, ?_, ?_, ?_⟩
  · unfold hStrength
    split
    · positivity
    · split
      · positivity
      · exact le_refl _
  · rw [hFactor_ok hW al hI.isHalfInt hJ'.isHalfInt s2.isHalfInt hJ.isHalfInt s1.isHalfInt]
    unfold hStrength
    rw [six_swap J' F' J F I 1, six_swap J' F' J F I 2, mul_comm (2 * F' + 1) (2 * F + 1)]
  · intro hc
    unfold Coupled at hc
    push Not at hc
    unfold hStrength
    split
    · rename_i h
      rw [hc.1 (by simpa using h)]; ring
    · split
      · rename_i h
        rw [hc.2 h]; ring
      · rfl
  · intro h
    unfold hStrength
    rw [if_pos (by simpa using h), mul_eq_zero, or_iff_right (ne_of_gt p)]
    simp
  · intro h1 h2 h3
    unfold hStrength
    rw [if_neg (by simp [h1, h2]), if_pos h3, mul_eq_zero, or_iff_right (ne_of_gt p)]
    simp

/-- The sum rule, for `J`, `J'` that a dipole can connect (the triangle rule). -/
theorem C34_sum_partial {W : Wig} (hW : W.Good) (al : Types) {I J J' F : ℚ} (hI : IsSpin I) (hJ : IsSpin J) (hJ' : IsSpin J')
    (hal : al.1 = true ∨ al.2.1 = true) (hF : F ∈ hfFs I J) (hint : ∃ n : ℤ, J - J' = n) (h1 : |J - J'| ≤ 1) (h2 : 1 ≤ J + J') :
    ∃ v : ℚ → ℝ, (∀ F' ∈ hfFs I J', hFactor W al I J F J' F' = .ok (v F')) ∧
      ((hfFs I J').map v).sum = ((2 * F + 1 : ℚ) : ℝ) / ((2 * J + 1 : ℚ) : ℝ) := by
  refine ⟨fun F' => hStrength al I J F J' F', fun F' hF' => hFactor_ok hW al hI.isHalfInt hJ.isHalfInt (hfFs_spin hI hJ hF).isHalfInt
    hJ'.isHalfInt (hfFs_spin hI hJ' hF').isHalfInt, ?_⟩
  have e : (fun F' => hStrength al I J F J' F') =
      fun F' => ((2 * F + 1 : ℚ) : ℝ) * (((2 * F' + 1 : ℚ) : ℝ) * Racah.six J J' 1 F' F I ^ 2) := by
    funext F'
    unfold hStrength
    rw [if_pos (by simpa using hal)]
    push_cast
    ring
  rw [e, List.sum_map_mul_left]
  obtain ⟨f, rfl⟩ := half_of (hfFs_spin hI hJ hF).isHalfInt
  obtain ⟨i, rfl⟩ := hI
  obtain ⟨j, rfl⟩ := hJ
  obtain ⟨j', rfl⟩ := hJ'
  obtain ⟨n, hn⟩ := hint
  have ei : (i : ℚ) / 2 = half i := by unfold half; simp
  have ej : (j : ℚ) / 2 = half j := by unfold half; simp
  have ej' : (j' : ℚ) / 2 = half j' := by unfold half; simp
  rw [ei, ej] at hF
  have hn' : (j : ℤ) - j' = 2 * n := by
    have : (j : ℚ) - j' = 2 * n := by linarith
    exact_mod_cast this
  have t2 : Racah.Tri j' j 2 := by
    refine ⟨by omega, ?_, ?_⟩
    · rw [abs_le] at h1 ⊢
      have a1 : (j : ℚ) - j' ≤ 2 := by linarith
      have a2 : -2 ≤ (j : ℚ) - j' := by linarith
      have a3 : (j : ℤ) - j' ≤ 2 := by exact_mod_cast a1
      have a4 : -2 ≤ (j : ℤ) - j' := by exact_mod_cast a2
      omega
    · have a1 : (2 : ℚ) ≤ j + j' := by linarith
      have a3 : (2 : ℤ) ≤ j + j' := by exact_mod_cast a1
      omega
  rw [ei, ej, ej', six_sum_half i j j' f ((mem_hfFs_tri i j f).1 hF) t2, mul_one_div]

/-- C34 fails: the code takes J = 0 to J' = 0 for a dipole transition, and there the strengths are all zero. -/
theorem C34_fails : ¬C34_full := by
  intro h
  obtain ⟨v, h1, h2⟩ := h exactWig (false, true, false) 0 0 0 exactWig_good ⟨0, by simp⟩ ⟨0, by simp⟩ ⟨0, by simp⟩ (by simp)
  have hm : (0 : ℚ) ∈ hfFs 0 0 := by decide +kernel
  have hl : hfFs 0 0 = [0] := by decide +kernel
  have h3 := h2 (by simp) 0 hm
  rw [hl] at h3
  simp only [List.map_cons, List.map_nil, List.sum_cons, List.sum_nil] at h3
  have h4 := (h1 0 hm 0 hm).2.2.2 (by
    unfold Coupled
    rintro (⟨-, h⟩ | ⟨h, -⟩)
    · refine h ?_
      have := six_half 0 0 2 0 0 0
      have e0 : half 0 = 0 := by unfold half; simp
      rw [half_one, e0] at this
      rw [this]
      apply Racah.w6_zero
      unfold Racah.Tri
      norm_num
    · simp at h)
  rw [h4] at h3
  norm_num at h3

/-- The D2 line with nuclear spin 3/2: from F = 2 of J = 1/2 to J' = 3/2 the strengths sum to 5/2. -/
example : ∃ v : ℚ → ℝ, (∀ F' ∈ hfFs (3/2) (3/2), hFactor exactWig (true, false, false) (3/2) (1/2) 2 (3/2) F' = .ok (v F')) ∧
    ((hfFs (3/2) (3/2)).map v).sum = ((2 * 2 + 1 : ℚ) : ℝ) / ((2 * (1/2) + 1 : ℚ) : ℝ) :=
  C34_sum_partial exactWig_good _ ⟨3, by norm_num⟩ ⟨1, by norm_num⟩ ⟨3, by norm_num⟩ (.inl rfl) (by decide +kernel)
    ⟨-1, by norm_num⟩ (by norm_num) (by norm_num)

example : ∃ v, hFactor exactWig (true, false, false) (3/2) (1/2) 2 (3/2) 1 = .ok v ∧ 0 ≤ v ∧
    hFactor exactWig (true, false, false) (3/2) (3/2) 1 (1/2) 2 = .ok v := by
  obtain ⟨v, h1, h2, h3, _⟩ := C34_values_partial exactWig_good (true, false, false) (I := 3/2) (J := 1/2) (F := 2) (J' := 3/2) (F' := 1)
    ⟨3, by norm_num⟩ ⟨1, by norm_num⟩ ⟨3, by norm_num⟩ (by decide +kernel) (by decide +kernel)
  exact ⟨v, h1, h2, h3⟩

/-! ## C35 -/

/-- Some multipole of a hyperfine transition of types `al` connects the Zeeman levels `(F, m)` and `(F', m')`. -/
def ZCoupled (al : Types) (F m F' m' : ℚ) : Prop :=
  ((al.1 = true ∨ al.2.1 = true) ∧ ∃ q ∈ ([-1, 0, 1] : List ℚ), Racah.three F 1 F' (-m) q m' ≠ 0) ∨
    (al.2.2 = true ∧ ∃ q ∈ ([-2, -1, 0, 1, 2] : List ℚ), Racah.three F 2 F' (-m) q m' ≠ 0)

/-- The full claim. -/
def C35_full : Prop := ∀ (W : Wig) (al : Types) (F m F' m' : ℚ), W.Good → IsSpin F → IsSpin F' → m ∈ zMs F → m' ∈ zMs F' →
  ∃ v, zFactor W al F m F' m' = .ok v ∧ 0 ≤ v ∧ zFactor W al F' m' F m = .ok v ∧ (v = 0 ↔ ¬ZCoupled al F m F' m')

theorem threeSum_zero (F k F' m m' : ℚ) (qs : List ℚ) :
    threeSum 2 F k F' m m' qs = 0 ↔ ¬∃ q ∈ qs, Racah.three F k F' (-m) q m' ≠ 0 := by
  unfold threeSum
  constructor
  · intro h
    rintro ⟨q, hq, hne⟩
    have := List.all_zero_of_le_zero_le_of_sum_eq_zero (l := qs.map (fun q => Racah.three F k F' (-m) q m' ^ 2))
      (by
        intro x hx
        obtain ⟨q, -, rfl⟩ := List.mem_map.1 hx
        positivity) h (List.mem_map.2 ⟨q, hq, rfl⟩)
    exact hne (by simpa using this)
  · intro h
    refine List.sum_eq_zero ?_
    intro x hx
    obtain ⟨q, hq, rfl⟩ := List.mem_map.1 hx
    by_contra hne
    exact h ⟨q, hq, fun h0 => hne (by simp [h0])⟩

/-- C35 for transitions without E2.  (With E2 as well as M1 the strength is the one of M1 alone, so it may vanish while E2
connects the levels: missing.) -/
theorem C35_dipole_partial {W : Wig} (hW : W.Good) (al : Types) {F m F' m' : ℚ} (hF : IsSpin F) (hF' : IsSpin F') (hm : m ∈ zMs F)
    (hm' : m' ∈ zMs F') (hal : al.1 = true ∨ al.2.1 = true) :
    ∃ v, zFactor W al F m F' m' = .ok v ∧ 0 ≤ v ∧ zFactor W al F' m' F m = .ok v ∧
      (v = 0 ↔ ¬∃ q ∈ ([-1, 0, 1] : List ℚ), Racah.three F 1 F' (-m) q m' ≠ 0) ∧
      (al.2.2 = false → (v = 0 ↔ ¬ZCoupled al F m F' m')) := by
  have b : (al.1 || al.2.1) = true := by simpa using hal
  have hz : threeSum 2 F 1 F' m m' qs1 = 0 ↔ ¬∃ q ∈ ([-1, 0, 1] : List ℚ), Racah.three F 1 F' (-m) q m' ≠ 0 := threeSum_zero ..
  refine ⟨threeSum 2 F 1 F' m m' qs1, ?_, threeSum_nonneg .., ?_, hz, fun h2 => ?_⟩
  · rw [zFactor_ok hW al hF.isHalfInt (zMs_half hF hm) hF'.isHalfInt (zMs_half hF' hm')]
    unfold zStrength
    rw [if_pos b]
  · rw [zFactor_ok hW al hF'.isHalfInt (zMs_half hF' hm') hF.isHalfInt (zMs_half hF hm)]
    unfold zStrength
    rw [if_pos b]
    obtain ⟨a, rfl⟩ := half_of hF.isHalfInt
    obtain ⟨c, rfl⟩ := half_of hF'.isHalfInt
    obtain ⟨x, rfl⟩ := half_of (zMs_half hF hm)
    obtain ⟨y, rfl⟩ := half_of (zMs_half hF' hm')
    rw [threeSum_one (by decide), threeSum_one (by decide), w3_turn]
  · rw [hz]
    unfold ZCoupled
    simp only [h2, Bool.false_eq_true, false_and, or_false, hal, true_and]

/-- C35 for pure E2 transitions between levels of the same F.  (The code uses F twice instead of F and F': missing are
F ≠ F'.) -/
theorem C35_quadrupole_partial {W : Wig} (hW : W.Good) {F m m' : ℚ} (hF : IsSpin F) (hm : m ∈ zMs F)
    (hm' : m' ∈ zMs F) :
    ∃ v, zFactor W (false, false, true) F m F m' = .ok v ∧ 0 ≤ v ∧ zFactor W (false, false, true) F m' F m = .ok v ∧
      (v = 0 ↔ ¬ZCoupled (false, false, true) F m F m') := by
  refine ⟨threeSum 2 F 2 F m m' qs2, ?_, threeSum_nonneg .., ?_, ?_⟩
  · rw [zFactor_ok hW _ hF.isHalfInt (zMs_half hF hm) hF.isHalfInt (zMs_half hF hm')]
    simp [zStrength]
  · rw [zFactor_ok hW _ hF.isHalfInt (zMs_half hF hm') hF.isHalfInt (zMs_half hF hm)]
    simp only [zStrength, Bool.or_self, Bool.false_eq_true, if_false, if_true]
    obtain ⟨a, rfl⟩ := half_of hF.isHalfInt
    obtain ⟨x, rfl⟩ := half_of (zMs_half hF hm)
    obtain ⟨y, rfl⟩ := half_of (zMs_half hF hm')
    rw [threeSum_two (by decide), threeSum_two (by decide), w3_turn]
  · rw [threeSum_zero]
    simp [ZCoupled, qs2]

/-- What always holds: the strength exists and is not negative, and without any type it is zero. -/
theorem C35_nonneg_partial {W : Wig} (hW : W.Good) (al : Types) {F m F' m' : ℚ} (hF : IsSpin F) (hF' : IsSpin F') (hm : m ∈ zMs F)
    (hm' : m' ∈ zMs F') : ∃ v, zFactor W al F m F' m' = .ok v ∧ 0 ≤ v ∧ (al = (false, false, false) → v = 0) := by
  refine ⟨_, zFactor_ok hW al hF.isHalfInt (zMs_half hF hm) hF'.isHalfInt (zMs_half hF' hm'), ?_, ?_⟩
  · unfold zStrength
    split
    · exact threeSum_nonneg ..
    · split
      · exact threeSum_nonneg ..
      · exact le_refl _
  · rintro rfl
    simp [zStrength]

/-- The squares of 3j symbols are computable. -/
theorem w3_ne {a b c d e f : ℤ} (hi : Racah.Int3 a b c d e f) (h : Racah.norm3 a b c d e f * Racah.core3 a b c d e f ^ 2 ≠ 0) :
    Racah.w3 a b c d e f ≠ 0 := by
  intro h0
  have := Racah.w3_sq a b c d e f
  rw [if_pos hi, h0] at this
  apply h
  have h2 : ((Racah.norm3 a b c d e f * Racah.core3 a b c d e f ^ 2 : ℚ) : ℝ) = 0 := by rw [← this]; simp
  exact_mod_cast h2

theorem w6_ne {a b c d e f : ℤ} (hi : Racah.Int6 a b c d e f) (h : Racah.norm6 a b c d e f * Racah.core6 a b c d e f ^ 2 ≠ 0) :
    Racah.w6 a b c d e f ≠ 0 := by
  intro h0
  have := Racah.w6_sq a b c d e f
  rw [if_pos hi, h0] at this
  apply h
  have h2 : ((Racah.norm6 a b c d e f * Racah.core6 a b c d e f ^ 2 : ℚ) : ℝ) = 0 := by rw [← this]; simp
  exact_mod_cast h2

/-- C35 fails: an E2 transition from F = 0 to F' = 2 is allowed, but its strength is zero. -/
theorem C35_fails : ¬C35_full := by
  intro h
  obtain ⟨v, h1, -, -, h2⟩ := h exactWig (false, false, true) 0 0 2 0 exactWig_good ⟨0, by simp⟩ ⟨4, by norm_num⟩
    (by decide +kernel) (by decide +kernel)
  rw [zFactor_ok exactWig_good _ ⟨0, by simp⟩ ⟨0, by simp⟩ ⟨4, by norm_num⟩ ⟨0, by simp⟩] at h1
  simp only [zStrength, Bool.or_self, Bool.false_eq_true, if_false, if_true, Except.ok.injEq] at h1
  have e0 : half 0 = 0 := by unfold half; simp
  have e := threeSum_two (n := 2) (by decide) 0 0 0 0
  rw [e0] at e
  rw [e, Racah.w3_zero] at h1
  · refine h2.1 (by rw [← h1]; simp) (.inr ⟨rfl, 0, by simp, ?_⟩)
    have := three_half 0 4 4 0 0 0
    rw [half_two, e0] at this
    rw [neg_zero, this]
    exact w3_ne (by decide) (by decide +kernel)
  · rintro ⟨-, -, -, -, -, -, -, -, h9, -⟩
    revert h9
    decide

/-- The hypotheses of `C35_dipole_partial` and `C35_quadrupole_partial` with strengths that do not vanish. -/
example : ∃ v, zFactor exactWig (true, false, false) (1/2) (1/2) (3/2) (3/2) = .ok v ∧ v ≠ 0 := by
  obtain ⟨v, h1, -, -, h2, -⟩ := C35_dipole_partial exactWig_good (true, false, false) (F := 1/2) (m := 1/2) (F' := 3/2) (m' := 3/2)
    ⟨1, by norm_num⟩ ⟨3, by norm_num⟩ (by decide +kernel) (by decide +kernel) (.inl rfl)
  refine ⟨v, h1, fun h0 => h2.1 h0 ⟨-1, by simp, ?_⟩⟩
  have := three_half 1 2 3 (-1) (-2) 3
  have e1 : half 1 = 1/2 := by unfold half; norm_num
  have e3 : half 3 = 3/2 := by unfold half; norm_num
  have e4 : half (-1) = -(1/2) := by unfold half; norm_num
  have e5 : half (-2) = -1 := by unfold half; norm_num
  rw [half_one, e1, e3, e4, e5] at this
  rw [this]
  exact w3_ne (by decide) (by decide +kernel)

example : ∃ v, zFactor exactWig (false, false, true) 2 2 2 0 = .ok v ∧ v ≠ 0 := by
  obtain ⟨v, h1, -, -, h2⟩ := C35_quadrupole_partial exactWig_good (F := 2) (m := 2) (m' := 0)
    ⟨4, by norm_num⟩ (by decide +kernel) (by decide +kernel)
  refine ⟨v, h1, fun h0 => h2.1 h0 (.inr ⟨rfl, 2, by simp, ?_⟩)⟩
  have := three_half 4 4 4 (-4) 4 0
  have e0 : half 0 = 0 := by unfold half; simp
  have e4 : half (-4) = -2 := by unfold half; norm_num
  rw [half_two, e0, e4] at this
  rw [this]
  exact w3_ne (by decide) (by decide +kernel)

/-! ## C32 -/

/-- The transition `x` goes from the hyperfine level `F` of the first to the hyperfine level `F'` of the second level. -/
def Connects (w : World) (x : HTr) (F F' : ℚ) : Prop := (w.hf x.e1).term.F = some F ∧ (w.hf x.e2).term.F = some F'

/-- The types of a hyperfine transition: the parent's, and only those that obey the triangle rule. -/
def TypesRule (al : Types) (x : HTr) (F F' : ℚ) : Prop :=
  x.allowed.any = true ∧ (x.allowed.1 = true → al.1 = true) ∧ (x.allowed.2.1 = true → al.2.1 = true) ∧
    (x.allowed.2.2 = true → al.2.2 = true) ∧ (x.allowed.1 = true ∨ x.allowed.2.1 = true → |F - F'| ≤ 1 ∧ 1 ≤ F + F') ∧
    (x.allowed.2.2 = true → |F - F'| ≤ 2 ∧ 2 ≤ F + F')

/-- The full claim. -/
def C32_full : Prop := ∀ (W : Wig) (w : World) (t : Nat) (J J' : ℚ), W.Good → Reachable w → t < w.ntr → SubReady w t J J' →
  Types.any (w.tr t).allowed = true →
  ∃ w' d, hSubs W t [] w = (w', .ok d) ∧
    (∀ x ∈ d.vals, ∃ F F', F ∈ hfFs w.I J ∧ F' ∈ hfFs w.I J' ∧ Connects w' x F F' ∧ TypesRule (w.tr t).allowed x F F') ∧
    ∀ F ∈ hfFs w.I J, ∀ F' ∈ hfFs w.I J', (∃ x ∈ d.vals, Connects w' x F F') ↔ Coupled (w.tr t).allowed w.I J F J' F'

theorem coupled_iff (al : Types) (I J F J' F' : ℚ) : (hTypes al I J F J' F').any = true ↔ Coupled al I J F J' F' := by
  unfold hTypes Types.any Coupled
  simp only [Bool.or_eq_true, Bool.and_eq_true, decide_eq_true_eq]
  tauto

theorem typesRule_of {w : World} {t a b : Nat} {J F J' F' : ℚ} (hF : IsHalfInt F) (hF' : IsHalfInt F')
    (h : (w.mkHTr t a b J F J' F').allowed.any = true) : TypesRule (w.tr t).allowed (w.mkHTr t a b J F J' F') F F' := by
  refine ⟨h, ?_, ?_, ?_, ?_, ?_⟩ <;> simp only [mkHTr, hTypes, Bool.and_eq_true, decide_eq_true_eq]
  · exact fun h => h.2
  · exact fun h => h.2
  · exact fun h => h.2
  · rintro (⟨h, -⟩ | ⟨h, -⟩) <;>
    · rw [← half_one] at h ⊢
      exact six_tri hF hF' h
  · rintro ⟨h, -⟩
    rw [← half_two] at h ⊢
    exact six_tri hF hF' h

/-- C32, soundness: populating succeeds, and every subtransition joins hyperfine levels of the two levels which a multipole
of the parent connects; its types are types of the parent that obey the triangle rule. -/
theorem C32_sound_partial {W : Wig} (hW : W.Good) {w : World} (hr : Reachable w) {t : Nat} {J J' : ℚ} (hs : SubReady w t J J') :
    ∃ w' d, hSubs W t [] w = (w', .ok d) ∧
      ∀ x ∈ d.vals, ∃ F F', F ∈ hfFs w.I J ∧ F' ∈ hfFs w.I J' ∧ x.e1 ∈ (w'.lv (w.tr t).e1).subs.vals ∧
        x.e2 ∈ (w'.lv (w.tr t).e2).subs.vals ∧ Connects w' x F F' ∧ TypesRule (w.tr t).allowed x F F' ∧
        Coupled (w.tr t).allowed w.I J F J' F' := by
  obtain ⟨w', d, h1, h2, h3, h4, h5, h6, h7, h8, -⟩ := hSubs_spec hW hr.subInv hs
  refine ⟨w', d, h1, ?_⟩
  intro x hx
  obtain ⟨k, hk⟩ := (Dict.mem_vals h5 x).1 hx
  obtain ⟨a, b, F, F', i1, i2, -, rfl, i4, -⟩ := h8 k x hk
  have v1 := (hyp_vals h3 h4.hI h4.hJ1 h4.s1 h4.F1 a).2 ⟨F, i1⟩
  have v2 := (hyp_vals h3 h4.hI h4.hJ2 h4.s2 h4.F2 b).2 ⟨F', i2⟩
  have m1 := i1.mem; have m2 := i2.mem
  rw [h2.I] at m1 m2
  have r := typesRule_of (hfFs_spin hs.hI hs.s1 m1).isHalfInt (hfFs_spin hs.hI hs.s2 m2).isHalfInt i4
  have c := (coupled_iff _ _ _ _ _ _).1 i4
  rw [h2.tr] at v1 v2 r c
  rw [h2.I] at c
  exact ⟨F, F', m1, m2, v1, v2, ⟨i1.F, i2.F⟩, r, c⟩

/-- All the hyperfine levels of one level lie on the same side of all those of the other. -/
def Separated (w : World) (t : Nat) (J J' : ℚ) : Prop :=
  (∀ F ∈ hfFs w.I J, ∀ F' ∈ hfFs w.I J', w.hypE (w.tr t).e1 J F < w.hypE (w.tr t).e2 J' F') ∨
    (∀ F ∈ hfFs w.I J, ∀ F' ∈ hfFs w.I J', w.hypE (w.tr t).e2 J' F' ≤ w.hypE (w.tr t).e1 J F)

theorem Separated.frame {w w' : World} {t : Nat} {J J' : ℚ} (h : Separated w t J J') (hf : LFrame w w') : Separated w' t J J' := by
  unfold Separated at *
  rw [hf.tr, hf.I]
  simp only [hf.hypE]
  exact h

/-- The dictionary key of a subtransition. -/
theorem hKey_of {w : World} {t a b : Nat} {J F J' F' : ℚ} (h1 : IsHyp w (w.tr t).e1 J a F) (h2 : IsHyp w (w.tr t).e2 J' b F') :
    w.hKey (w.mkHTr t a b J F J' F') =
      if w.hypE (w.tr t).e2 J' F' > w.hypE (w.tr t).e1 J F then (fKey F, fKey F') else (fKey F', fKey F) := by
  unfold hKey mkHTr
  simp only
  split
  · rw [h1.short, h2.short]
  · rw [h1.short, h2.short]

theorem sep_inj {w : World} {t : Nat} {J J' : ℚ} (hI : IsSpin w.I) (hJ : IsSpin J) (hJ' : IsSpin J') (hs : Separated w t J J')
    {a b a' b' : Nat} {F F' G G' : ℚ} (h1 : IsHyp w (w.tr t).e1 J a F) (h2 : IsHyp w (w.tr t).e2 J' b F')
    (h1' : IsHyp w (w.tr t).e1 J a' G) (h2' : IsHyp w (w.tr t).e2 J' b' G')
    (hk : w.hKey (w.mkHTr t a' b' J G J' G') = w.hKey (w.mkHTr t a b J F J' F')) : a' = a ∧ b' = b := by
  rw [hKey_of h1 h2, hKey_of h1' h2'] at hk
  have key : fKey G = fKey F ∧ fKey G' = fKey F' := by
    rcases hs with hs | hs
    · rw [if_pos (hs _ h1.mem _ h2.mem), if_pos (hs _ h1'.mem _ h2'.mem)] at hk
      exact ⟨congrArg Prod.fst hk, congrArg Prod.snd hk⟩
    · rw [if_neg (not_lt.2 (hs _ h1.mem _ h2.mem)), if_neg (not_lt.2 (hs _ h1'.mem _ h2'.mem))] at hk
      exact ⟨congrArg Prod.snd hk, congrArg Prod.fst hk⟩
  obtain rfl := fKey_inj (hfFs_spin hI hJ h1'.mem).isHalfInt (hfFs_spin hI hJ h1.mem).isHalfInt key.1
  obtain rfl := fKey_inj (hfFs_spin hI hJ' h2'.mem).isHalfInt (hfFs_spin hI hJ' h2.mem).isHalfInt key.2
  exact ⟨h1'.unique h1, h2'.unique h2⟩

/-- A coupled pair passes the filter on `|F - F'|`, unless the parent has both M1 and E2 and the pair differs by 2. -/
theorem pairOk_coupled {al : Types} {I J F J' F' : ℚ} (hF : IsHalfInt F) (hF' : IsHalfInt F')
    (hal : ¬(al.2.1 = true ∧ al.2.2 = true) ∨ |F - F'| ≤ 1) (hc : Coupled al I J F J' F') :
    pairOk al (some F) (some F') = .ok true := by
  have hany : al.any = true := by
    unfold Types.any
    rcases hc with ⟨h | h, -⟩ | ⟨h, -⟩ <;> simp [h]
  unfold pairOk maxDelta
  rw [if_pos hany]
  simp only [Except.ok.injEq, decide_eq_true_eq]
  rcases hc with ⟨h, h6⟩ | ⟨h, h6⟩
  · rw [← half_one] at h6
    have := (six_tri hF hF' h6).1
    rw [half_one] at this
    split <;> linarith
  · rw [← half_two] at h6
    have := (six_tri hF hF' h6).1
    rw [half_two] at this
    rcases hal with hal | hal
    · have : al.2.1 = false := by
        by_contra hx
        exact hal ⟨by simpa using hx, h⟩
      rw [if_pos (by simp [h, this])]
      exact ‹|F - F'| ≤ 2›
    · split <;> linarith

/-- C32, completeness, for separated manifolds of a transition that has not both M1 and E2, or pairs with `|F - F'| ≤ 1`: a
coupled pair has its subtransition.  Missing: overlapping manifolds, and `|F - F'| = 2` when M1 is allowed as well
(`C32_fails`). -/
theorem C32_complete_partial {W : Wig} (hW : W.Good) {w : World} (hr : Reachable w) {t : Nat} {J J' : ℚ} (hs : SubReady w t J J')
    (hsep : Separated w t J J') :
    ∃ w' d, hSubs W t [] w = (w', .ok d) ∧
      ∀ F ∈ hfFs w.I J, ∀ F' ∈ hfFs w.I J', ¬((w.tr t).allowed.2.1 = true ∧ (w.tr t).allowed.2.2 = true) ∨ |F - F'| ≤ 1 →
        Coupled (w.tr t).allowed w.I J F J' F' → ∃ x ∈ d.vals, Connects w' x F F' := by
  obtain ⟨w', d, h1, h2, h3, h4, h5, h6, h7, -, h9⟩ := hSubs_spec hW hr.subInv hs
  refine ⟨w', d, h1, ?_⟩
  intro F hF F' hF' hal hc
  obtain ⟨a, ha⟩ := hyp_all h3 h4.hJ1 h4.hI h4.s1 h4.F1 h6 (F := F) (by rw [h2.I]; exact hF)
  obtain ⟨b, hb⟩ := hyp_all h3 h4.hJ2 h4.hI h4.s2 h4.F2 h7 (F := F') (by rw [h2.I]; exact hF')
  have o := pairOk_coupled (hfFs_spin hs.hI hs.s1 hF).isHalfInt (hfFs_spin hs.hI hs.s2 hF').isHalfInt hal hc
  have hc' : (w'.mkHTr t a b J F J' F').allowed.any = true := by
    refine (coupled_iff _ _ _ _ _ _).2 ?_
    rw [h2.tr, h2.I]; exact hc
  obtain ⟨-, h10⟩ := h9 a b F F' ha hb (by rw [h2.tr]; exact o) hc'
  have h11 := h10 (fun a' b' G G' g1 g2 hk => sep_inj h4.hI h4.s1 h4.s2 (hsep.frame h2) ha hb g1 g2 hk)
  exact ⟨_, (Dict.mem_vals h5 _).2 ⟨_, h11⟩, ha.F, hb.F⟩

/-- A level with J = 1. -/
def oneTerm (c : Char) : Term := ⟨[c], "3P".toList, some 1, none, none, 100, { l := some 1, s := some 1 }⟩

/-- Nuclear spin 1; two J = 1 levels of the same parity and the transition between them. -/
def oneOps : List Op :=
  [.newLevel (oneTerm 'g') 0 2 1 0 0 none, .newLevel (oneTerm 'a') 500 2 1 0 0 none,
   .addLevel 0 true none, .addLevel 1 false none, .newTrans 0 1 none (.hz 1) none]

/-- The atom after these calls. -/
def oneAtom : World := runAll oneOps (emptyAtom 1 0)

theorem oneAtom_reachable : Reachable oneAtom := (Reachable.empty 1 0).runAll (by decide +kernel)

theorem oneAtom_ready : SubReady oneAtom 0 1 1 :=
  ⟨⟨2, by decide +kernel⟩, by decide +kernel, by decide +kernel, by decide +kernel, by decide +kernel, ⟨2, by norm_num⟩, ⟨2, by norm_num⟩,
    by decide +kernel, by decide +kernel⟩

theorem oneAtom_types : (oneAtom.tr 0).allowed = (false, true, true) := by decide +kernel

theorem oneAtom_coupled : Coupled (oneAtom.tr 0).allowed oneAtom.I 1 0 1 2 := by
  right
  refine ⟨by rw [oneAtom_types], ?_⟩
  have := six_half 2 2 4 4 0 2
  have e0 : half 0 = 0 := by unfold half; simp
  rw [half_one, half_two, e0] at this
  have e1 : oneAtom.I = 1 := by decide +kernel
  rw [e1, this]
  exact w6_ne (by decide) (by decide +kernel)

/-- C32 fails: with M1 and E2 both allowed the pair F = 0, F' = 2, which E2 connects, is left out. -/
theorem C32_fails : ¬C32_full := by
  intro h
  obtain ⟨w', d, h1, -, h2⟩ := h exactWig oneAtom 0 1 1 exactWig_good oneAtom_reachable (by decide +kernel) oneAtom_ready (by decide +kernel)
  obtain ⟨x, hx, c1, c2⟩ := (h2 0 (by decide +kernel) 2 (by decide +kernel)).2 oneAtom_coupled
  obtain ⟨w2, d2, g1, g2, -, -, g5, -, -, g8, -⟩ := hSubs_spec exactWig_good oneAtom_reachable.subInv oneAtom_ready
  rw [h1] at g1
  simp only [Prod.mk.injEq, Except.ok.injEq] at g1
  obtain ⟨rfl, rfl⟩ := g1
  obtain ⟨k, hk⟩ := (Dict.mem_vals g5 x).1 hx
  obtain ⟨a, b, F, F', i1, i2, i3, rfl, -, -⟩ := g8 k x hk
  have e1 : F = 0 := by
    have := i1.F
    rw [show (w'.hf a).term.F = some 0 from c1] at this
    simpa using this.symm
  have e2 : F' = 2 := by
    have := i2.F
    rw [show (w'.hf b).term.F = some 2 from c2] at this
    simpa using this.symm
  subst e1 e2
  rw [g2.tr, oneAtom_types] at i3
  revert i3
  decide +kernel

/-- Nuclear spin 3/2; the ground level has J = 1/2, the excited level, of the other parity, J = 3/2. -/
def dOps : List Op :=
  [.newLevel (demoTerm 'g') 0 2 1 0 0 none, .newLevel ⟨['e'], "2P*".toList, some (3/2), none, none, 100, { l := some 1, s := some (1/2) }⟩ 500 2 1 0 0 none,
   .addLevel 0 true none, .addLevel 1 false none, .newTrans 0 1 none (.hz 1) none]

/-- The atom after these calls. -/
def dAtom : World := runAll dOps (emptyAtom (3/2) 0)

theorem dAtom_reachable : Reachable dAtom := (Reachable.empty (3/2) 0).runAll (by decide +kernel)

theorem dAtom_ready : SubReady dAtom 0 (1/2) (3/2) :=
  ⟨⟨3, by decide +kernel⟩, by decide +kernel, by decide +kernel, by decide +kernel, by decide +kernel, ⟨1, by norm_num⟩, ⟨3, by norm_num⟩,
    by decide +kernel, by decide +kernel⟩

theorem dAtom_types : (dAtom.tr 0).allowed = (true, false, false) := by decide +kernel

theorem dAtom_separated : Separated dAtom 0 (1/2) (3/2) := .inl (by decide +kernel)

/-- F = 2 to F' = 3 exists in this atom. -/
theorem dAtom_coupled : Coupled (dAtom.tr 0).allowed dAtom.I (1/2) 2 (3/2) 3 := by
  left
  refine ⟨by rw [dAtom_types]; simp, ?_⟩
  have := six_half 1 3 2 6 4 3
  have e1 : half 1 = 1/2 := by unfold half; norm_num
  have e3 : half 3 = 3/2 := by unfold half; norm_num
  have e6 : half 6 = 3 := by unfold half; norm_num
  rw [half_one, half_two, e1, e3, e6] at this
  have e1 : dAtom.I = 3/2 := by decide +kernel
  rw [e1, this]
  exact w6_ne (by decide) (by decide +kernel)

example : ∃ w' d, hSubs exactWig 0 [] dAtom = (w', .ok d) ∧ ∃ x ∈ d.vals, Connects w' x 2 3 := by
  obtain ⟨w', d, h1, h2⟩ := C32_complete_partial exactWig_good dAtom_reachable dAtom_ready dAtom_separated
  exact ⟨w', d, h1, h2 2 (by decide +kernel) 3 (by decide +kernel) (.inl (by rw [dAtom_types]; simp)) dAtom_coupled⟩

example : ∃ w' d, hSubs exactWig 0 [] dAtom = (w', .ok d) ∧ ∀ x ∈ d.vals, ∃ F F', Connects w' x F F' ∧ |F - F'| ≤ 2 := by
  obtain ⟨w', d, h1, h2⟩ := C32_sound_partial exactWig_good dAtom_reachable dAtom_ready
  refine ⟨w', d, h1, fun x hx => ?_⟩
  obtain ⟨F, F', -, -, -, -, h3, h4, -⟩ := h2 x hx
  obtain ⟨h5, -, -, -, h6, h7⟩ := h4
  refine ⟨F, F', h3, ?_⟩
  unfold Types.any at h5
  rcases Bool.or_eq_true _ _ ▸ h5 with h | h
  · have := (h6 (by simpa using h)).1
    linarith
  · exact (h7 h).1

/-! ## C30 -/

/-- The transition `x` goes between the hyperfine levels `a` and `b`. -/
def Joins (x : HTr) (a b : Nat) : Prop := (x.e1 = a ∧ x.e2 = b) ∨ (x.e1 = b ∧ x.e2 = a)

/-- The name of a hyperfine level. -/
def World.hName (w : World) (j : Nat) : Str := (w.hf j).term.shortName

/-- The full claim: `d` are the subtransitions of `t`. -/
def C30_full : Prop := ∀ (W : Wig) (w : World) (t : Nat) (J J' : ℚ), W.Good → Reachable w → t < w.ntr → SubReady w t J J' →
  ∀ w' d, hSubs W t [] w = (w', .ok d) →
  ∀ a ∈ (w'.lv (w'.tr t).lower).subs.vals, ∀ b ∈ (w'.lv (w'.tr t).upper).subs.vals, (∃ x ∈ d.vals, Joins x a b) →
    ∃ w'' y, hItem W t d (w'.hName a, w'.hName b) w' = (w'', .ok y) ∧ Joins y a b

theorem hItem_pop {W : Wig} {t : Nat} {d : Dict (Str × Str) HTr} {w : World} (h : d ≠ []) (item : Str × Str) :
    hItem W t d item w = (w, subItem d item) := by
  have hs : hSubs W t d w = (w, .ok d) := by
    unfold hSubs
    rw [if_neg (by simpa using h)]
    rfl
  unfold hItem
  rw [PyM.bind_ok hs]
  rfl

/-- The subtransitions are stored under the names of their lower and upper ends. -/
theorem stored {W : Wig} (hW : W.Good) {w : World} (hr : Reachable w) {t : Nat} {J J' : ℚ} (hs : SubReady w t J J') {w' : World}
    {d : Dict (Str × Str) HTr} (hd : hSubs W t [] w = (w', .ok d)) {x : HTr} (hx : x ∈ d.vals) :
    d ≠ [] ∧ d.get? (w'.hName x.lower, w'.hName x.upper) = some x := by
  obtain ⟨w2, d2, h1, h2, h3, h4, h5, h6, h7, h8, -⟩ := hSubs_spec hW hr.subInv hs
  rw [hd] at h1
  simp only [Prod.mk.injEq, Except.ok.injEq] at h1
  obtain ⟨rfl, rfl⟩ := h1
  obtain ⟨k, hk⟩ := (Dict.mem_vals h5 x).1 hx
  obtain ⟨a, b, F, F', i1, i2, -, -, i4, i5⟩ := h8 k x hk
  refine ⟨?_, ?_⟩
  · rintro rfl
    simp [Dict.get?] at hk
  · rw [← i5] at hk
    exact hk

/-- Asking for a subtransition by the names of its lower and its upper end gives it, unless there is one with the names
exchanged.  Missing from C30: when there is one, that one is returned (`C30_fails`). -/
theorem C30_named_partial {W : Wig} (hW : W.Good) {w : World} (hr : Reachable w) {t : Nat} {J J' : ℚ} (hs : SubReady w t J J')
    {w' : World} {d : Dict (Str × Str) HTr} (hd : hSubs W t [] w = (w', .ok d)) {x : HTr} (hx : x ∈ d.vals)
    (ho : ∀ y ∈ d.vals, w'.hName y.lower = w'.hName x.upper → w'.hName y.upper = w'.hName x.lower →
      w'.hName x.lower = w'.hName x.upper) :
    hItem W t d (w'.hName x.lower, w'.hName x.upper) w' = (w', .ok x) := by
  obtain ⟨h0, h1⟩ := stored hW hr hs hd hx
  rw [hItem_pop h0]
  unfold subItem
  simp only
  obtain ⟨w2, d2, g1, g2, g3, g4, g5, g6, g7, g8, -⟩ := hSubs_spec hW hr.subInv hs
  rw [hd] at g1
  simp only [Prod.mk.injEq, Except.ok.injEq] at g1
  obtain ⟨rfl, rfl⟩ := g1
  cases hg : d.get? (w'.hName x.upper, w'.hName x.lower) with
  | none =>
    simp only
    rw [Dict.getE_ok.2 h1]
  | some y =>
    simp only
    obtain ⟨-, -, -, -, -, -, -, -, -, i5⟩ := g8 _ y hg
    have e := ho y ((Dict.mem_vals g5 y).2 ⟨_, hg⟩) (congrArg Prod.fst i5) (congrArg Prod.snd i5)
    rw [← e] at hg
    rw [← e] at h1
    rw [h1] at hg
    cases hg
    rfl

/-- Asking with the name of the upper end first always gives the subtransition. -/
theorem C30_exchanged_partial {W : Wig} (hW : W.Good) {w : World} (hr : Reachable w) {t : Nat} {J J' : ℚ} (hs : SubReady w t J J')
    {w' : World} {d : Dict (Str × Str) HTr} (hd : hSubs W t [] w = (w', .ok d)) {x : HTr} (hx : x ∈ d.vals) :
    hItem W t d (w'.hName x.upper, w'.hName x.lower) w' = (w', .ok x) := by
  obtain ⟨h0, h1⟩ := stored hW hr hs hd hx
  rw [hItem_pop h0]
  unfold subItem
  simp only
  rw [h1]

theorem Dict.mem_vals_of_get {κ α : Type _} [DecidableEq κ] {d : Dict κ α} {k : κ} {v : α} (h : d.get? k = some v) : v ∈ d.vals :=
  List.mem_map.2 ⟨(k, v), Dict.mem_of_get? h, rfl⟩

/-- A pair in `dAtom` that exists. -/
theorem dAtom_pair {w' : World} {d : Dict (Str × Str) HTr} (hd : hSubs exactWig 0 [] dAtom = (w', .ok d)) {F F' : ℚ}
    (hF : F ∈ hfFs dAtom.I (1/2)) (hF' : F' ∈ hfFs dAtom.I (3/2)) (hc : Coupled (dAtom.tr 0).allowed dAtom.I (1/2) F (3/2) F') :
    ∃ a b, IsHyp w' 0 (1/2) a F ∧ IsHyp w' 1 (3/2) b F' ∧
      d.get? (fKey F, fKey F') = some (w'.mkHTr 0 a b (1/2) F (3/2) F') := by
  obtain ⟨w2, d2, h1, h2, h3, h4, h5, h6, h7, -, h9⟩ := hSubs_spec exactWig_good dAtom_reachable.subInv dAtom_ready
  rw [hd] at h1
  simp only [Prod.mk.injEq, Except.ok.injEq] at h1
  obtain ⟨rfl, rfl⟩ := h1
  obtain ⟨a, ha⟩ := hyp_all h3 h4.hJ1 h4.hI h4.s1 h4.F1 h6 (F := F) (by rw [h2.I]; exact hF)
  obtain ⟨b, hb⟩ := hyp_all h3 h4.hJ2 h4.hI h4.s2 h4.F2 h7 (F := F') (by rw [h2.I]; exact hF')
  have o := pairOk_coupled (hfFs_spin dAtom_ready.hI dAtom_ready.s1 hF).isHalfInt (hfFs_spin dAtom_ready.hI dAtom_ready.s2 hF').isHalfInt
    (.inl (by rw [dAtom_types]; simp)) hc
  have hc' : (w'.mkHTr 0 a b (1/2) F (3/2) F').allowed.any = true := by
    refine (coupled_iff _ _ _ _ _ _).2 ?_
    rw [h2.tr, h2.I]; exact hc
  obtain ⟨-, h10⟩ := h9 a b F F' ha hb (by rw [h2.tr]; exact o) hc'
  have hsep := dAtom_separated.frame h2
  have h11 := h10 (fun a' b' G G' g1 g2 hk => sep_inj h4.hI h4.s1 h4.s2 hsep ha hb g1 g2 hk)
  rw [hKey_of ha hb] at h11
  have lt : w'.hypE (w'.tr 0).e1 (1/2) F < w'.hypE (w'.tr 0).e2 (3/2) F' := by
    rw [h2.tr, h2.hypE, h2.hypE]
    have : ∀ F ∈ hfFs dAtom.I (1/2), ∀ F' ∈ hfFs dAtom.I (3/2), dAtom.hypE (dAtom.tr 0).e1 (1/2) F < dAtom.hypE (dAtom.tr 0).e2 (3/2) F' := by
      decide +kernel
    exact this F hF F' hF'
  rw [if_pos lt] at h11
  have e1 : (w'.tr 0).e1 = 0 := by rw [h2.tr]; decide +kernel
  have e2 : (w'.tr 0).e2 = 1 := by rw [h2.tr]; decide +kernel
  rw [e1] at ha
  rw [e2] at hb
  exact ⟨a, b, ha, hb, h11⟩

theorem dAtom_12 : Coupled (dAtom.tr 0).allowed dAtom.I (1/2) 1 (3/2) 2 := by
  left
  refine ⟨by rw [dAtom_types]; simp, ?_⟩
  have := six_half 1 3 2 4 2 3
  have e1 : half 1 = 1/2 := by unfold half; norm_num
  have e3 : half 3 = 3/2 := by unfold half; norm_num
  rw [half_one, half_two, e1, e3] at this
  have e1 : dAtom.I = 3/2 := by decide +kernel
  rw [e1, this]
  exact w6_ne (by decide) (by decide +kernel)

theorem dAtom_21 : Coupled (dAtom.tr 0).allowed dAtom.I (1/2) 2 (3/2) 1 := by
  left
  refine ⟨by rw [dAtom_types]; simp, ?_⟩
  have := six_half 1 3 2 2 4 3
  have e1 : half 1 = 1/2 := by unfold half; norm_num
  have e3 : half 3 = 3/2 := by unfold half; norm_num
  rw [half_one, half_two, e1, e3] at this
  have e1 : dAtom.I = 3/2 := by decide +kernel
  rw [e1, this]
  exact w6_ne (by decide) (by decide +kernel)

/-- C30 fails: on the D2 line with I = 3/2 asking for (F=1, F'=2) gives the line (F=2, F'=1). -/
theorem C30_fails : ¬C30_full := by
  intro h
  obtain ⟨w', d, hd, h2, h3, h4, h5, h6, h7, h8, h9⟩ := hSubs_spec exactWig_good dAtom_reachable.subInv dAtom_ready
  obtain ⟨a, b, ha, hb, hg⟩ := dAtom_pair hd (F := 1) (F' := 2) (by decide +kernel) (by decide +kernel) dAtom_12
  obtain ⟨a', b', ha', hb', hg'⟩ := dAtom_pair hd (F := 2) (F' := 1) (by decide +kernel) (by decide +kernel) dAtom_21
  have el : (w'.tr 0).lower = 0 := by rw [h2.tr]; decide +kernel
  have eu : (w'.tr 0).upper = 1 := by rw [h2.tr]; decide +kernel
  have m1 := Dict.mem_vals_of_get ha.get
  have m2 := Dict.mem_vals_of_get hb.get
  obtain ⟨w'', y, hy, hj⟩ := h exactWig dAtom 0 (1/2) (3/2) exactWig_good dAtom_reachable (by decide +kernel) dAtom_ready w' d hd
    a (by rw [el]; exact m1) b (by rw [eu]; exact m2)
    ⟨_, Dict.mem_vals_of_get hg, .inl ⟨rfl, rfl⟩⟩
  rw [hItem_pop (by rintro rfl; simp [Dict.get?] at hg)] at hy
  unfold subItem hName at hy
  simp only [ha.short, hb.short] at hy
  rw [hg'] at hy
  simp only [Prod.mk.injEq, Except.ok.injEq] at hy
  obtain ⟨-, rfl⟩ := hy
  rcases hj with ⟨j1, -⟩ | ⟨j1, -⟩
  · simp only [mkHTr] at j1
    have := ha.F
    rw [← j1, ha'.F] at this
    norm_num at this
  · simp only [mkHTr] at j1
    have := hb.par
    rw [← j1, ha'.par] at this
    norm_num at this

/-- The hypotheses of the C30 theorems, for F = 2 to F' = 3 in `dAtom`. -/
example : ∃ w' d x, hSubs exactWig 0 [] dAtom = (w', .ok d) ∧ x ∈ d.vals ∧ Connects w' x 2 3 ∧
    hItem exactWig 0 d (w'.hName x.lower, w'.hName x.upper) w' = (w', .ok x) ∧
    hItem exactWig 0 d (w'.hName x.upper, w'.hName x.lower) w' = (w', .ok x) := by
  obtain ⟨w', d, hd, h2, h3, h4, h5, h6, h7, h8, h9⟩ := hSubs_spec exactWig_good dAtom_reachable.subInv dAtom_ready
  obtain ⟨a, b, ha, hb, hg⟩ := dAtom_pair hd (F := 2) (F' := 3) (by decide +kernel) (by decide +kernel) dAtom_coupled
  have hx := Dict.mem_vals_of_get hg
  refine ⟨w', d, _, hd, hx, ⟨ha.F, hb.F⟩, C30_named_partial exactWig_good dAtom_reachable dAtom_ready hd hx ?_,
    C30_exchanged_partial exactWig_good dAtom_reachable dAtom_ready hd hx⟩
  intro y hy e1 e2
  exfalso
  obtain ⟨-, g1⟩ := stored exactWig_good dAtom_reachable dAtom_ready hd hx
  obtain ⟨-, g2⟩ := stored exactWig_good dAtom_reachable dAtom_ready hd hy
  obtain ⟨a', b', G, G', i1, i2, -, -, -, i5⟩ := h8 _ _ g2
  obtain ⟨-, -, -, -, -, -, -, -, -, i6⟩ := h8 _ _ g1
  -- y would have F = 3 at its lower end
  have lt : ∀ F ∈ hfFs dAtom.I (1/2), F ≠ 3 := by decide +kernel
  have ltE : ∀ F ∈ hfFs dAtom.I (1/2), ∀ F' ∈ hfFs dAtom.I (3/2), dAtom.hypE (dAtom.tr 0).e1 (1/2) F < dAtom.hypE (dAtom.tr 0).e2 (3/2) F' := by
    decide +kernel
  obtain ⟨a'', b'', G, G', i1, i2, -, i4, -, -⟩ := h8 _ _ g2
  have m1 := i1.mem; have m2 := i2.mem
  rw [h2.I] at m1 m2
  have n1 : w'.hName y.lower = fKey G := by
    rw [i4]
    unfold hName mkHTr
    simp only
    rw [if_pos (by rw [h2.tr, h2.hypE, h2.hypE]; exact ltE G m1 G' m2), i1.short]
  have n2 : w'.hName (w'.mkHTr 0 a b (1/2) 2 (3/2) 3).upper = fKey 3 := by
    unfold hName mkHTr
    simp only
    rw [if_pos (by rw [h2.tr, h2.hypE, h2.hypE]; exact ltE 2 (by decide +kernel) 3 (by decide +kernel)), hb.short]
  rw [n1, n2] at e1
  exact lt G m1 (fKey_inj (hfFs_spin dAtom_ready.hI dAtom_ready.s1 m1).isHalfInt ⟨6, by norm_num⟩ e1)

/-! ## C33 -/

theorem three_sel {F m F' m' : ℚ} {k q : ℤ} (hm : IsHalfInt m) (hm' : IsHalfInt m')
    (h : Racah.three F (half k) F' (-m) (half q) m' ≠ 0) : m - m' = half q := by
  obtain ⟨x, rfl⟩ := half_of hm
  obtain ⟨y, rfl⟩ := half_of hm'
  by_contra hc
  apply h
  unfold Racah.three
  rw [half_neg]
  simp only [floor_half]
  apply Racah.w3_zero
  rintro ⟨h1, -⟩
  apply hc
  unfold half
  have : (x : ℚ) - y = q := by exact_mod_cast (by omega : x - y = q)
  rw [← this]; ring

theorem three_sel1 {F m F' m' q : ℚ} (hm : IsHalfInt m) (hm' : IsHalfInt m') (hq : q ∈ ([-1, 0, 1] : List ℚ))
    (h : Racah.three F 1 F' (-m) q m' ≠ 0) : |m - m'| ≤ 1 := by
  obtain ⟨n, rfl⟩ := half_of (hi_qs1 q hq)
  rw [← half_one] at h
  rw [three_sel hm hm' h, abs_le]
  simp only [List.mem_cons, List.not_mem_nil, or_false] at hq
  rcases hq with h | h | h <;> rw [h] <;> norm_num

theorem three_sel2 {F m F' m' q : ℚ} (hm : IsHalfInt m) (hm' : IsHalfInt m') (hq : q ∈ ([-2, -1, 0, 1, 2] : List ℚ))
    (h : Racah.three F 2 F' (-m) q m' ≠ 0) : |m - m'| ≤ 2 := by
  obtain ⟨n, rfl⟩ := half_of (hi_qs2 q hq)
  rw [← half_two] at h
  rw [three_sel hm hm' h, abs_le]
  simp only [List.mem_cons, List.not_mem_nil, or_false] at hq
  rcases hq with h | h | h | h | h <;> rw [h] <;> norm_num

theorem flag_one {F m F' m' : ℚ} (h1 : IsHalfInt F) (h2 : IsHalfInt m) (h3 : IsHalfInt F') (h4 : IsHalfInt m') :
    threeSum 1 F' 1 F m' m qs1 ≠ 0 ↔ ∃ q ∈ ([-1, 0, 1] : List ℚ), Racah.three F 1 F' (-m) q m' ≠ 0 := by
  have := threeSum_zero F 1 F' m m' qs1
  unfold qs1 at this
  rw [← not_iff_not, not_not, ← this]
  obtain ⟨a, rfl⟩ := half_of h1; obtain ⟨b, rfl⟩ := half_of h3; obtain ⟨x, rfl⟩ := half_of h2; obtain ⟨y, rfl⟩ := half_of h4
  have e := threeSum_one (n := 2) (by decide) a b x y
  unfold qs1 at e
  rw [e, threeSum_one (by decide), ← w3_turn]
  simp

theorem flag_two {F m F' m' : ℚ} (h1 : IsHalfInt F) (h2 : IsHalfInt m) (h3 : IsHalfInt F') (h4 : IsHalfInt m') :
    threeSum 1 F' 2 F m' m qs2 ≠ 0 ↔ ∃ q ∈ ([-2, -1, 0, 1, 2] : List ℚ), Racah.three F 2 F' (-m) q m' ≠ 0 := by
  have := threeSum_zero F 2 F' m m' qs2
  unfold qs2 at this
  rw [← not_iff_not, not_not, ← this]
  obtain ⟨a, rfl⟩ := half_of h1; obtain ⟨b, rfl⟩ := half_of h3; obtain ⟨x, rfl⟩ := half_of h2; obtain ⟨y, rfl⟩ := half_of h4
  have e := threeSum_two (n := 2) (by decide) a b x y
  unfold qs2 at e
  rw [e, threeSum_two (by decide), ← w3_turn]
  simp

theorem IsHyp.zready {w : World} {x : HTr} {i i' : Nat} {J F J' F' : ℚ} (hI : IsSpin w.I) (hJ : IsSpin J) (hJ' : IsSpin J')
    (h1 : IsHyp w i J x.e1 F) (h2 : IsHyp w i' J' x.e2 F') : ZReady w x i i' J F J' F' :=
  ⟨h1.lt, h2.lt, h1.J, h2.J, h1.F, h2.F, h1.par, h2.par, hfFs_spin hI hJ h1.mem, hfFs_spin hI hJ' h2.mem⟩

/-- C33: populating the Zeeman transitions of a transition `x` between hyperfine levels F and F' succeeds; each of them joins
Zeeman levels of the two ends whose projections obey the selection rule, some 3j symbol of a type of `x` does not vanish for
it, and it has only types of `x`, those whose 3j symbol does not vanish. -/
theorem C33_zeeman {W : Wig} (hW : W.Good) {w : World} (hr : Reachable w) {x : HTr} {i i' : Nat} {J F J' F' : ℚ} (hI : IsSpin w.I)
    (hJ : IsSpin J) (hJ' : IsSpin J') (h1 : IsHyp w i J x.e1 F) (h2 : IsHyp w i' J' x.e2 F') :
    ∃ w' d, zSubs W x [] w = (w', .ok d) ∧
      ∀ y ∈ d.vals, ∃ m m', m ∈ zMs F ∧ m' ∈ zMs F' ∧ y.e1 ∈ (w'.hf x.e1).subs.vals ∧ y.e2 ∈ (w'.hf x.e2).subs.vals ∧
        (w'.zl y.e1).term.mF = some m ∧ (w'.zl y.e2).term.mF = some m' ∧
        (x.allowed.2.2 = false → |m - m'| ≤ 1) ∧ |m - m'| ≤ 2 ∧ ZCoupled x.allowed F m F' m' ∧
        (y.allowed.1 = true ↔ x.allowed.1 = true ∧ ∃ q ∈ ([-1, 0, 1] : List ℚ), Racah.three F 1 F' (-m) q m' ≠ 0) ∧
        (y.allowed.2.1 = true ↔ x.allowed.2.1 = true ∧ ∃ q ∈ ([-1, 0, 1] : List ℚ), Racah.three F 1 F' (-m) q m' ≠ 0) ∧
        (y.allowed.2.2 = true ↔ x.allowed.2.2 = true ∧ ∃ q ∈ ([-2, -1, 0, 1, 2] : List ℚ), Racah.three F 2 F' (-m) q m' ≠ 0) := by
  have hz := IsHyp.zready hI hJ hJ' h1 h2
  obtain ⟨w', d, e1, e2, e3, e4, e5, e6, e7, e8, -⟩ := zSubs_spec hW hr.subInv hz
  refine ⟨w', d, e1, ?_⟩
  intro y hy
  obtain ⟨k, hk⟩ := (Dict.mem_vals e5 y).1 hy
  obtain ⟨a, b, m, m', i1, i2, -, rfl, i4, -⟩ := e8 k y hk
  have a1 := hz.s1.isHalfInt; have a2 := zMs_half hz.s1 i1.mem; have a3 := hz.s2.isHalfInt; have a4 := zMs_half hz.s2 i2.mem
  have f1 := flag_one a1 a2 a3 a4
  have f2 := flag_two a1 a2 a3 a4
  have c : ZCoupled x.allowed F m F' m' := by
    unfold ZCoupled
    rw [← f1, ← f2]
    simp only [mkZTr, zTypes, Types.any, Bool.or_eq_true, Bool.and_eq_true, decide_eq_true_eq] at i4
    tauto
  refine ⟨m, m', i1.mem, i2.mem, (zee_vals e3 e4.hJ1 e4.hF1 e4.s1 a).2 ⟨m, i1⟩, (zee_vals e3 e4.hJ2 e4.hF2 e4.s2 b).2 ⟨m', i2⟩,
    i1.mF, i2.mF, ?_, ?_, c, ?_, ?_, ?_⟩
  · intro h0
    rcases c with ⟨-, q, hq, h⟩ | ⟨h, -⟩
    · exact three_sel1 a2 a4 hq h
    · rw [h0] at h; simp at h
  · rcases c with ⟨-, q, hq, h⟩ | ⟨-, q, hq, h⟩
    · have := three_sel1 a2 a4 hq h
      linarith
    · exact three_sel2 a2 a4 hq h
  · rw [← f1]
    simp only [mkZTr, zTypes, Bool.and_eq_true, decide_eq_true_eq]
    tauto
  · rw [← f1]
    simp only [mkZTr, zTypes, Bool.and_eq_true, decide_eq_true_eq]
    tauto
  · rw [← f2]
    simp only [mkZTr, zTypes, Bool.and_eq_true, decide_eq_true_eq]
    tauto

/-- The name of a Zeeman level in the keys of the Zeeman transitions. -/
def World.zName (w : World) (j : Nat) : Str := (w.zl j).term.shortName

/-- C30 for the Zeeman transitions of a hyperfine transition: asking with the name of the upper end first gives it; asking
with the name of the lower end first gives it unless there is one with the names exchanged. -/
theorem C30_zeeman_partial {W : Wig} (hW : W.Good) {w : World} (hr : Reachable w) {x : HTr} {i i' : Nat} {J F J' F' : ℚ} (hI : IsSpin w.I)
    (hJ : IsSpin J) (hJ' : IsSpin J') (h1 : IsHyp w i J x.e1 F) (h2 : IsHyp w i' J' x.e2 F')
    {w' : World} {d : Dict (Str × Str) ZTr} (hd : zSubs W x [] w = (w', .ok d)) {y : ZTr} (hy : y ∈ d.vals) :
    zItem W x d (w'.zName y.upper, w'.zName y.lower) w' = (w', .ok y) ∧
    ((∀ z ∈ d.vals, w'.zName z.lower = w'.zName y.upper → w'.zName z.upper = w'.zName y.lower →
      w'.zName y.lower = w'.zName y.upper) → zItem W x d (w'.zName y.lower, w'.zName y.upper) w' = (w', .ok y)) := by
  obtain ⟨w2, d2, e1, e2, e3, e4, e5, e6, e7, e8, -⟩ := zSubs_spec hW hr.subInv (IsHyp.zready hI hJ hJ' h1 h2)
  rw [hd] at e1
  simp only [Prod.mk.injEq, Except.ok.injEq] at e1
  obtain ⟨rfl, rfl⟩ := e1
  obtain ⟨k, hk⟩ := (Dict.mem_vals e5 y).1 hy
  obtain ⟨-, -, -, -, -, -, -, -, -, hky⟩ := e8 k y hk
  have hne : d ≠ [] := by rintro rfl; simp [Dict.get?] at hk
  have hst : d.get? (w'.zName y.lower, w'.zName y.upper) = some y := by rw [← hky] at hk; exact hk
  have hit : ∀ item, zItem W x d item w' = (w', subItem d item) := by
    intro item
    have hs : zSubs W x d w' = (w', .ok d) := by
      unfold zSubs
      rw [if_neg (by simpa using hne)]
      rfl
    unfold zItem
    rw [PyM.bind_ok hs]
    rfl
  refine ⟨by rw [hit]; unfold subItem; simp only; rw [hst], fun ho => ?_⟩
  rw [hit]
  unfold subItem
  simp only
  cases hg : d.get? (w'.zName y.upper, w'.zName y.lower) with
  | none =>
    simp only
    rw [Dict.getE_ok.2 hst]
  | some z =>
    simp only
    obtain ⟨-, -, -, -, -, -, -, -, -, i5⟩ := e8 _ z hg
    have e := ho z ((Dict.mem_vals e5 z).2 ⟨_, hg⟩) (congrArg Prod.fst i5) (congrArg Prod.snd i5)
    rw [← e] at hg
    rw [← e] at hst
    rw [hst] at hg
    cases hg
    rfl

/-- `dAtom` with its hyperfine levels. -/
def dAtom2 : World := runAll (dOps ++ [.getSub (.fine 0) "F=1".toList, .getSub (.fine 1) "F=1".toList]) (emptyAtom (3/2) 0)

theorem dAtom2_reachable : Reachable dAtom2 := (Reachable.empty (3/2) 0).runAll (by decide +kernel)

/-- The hypotheses of `C33_zeeman` and `C30_zeeman_partial`, for the line from F = 1 to F' = 0; the transition m = 0 to m' = 0 exists. -/
example : let x : HTr := ⟨0, 0, 2, 0, 2, none, 1, (true, false, false)⟩
    (∃ w' d, zSubs exactWig x [] dAtom2 = (w', .ok d) ∧ (∃ y, y ∈ d.vals) ∧
      ∀ y ∈ d.vals, ∃ m m', (w'.zl y.e1).term.mF = some m ∧ (w'.zl y.e2).term.mF = some m' ∧ |m - m'| ≤ 1 ∧
        zItem exactWig x d (w'.zName y.upper, w'.zName y.lower) w' = (w', .ok y)) := by
  intro x
  have hI : IsSpin dAtom2.I := ⟨3, by decide +kernel⟩
  have hJ : IsSpin (1/2) := ⟨1, by norm_num⟩
  have hJ' : IsSpin (3/2) := ⟨3, by norm_num⟩
  have h1 : IsHyp dAtom2 0 (1/2) x.e1 1 := ⟨by decide +kernel, by decide +kernel, by decide +kernel, by decide +kernel, by decide +kernel,
    by decide +kernel, by decide +kernel⟩
  have h2 : IsHyp dAtom2 1 (3/2) x.e2 0 := ⟨by decide +kernel, by decide +kernel, by decide +kernel, by decide +kernel, by decide +kernel,
    by decide +kernel, by decide +kernel⟩
  obtain ⟨w', d, e, hy⟩ := C33_zeeman exactWig_good dAtom2_reachable hI hJ hJ' h1 h2
  obtain ⟨w2, d2, e1, e2, e3, e4, e5, e6, e7, e8, e9⟩ := zSubs_spec exactWig_good dAtom2_reachable.subInv (IsHyp.zready hI hJ hJ' h1 h2)
  rw [e] at e1
  simp only [Prod.mk.injEq, Except.ok.injEq] at e1
  obtain ⟨rfl, rfl⟩ := e1
  refine ⟨w', d, e, ?_, ?_⟩
  · obtain ⟨a, ha⟩ := zee_all e3 e4.hF1 e4.s1 e6 (m := 0) (by decide +kernel)
    obtain ⟨b, hb⟩ := zee_all e3 e4.hF2 e4.s2 e7 (m := 0) (by decide +kernel)
    have h0 : IsHalfInt 0 := ⟨0, by simp⟩
    have fl : threeSum 1 0 1 1 0 0 qs1 ≠ 0 := by
      rw [flag_one hi_one h0 h0 h0]
      refine ⟨0, by simp, ?_⟩
      have := three_half 2 2 0 0 0 0
      have e0 : half 0 = 0 := by unfold half; simp
      rw [half_one, e0] at this
      rw [neg_zero, this]
      exact w3_ne (by decide) (by decide +kernel)
    obtain ⟨⟨y, hy⟩, -⟩ := e9 a b 0 0 ha hb (by decide +kernel) (by simp [mkZTr, zTypes, Types.any, fl, x])
    exact ⟨y, Dict.mem_vals_of_get hy⟩
  · intro y h
    obtain ⟨m, m', -, -, -, -, g1, g2, g3, -⟩ := hy y h
    exact ⟨m, m', g1, g2, g3 rfl, (C30_zeeman_partial exactWig_good dAtom2_reachable hI hJ hJ' h1 h2 e h).1⟩

/-! ## C41 -/

/-- The energy of any level after a call that changes energies of fine-structure levels only. -/
theorem refHz_frame {w w' : World} (hI : w'.I = w.I) (hB : w'.B = w.B) (hh : w'.hf = w.hf) (hz : w'.zl = w.zl)
    (hl : ∀ i, ∃ E b, w'.lv i = { w.lv i with levelHz := E, fixed := b }) (r : Ref) (e : ℚ) (h : w.refHz r = .ok e) :
    w'.refHz r = .ok (e + (w'.eHz (w.owner r) - w.eHz (w.owner r))) := by
  have hyp : ∀ j e, w.hHz j = .ok e → w'.hHz j = .ok (e + (w'.eHz (w.hf j).parent - w.eHz (w.hf j).parent)) := by
    intro j e h
    unfold hHz at h ⊢
    have hs : w'.hShift j = w.hShift j := by
      unfold hShift
      rw [hh, hI]
      obtain ⟨E, b, hE⟩ := hl (w.hf j).parent
      rw [hE]
    rw [hs, hh]
    cases hsh : w.hShift j with
    | error er => rw [hsh] at h; simp [bind, Except.bind] at h
    | ok s =>
      rw [hsh] at h
      simp only [bind, Except.bind, Except.ok.injEq] at h ⊢
      rw [← h]; ring
  cases r with
  | fine k =>
    simp only [refHz, Except.ok.injEq, World.owner] at h ⊢
    rw [← h]; ring
  | hyp j => exact hyp j e h
  | zee k =>
    simp only [refHz, zHz] at h ⊢
    cases hp : w.hHz (w.zl k).parent with
    | error er => rw [hp] at h; simp [bind, Except.bind] at h
    | ok p =>
      rw [hp] at h
      have e3 : w'.zShiftHz k = w.zShiftHz k := by unfold zShiftHz; rw [hz, hB]
      rw [hz, hyp _ _ hp, e3]
      cases hs : w.zShiftHz k with
      | error er => rw [hs] at h; simp [bind, Except.bind] at h
      | ok s =>
        rw [hs] at h
        simp only [bind, Except.bind, Except.ok.injEq, World.owner] at h ⊢
        rw [← h]; ring

/-- A pair of levels, of any kind, of the transition `t`, the level of `t.upper` not below the one of `t.lower`; `c` is the
distance. -/
structure Upright (w : World) (t : Nat) (lo up : Ref) (c : ℚ) : Prop where
  hlo : w.owner lo = (w.tr t).lower
  hup : w.owner up = (w.tr t).upper
  pos : 0 ≤ c
  dist : ∃ a b, w.refHz lo = .ok a ∧ w.refHz up = .ok b ∧ b - a = c

/-- Setting `t` to `g` takes effect: it returns normally and its upper level is by `g` above its lower level.
`C37_first_partial` and `C37_leaf_partial` give conditions. -/
def Effective (w : World) (σ : Ord') (t : Nat) (g : ℚ) (w' : World) : Prop :=
  setFrequency σ t g w = (w', .ok ()) ∧ w'.eHz (w.tr t).upper - w'.eHz (w.tr t).lower = g

/-- If the parent's frequency takes effect, every pair of its sublevels moves with it. -/
theorem upright_moves {w w' : World} (hr : Reachable w) {σ : Ord'} (hσ : Shuffles σ) {t : Nat} {g : ℚ} (ht : InAtom w t)
    (hle : w.eHz (w.tr t).lower ≤ w.eHz (w.tr t).upper) (he : Effective w σ t g w') {lo up : Ref} {c : ℚ} (hu : Upright w t lo up c) :
    ∃ a b, w'.refHz lo = .ok a ∧ w'.refHz up = .ok b ∧ b - a = c + (g - w.freqHz t) := by
  have hw := hr.wf
  obtain ⟨k1, hb, k3, k4, k5, k6⟩ := hw.edge _ _ _ ht
  have ha : (w.lv (w.tr t).e1).inAtom = true := by
    rcases k6 with ⟨e, _⟩ | ⟨e, _⟩
    · rw [e]; exact (hw.node _ _ k3).2.1
    · rw [e]; exact (hw.node _ _ k4).2.1
  obtain ⟨w2, g1, g2, -⟩ := setFrequency_frame' hw hσ hb ha (f := g)
  rw [he.1] at g1
  simp only [Prod.mk.injEq, and_true] at g1
  subst g1
  have hlv : ∀ i, ∃ E b, w'.lv i = { w.lv i with levelHz := E, fixed := b } := by
    intro i
    obtain ⟨E, b, h⟩ := g2.lv i
    rw [h]
    unfold prep
    split
    · by_cases hi : i = (w.tr t).upper
      · refine ⟨E, b, ?_⟩
        rw [hi]
        simp [withFreq, setFixed, setTr, setLv]
      · refine ⟨E, b, ?_⟩
        simp [withFreq, setFixed, setTr, setLv, upd_ne _ _ _ hi]
    · exact ⟨E, b, rfl⟩
  have hI : w'.I = w.I := by rw [g2.I]; unfold prep; split <;> rfl
  have hB : w'.B = w.B := by rw [g2.B]; unfold prep; split <;> rfl
  have hh : w'.hf = w.hf := by rw [g2.hf]; unfold prep; split <;> rfl
  have hz : w'.zl = w.zl := by rw [g2.zl]; unfold prep; split <;> rfl
  obtain ⟨a, b, e1, e2, e3⟩ := hu.dist
  refine ⟨_, _, refHz_frame hI hB hh hz hlv lo a e1, refHz_frame hI hB hh hz hlv up b e2, ?_⟩
  rw [hu.hlo, hu.hup]
  have hfq : w.freqHz t = w.eHz (w.tr t).upper - w.eHz (w.tr t).lower := by
    unfold freqHz
    rcases k6 with ⟨e1, e2⟩ | ⟨e1, e2⟩
    · rw [e1, e2, abs_of_nonpos (by linarith)]; ring
    · rw [e1, e2, abs_of_nonneg (by linarith)]
  have := he.2
  linarith

/-- The two ends of a hyperfine transition. -/
def HTr.Ends (x : HTr) (lo up : Nat) : Prop := (x.e1 = lo ∧ x.e2 = up) ∨ (x.e1 = up ∧ x.e2 = lo)
/-- The two ends of a Zeeman transition. -/
def ZTr.Ends (x : ZTr) (lo up : Nat) : Prop := (x.e1 = lo ∧ x.e2 = up) ∨ (x.e1 = up ∧ x.e2 = lo)

theorem hFreq_of {w : World} {x : HTr} {lo up : Nat} {a b c : ℚ} (hx : x.Ends lo up) (h1 : w.refHz (.hyp lo) = .ok a)
    (h2 : w.refHz (.hyp up) = .ok b) (h3 : b - a = c) (h4 : 0 ≤ c) : w.hFreq x = .ok c := by
  unfold hFreq
  simp only [refHz] at h1 h2
  rcases hx with ⟨e1, e2⟩ | ⟨e1, e2⟩
  · rw [e1, e2, h1, h2]
    simp only [bind, Except.bind, Except.ok.injEq]
    rw [abs_sub_comm, h3, abs_of_nonneg h4]
  · rw [e1, e2, h1, h2]
    simp only [bind, Except.bind, Except.ok.injEq]
    rw [h3, abs_of_nonneg h4]

theorem zFreq_of {w : World} {x : ZTr} {lo up : Nat} {a b c : ℚ} (hx : x.Ends lo up) (h1 : w.refHz (.zee lo) = .ok a)
    (h2 : w.refHz (.zee up) = .ok b) (h3 : b - a = c) (h4 : 0 ≤ c) : w.zFreq x = .ok c := by
  unfold zFreq
  simp only [refHz] at h1 h2
  rcases hx with ⟨e1, e2⟩ | ⟨e1, e2⟩
  · rw [e1, e2, h1, h2]
    simp only [bind, Except.bind, Except.ok.injEq]
    rw [abs_sub_comm, h3, abs_of_nonneg h4]
  · rw [e1, e2, h1, h2]
    simp only [bind, Except.bind, Except.ok.injEq]
    rw [h3, abs_of_nonneg h4]

/-- The full claim, for hyperfine transitions: `x` joins a hyperfine level of the lower and one of the upper level. -/
def C41_full : Prop := ∀ (w : World) (σ : Ord') (x : HTr) (f c : ℚ), Reachable w → Shuffles σ → InAtom w x.parent → 0 ≤ f →
  (∃ lo up, x.Ends lo up ∧ w.owner (.hyp lo) = (w.tr x.parent).lower ∧ w.owner (.hyp up) = (w.tr x.parent).upper) →
  w.hFreq x = .ok c →
  ∃ w', hSetFreq σ x f w = (w', .ok ()) ∧ w'.hFreq x = .ok f

/-- C41 for hyperfine transitions, if the parent's new frequency takes effect and the transition is upright: it reads `f`, and
every upright sibling whose frequency stays positive moves by the same amount. -/
theorem C41_hyperfine_partial {w w' : World} (hr : Reachable w) {σ : Ord'} (hσ : Shuffles σ) {x : HTr} {f c : ℚ} (hf : 0 ≤ f)
    (ht : InAtom w x.parent) (hle : w.eHz (w.tr x.parent).lower ≤ w.eHz (w.tr x.parent).upper) {lo up : Nat} (hx : x.Ends lo up)
    (hu : Upright w x.parent (.hyp lo) (.hyp up) c) (he : Effective w σ x.parent (w.freqHz x.parent + (f - c)) w') :
    hSetFreq σ x f w = (w', .ok ()) ∧ w'.hFreq x = .ok f ∧
      ∀ (y : HTr) lo' up' c', y.parent = x.parent → y.Ends lo' up' → Upright w y.parent (.hyp lo') (.hyp up') c' → 0 ≤ c' + (f - c) →
        w.hFreq y = .ok c' ∧ w'.hFreq y = .ok (c' + (f - c)) := by
  have cur : w.hFreq x = .ok c := by
    obtain ⟨a, b, e1, e2, e3⟩ := hu.dist
    exact hFreq_of hx e1 e2 e3 hu.pos
  refine ⟨?_, ?_, ?_⟩
  · unfold hSetFreq
    rw [cur]
    exact he.1
  · obtain ⟨a, b, e1, e2, e3⟩ := upright_moves hr hσ ht hle he hu
    refine hFreq_of hx e1 e2 ?_ hf
    rw [e3]; ring
  · intro y lo' up' c' hp hy hu' hpos
    obtain ⟨a, b, e1, e2, e3⟩ := hu'.dist
    refine ⟨hFreq_of hy e1 e2 e3 hu'.pos, ?_⟩
    rw [hp] at hu'
    obtain ⟨a, b, e1, e2, e3⟩ := upright_moves hr hσ ht hle he hu'
    exact hFreq_of hy e1 e2 (by rw [e3]; ring) hpos

/-- The same for Zeeman transitions. -/
theorem C41_zeeman_partial {w w' : World} (hr : Reachable w) {σ : Ord'} (hσ : Shuffles σ) {x : ZTr} {f c p : ℚ} (hf : 0 ≤ f)
    (ht : InAtom w x.parent.parent) (hle : w.eHz (w.tr x.parent.parent).lower ≤ w.eHz (w.tr x.parent.parent).upper) {lo up lo2 up2 : Nat}
    (hx : x.Ends lo up) (hu : Upright w x.parent.parent (.zee lo) (.zee up) c) (hx2 : x.parent.Ends lo2 up2)
    (hu2 : Upright w x.parent.parent (.hyp lo2) (.hyp up2) p)
    (he : Effective w σ x.parent.parent (w.freqHz x.parent.parent + (f - c)) w') :
    zSetFreq σ x f w = (w', .ok ()) ∧ w'.zFreq x = .ok f ∧
      ∀ (y : ZTr) lo' up' c', y.parent.parent = x.parent.parent → y.Ends lo' up' → Upright w y.parent.parent (.zee lo') (.zee up') c' →
        0 ≤ c' + (f - c) → w.zFreq y = .ok c' ∧ w'.zFreq y = .ok (c' + (f - c)) := by
  have cur : w.zFreq x = .ok c := by
    obtain ⟨a, b, e1, e2, e3⟩ := hu.dist
    exact zFreq_of hx e1 e2 e3 hu.pos
  have cur2 : w.hFreq x.parent = .ok p := by
    obtain ⟨a, b, e1, e2, e3⟩ := hu2.dist
    exact hFreq_of hx2 e1 e2 e3 hu2.pos
  refine ⟨?_, ?_, ?_⟩
  · unfold zSetFreq hSetFreq
    rw [cur, cur2]
    simp only
    have : w.freqHz x.parent.parent + (p + (f - c) - p) = w.freqHz x.parent.parent + (f - c) := by ring
    rw [this]
    exact he.1
  · obtain ⟨a, b, e1, e2, e3⟩ := upright_moves hr hσ ht hle he hu
    refine zFreq_of hx e1 e2 ?_ hf
    rw [e3]; ring
  · intro y lo' up' c' hp hy hu' hpos
    obtain ⟨a, b, e1, e2, e3⟩ := hu'.dist
    refine ⟨zFreq_of hy e1 e2 e3 hu'.pos, ?_⟩
    rw [hp] at hu'
    obtain ⟨a, b, e1, e2, e3⟩ := upright_moves hr hσ ht hle he hu'
    exact zFreq_of hy e1 e2 (by rw [e3]; ring) hpos

/-- The new frequency of the parent takes effect in a loop-free group none of whose levels is pinned. -/
theorem effective_first {w : World} (hr : Reachable w) {σ : Ord'} (hσ : Shuffles σ) {t : Nat} {g : ℚ} (ht : InAtom w t) (hg : 0 ≤ g)
    (hlf : LoopFree (withFreq w t g) (GroupOf w t g)) (hpos : ∀ n m t' f', SetEdge w n m t' f' → 0 ≤ f')
    (hun : ∀ i, InX w (GroupOf w t g) i → (w.lv i).fixed = false) : ∃ w', Effective w σ t g w' := by
  obtain ⟨w', h1, -, -, h4⟩ := C37_first_partial hr hσ ht hg hlf hpos hun
  exact ⟨w', h1, h4⟩

/-- C41 without mention of the resulting state: in a loop-free group none of whose levels is pinned, setting any upright hyperfine
transition takes effect. -/
theorem C41_first_partial {w : World} (hr : Reachable w) {σ : Ord'} (hσ : Shuffles σ) {x : HTr} {f c : ℚ} (hf : 0 ≤ f)
    (ht : InAtom w x.parent) (hle : w.eHz (w.tr x.parent).lower ≤ w.eHz (w.tr x.parent).upper) {lo up : Nat} (hx : x.Ends lo up)
    (hu : Upright w x.parent (.hyp lo) (.hyp up) c) (hg : 0 ≤ w.freqHz x.parent + (f - c))
    (hlf : LoopFree (withFreq w x.parent (w.freqHz x.parent + (f - c))) (GroupOf w x.parent (w.freqHz x.parent + (f - c))))
    (hpos : ∀ n m t' f', SetEdge w n m t' f' → 0 ≤ f')
    (hun : ∀ i, InX w (GroupOf w x.parent (w.freqHz x.parent + (f - c))) i → (w.lv i).fixed = false) :
    ∃ w', hSetFreq σ x f w = (w', .ok ()) ∧ w'.hFreq x = .ok f ∧
      ∀ (y : HTr) lo' up' c', y.parent = x.parent → y.Ends lo' up' → Upright w y.parent (.hyp lo') (.hyp up') c' → 0 ≤ c' + (f - c) →
        w.hFreq y = .ok c' ∧ w'.hFreq y = .ok (c' + (f - c)) := by
  obtain ⟨w', he⟩ := effective_first hr hσ ht hg hlf hpos hun
  exact ⟨w', C41_hyperfine_partial hr hσ hf ht hle hx hu he⟩

/-- The line F = 1 to F' = 0 of `dAtom2`, at 497.5, and its sibling F = 2 to F' = 1, at 496.5: setting the first to 700 moves
the second to 699. -/
example : let x : HTr := ⟨0, 0, 2, 0, 2, none, 1, (true, false, false)⟩
    let y : HTr := ⟨0, 1, 3, 1, 3, none, 1, (true, false, false)⟩
    ∃ w', hSetFreq idOrd x 700 dAtom2 = (w', .ok ()) ∧ w'.hFreq x = .ok 700 ∧ dAtom2.hFreq y = .ok (993/2) ∧ w'.hFreq y = .ok 699 := by
  intro x y
  obtain ⟨w', g1, g2, g3⟩ := C41_first_partial (w := dAtom2) (σ := idOrd) (x := x) (f := 700) (c := 995/2) (lo := 0) (up := 2)
    dAtom2_reachable idOrd_shuffles (by norm_num)
    (by decide +kernel) (by decide +kernel) (.inl ⟨rfl, rfl⟩)
    ⟨by decide +kernel, by decide +kernel, by norm_num, -5/4, 1985/4, by decide +kernel, by decide +kernel, by norm_num⟩ (by decide +kernel)
    (loopFree_of_parent (fun _ => (dAtom2.lname 0)) (fun n => if n = dAtom2.lname 0 then 0 else 1) (by decide +kernel) _)
    (fun n m t f he => forall_setEdge (w := dAtom2) (P := fun _ _ _ f => 0 ≤ f) (by decide +kernel) he)
    (fun i hi => forall_level (w := dAtom2) (P := fun i => (dAtom2.lv i).fixed = false) (by decide +kernel) hi)
  obtain ⟨g4, g5⟩ := g3 y 1 3 (993/2) rfl (.inl ⟨rfl, rfl⟩)
    ⟨by decide +kernel, by decide +kernel, by norm_num, 3/4, 1989/4, by decide +kernel, by decide +kernel, by norm_num⟩ (by norm_num)
  refine ⟨w', g1, g2, g4, ?_⟩
  rw [g5]; norm_num

/-- The Lambda system of `C37_fails` with its sublevels. -/
def lambda2 : World := runAll (lambdaOps ++ [.getSub (.fine 1) "F=0.5".toList, .getSub (.fine 2) "F=0.5".toList]) (emptyAtom 0 0)

/-- C41 fails: the transition between the (only) sublevels of `a` and `b`, set from 9 to 5, still reads 9. -/
theorem C41_fails : ¬C41_full := by
  intro h
  obtain ⟨w', h1, h2⟩ := h lambda2 idOrd ⟨1, 0, 1, 0, 1, none, 1, (true, false, false)⟩ 5 9 ((Reachable.empty 0 0).runAll (by decide +kernel))
    idOrd_shuffles (by decide +kernel) (by norm_num) ⟨0, 1, .inl ⟨rfl, rfl⟩, by decide +kernel, by decide +kernel⟩ (by decide +kernel)
  have hw' : w' = (hSetFreq idOrd ⟨1, 0, 1, 0, 1, none, 1, (true, false, false)⟩ 5 lambda2).1 := by rw [h1]
  rw [hw'] at h2
  revert h2
  decide +kernel

end AtomTk
