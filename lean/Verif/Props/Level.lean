import Verif.Proofs.Level
import Verif.Props.Term

/-! # C13, C14, C18-C23: hyperfine and Zeeman structure (atom.py:281-503) -/

namespace AtomTk
open Util

/-! ## C13 -/

/-- C13: the hyperfine multiplet.  `F` occurs exactly when `|J-I| ≤ F ≤ J+I` and `F - J - I` is an integer; no value
occurs twice; there are `2 min(I,J) + 1`; the dictionary holds exactly the entries `'F=<F>' ↦ F`. -/
theorem C13_multiplet (I J : ℚ) (hI : IsSpin I) (hJ : IsSpin J) :
    (∀ F, F ∈ hfFs I J ↔ |J - I| ≤ F ∧ F ≤ J + I ∧ ∃ z : ℤ, F - J - I = z) ∧
    (hfFs I J).Nodup ∧ ((hfFs I J).length : ℚ) = 2 * min I J + 1 ∧
    (∀ k F, (hfDict I J).get? k = some F ↔
      (|J - I| ≤ F ∧ F ≤ J + I ∧ ∃ z : ℤ, F - J - I = z) ∧ k = "F=".toList ++ numToFrac F) ∧
    (hfDict I J).length = (hfFs I J).length := by
  obtain ⟨n, hn, hn2⟩ := spin_count hI hJ
  have hmem : ∀ F, F ∈ hfFs I J ↔ |J - I| ≤ F ∧ F ≤ J + I ∧ ∃ z : ℤ, F - J - I = z := by
    intro F
    rw [hfFs, mem_arange_nat hn]
    constructor
    · rintro ⟨i, hi, rfl⟩
      have hi' : (i : ℚ) + 1 ≤ n := by exact_mod_cast hi
      refine ⟨by simp, by linarith, (i : ℤ) - n + 1, ?_⟩
      push_cast; linarith
    · rintro ⟨h1, h2, z, hz⟩
      refine ⟨(z + n - 1).toNat, ?_, ?_⟩
      · have : (z : ℚ) ≤ 0 := by linarith
        have : z ≤ 0 := by exact_mod_cast this
        have hn0 : (0 : ℚ) < n := by
          rw [hn2]; have := hI.nonneg; have := hJ.nonneg
          have : 0 ≤ min I J := le_min hI.nonneg hJ.nonneg
          linarith
        have : 0 < n := by exact_mod_cast hn0
        omega
      · have hnn : 0 ≤ z + n - 1 := by
          have : (0 : ℚ) ≤ z + n - 1 := by linarith
          exact_mod_cast this
        have e : (((z + n - 1).toNat : ℕ) : ℚ) = ((z + n - 1 : ℤ) : ℚ) := by
          rw [← Int.cast_natCast, Int.toNat_of_nonneg hnn]
        rw [e]; push_cast; linarith
  obtain ⟨hd, hp⟩ := hfDict_eq hI hJ
  refine ⟨hmem, arange_nodup hn, ?_, ?_, ?_⟩
  · rw [hfFs, arange_length hn, hn2]
  · intro k F
    rw [hd, Dict.get?_map_key fKey _ _ _ hp, hmem]
    constructor
    · rintro ⟨h, rfl⟩; exact ⟨h, rfl⟩
    · rintro ⟨h, rfl⟩; exact ⟨h, rfl⟩
  · rw [hd, List.length_map]

example : IsSpin (5/2) ∧ IsSpin (3/2) ∧ hfFs (5/2) (3/2) = [1, 2, 3, 4] ∧
    (hfDict (5/2) (3/2)).keys = ["F=1".toList, "F=2".toList, "F=3".toList, "F=4".toList] :=
  ⟨⟨5, by norm_num⟩, ⟨3, by norm_num⟩, by decide +kernel, by decide +kernel⟩

/-! ## C14 -/

/-- C14: the Zeeman manifold of a hyperfine level. -/
theorem C14_manifold (F : ℚ) (hF : IsSpin F) :
    (∀ m, m ∈ zMs F ↔ -F ≤ m ∧ m ≤ F ∧ ∃ z : ℤ, m - F = z) ∧
    (zMs F).Nodup ∧ ((zMs F).length : ℚ) = 2 * F + 1 ∧
    (∀ k m, (zDict F).get? k = some m ↔
      (-F ≤ m ∧ m ≤ F ∧ ∃ z : ℤ, m - F = z) ∧ k = "mF=".toList ++ numToFrac m) ∧
    (zDict F).length = (zMs F).length := by
  obtain ⟨n, hn, hn2⟩ := spin_count_m hF
  have hmem : ∀ m, m ∈ zMs F ↔ -F ≤ m ∧ m ≤ F ∧ ∃ z : ℤ, m - F = z := by
    intro m
    rw [zMs, mem_arange_nat hn]
    constructor
    · rintro ⟨i, hi, rfl⟩
      have hi' : (i : ℚ) + 1 ≤ n := by exact_mod_cast hi
      refine ⟨by simp, by linarith, (i : ℤ) - n + 1, ?_⟩
      push_cast; linarith
    · rintro ⟨h1, h2, z, hz⟩
      have hn0 : (0 : ℚ) < n := by rw [hn2]; have := hF.nonneg; linarith
      refine ⟨(z + n - 1).toNat, ?_, ?_⟩
      · have : (z : ℚ) ≤ 0 := by linarith
        have : z ≤ 0 := by exact_mod_cast this
        have : 0 < n := by exact_mod_cast hn0
        omega
      · have hnn : 0 ≤ z + n - 1 := by
          have : (0 : ℚ) ≤ z + n - 1 := by linarith
          exact_mod_cast this
        have e : (((z + n - 1).toNat : ℕ) : ℚ) = ((z + n - 1 : ℤ) : ℚ) := by
          rw [← Int.cast_natCast, Int.toNat_of_nonneg hnn]
        rw [e]; push_cast; linarith
  obtain ⟨hd, hp⟩ := zDict_eq hF
  refine ⟨hmem, arange_nodup hn, ?_, ?_, ?_⟩
  · rw [zMs, arange_length hn, hn2]
  · intro k m
    rw [hd, Dict.get?_map_key mKey _ _ _ hp, hmem]
    constructor
    · rintro ⟨h, rfl⟩; exact ⟨h, rfl⟩
    · rintro ⟨h, rfl⟩; exact ⟨h, rfl⟩
  · rw [hd, List.length_map]

/-- Degeneracies add up. -/
theorem sum_degeneracy {I J : ℚ} (hI : IsSpin I) (hJ : IsSpin J) :
    ((hfFs I J).map (fun F => 2 * F + 1)).sum = (2 * I + 1) * (2 * J + 1) := by
  rw [sum_hfFs_sq (fun F => 2 * F + 1) (fun w => w) (by intro x; ring) hI hJ]; ring

/-- C14: a fine-structure level has `(2I+1)(2J+1)` Zeeman states in all. -/
theorem C14_total (I J : ℚ) (hI : IsSpin I) (hJ : IsSpin J) :
    ((((hfFs I J).map (fun F => (zMs F).length)).sum : ℕ) : ℚ) = (2 * I + 1) * (2 * J + 1) := by
  rw [← sum_degeneracy hI hJ]
  have : ∀ l : List ℚ, (∀ F ∈ l, IsSpin F) →
      (((l.map (fun F => (zMs F).length)).sum : ℕ) : ℚ) = (l.map (fun F => 2 * F + 1)).sum := by
    intro l hl
    induction l with
    | nil => simp
    | cons a t ih =>
      simp only [List.map_cons, List.sum_cons]
      push_cast
      rw [(C14_manifold a (hl a (by simp))).2.2.1]
      have := ih (fun F hF => hl F (by simp [hF]))
      rw [this]
  exact this _ (fun F hF => hfFs_spin hI hJ hF)

example : zMs (3/2) = [-3/2, -1/2, 1/2, 3/2] ∧
    (zDict (3/2)).keys = ["mF=-3/2".toList, "mF=-1/2".toList, "mF=1/2".toList, "mF=3/2".toList] := by decide +kernel

/-! ## C18 -/

/-- C18: the shift is always defined (no division by zero), for all rational inputs; it vanishes for I=0 or J=0 on
the multiplet; B contributes only for I, J ≥ 1 and C only for I, J ≥ 3/2. -/
theorem C18_defined (A B C I J F : ℚ) : ∃ v, hfShift A B C I J F = .ok v := ⟨_, hfShift_ok A B C I J F⟩

theorem C18_zero (A B C I J F : ℚ) (h : I = 0 ∨ J = 0) (hI : IsSpin I) (hJ : IsSpin J) (hF : F ∈ hfFs I J) :
    hfShift A B C I J F = .ok 0 := by
  rw [hfShift_ok]
  have hF' := ((C13_multiplet I J hI hJ).1 F).1 hF
  congr 1
  rcases h with rfl | rfl
  · have : F = J := by
      have h1 := hF'.1; rw [sub_zero, abs_of_nonneg hJ.nonneg] at h1; linarith [hF'.2.1]
    subst this
    simp [iDotJ, e2, m3]
  · have : F = I := by
      have h1 := hF'.1; rw [zero_sub, abs_neg, abs_of_nonneg hI.nonneg] at h1; linarith [hF'.2.1]
    subst this
    simp [iDotJ, e2, m3]

theorem C18_guards (A B B' C C' I J F : ℚ) (hI : IsSpin I) (hJ : IsSpin J) :
    (I < 1 ∨ J < 1 → hfShift A B C I J F = hfShift A B' C I J F) ∧
    (I < 3 / 2 ∨ J < 3 / 2 → hfShift A B C I J F = hfShift A B C' I J F) := by
  have half : ∀ q, IsSpin q → q < 1 → q ≤ 1 / 2 := by
    rintro q ⟨n, rfl⟩ h
    have : (n : ℚ) < 2 := by linarith
    have : n < 2 := by exact_mod_cast this
    have : (n : ℚ) ≤ 1 := by exact_mod_cast (by omega : n ≤ 1)
    linarith
  have one : ∀ q, IsSpin q → q < 3 / 2 → q ≤ 1 := by
    rintro q ⟨n, rfl⟩ h
    have : (n : ℚ) < 3 := by linarith
    have : n < 3 := by exact_mod_cast this
    have : (n : ℚ) ≤ 2 := by exact_mod_cast (by omega : n ≤ 2)
    linarith
  rw [hfShift_ok, hfShift_ok, hfShift_ok]
  constructor
  · intro h
    have : e2 I J F = 0 := by
      unfold e2; rw [if_pos]
      rcases h with h | h
      · exact .inr (half I hI h)
      · exact .inl (half J hJ h)
    simp [this]
  · intro h
    have : m3 I J F = 0 := by
      unfold m3; rw [if_pos]
      rcases h with h | h
      · exact .inr (one I hI h)
      · exact .inl (one J hJ h)
    simp [this]

example : hfShift 1 7 5 (1/2) (3/2) 2 = .ok (3/4) ∧ (2 : ℚ) ∈ hfFs (1/2) (3/2) := by decide +kernel
example : (0 : ℚ) = 0 ∧ IsSpin 0 ∧ IsSpin (3/2) ∧ (3/2 : ℚ) ∈ hfFs 0 (3/2) :=
  ⟨rfl, ⟨0, by norm_num⟩, ⟨3, by norm_num⟩, by decide +kernel⟩

/-! ## C19 -/

theorem centroid_M1 {I J : ℚ} (hI : IsSpin I) (hJ : IsSpin J) :
    ((hfFs I J).map (fun F => (2 * F + 1) * iDotJ I J F)).sum = 0 := by
  rw [sum_hfFs_sq _ (fun w => 1 / 2 * ((w ^ 2 - w) / 2 - (J * (J + 1) + I * (I + 1)) * w))
    (by intro x; unfold iDotJ; ring) hI hJ]
  ring

/-- The antiderivative (in `w = (F+1)²`) of `(2F+1) y²`, `y = F(F+1)`. -/
def aH2 (w : ℚ) : ℚ := w ^ 3 / 3 - 2 * w ^ 2 / 3 + w / 3
/-- The antiderivative of `(2F+1) y³`. -/
def aH3 (w : ℚ) : ℚ := w ^ 4 / 4 - 5 / 2 * aH2 w - 3 / 4 * (w ^ 2 - w) - w / 4

theorem centroid_E2 {I J : ℚ} (hI : IsSpin I) (hJ : IsSpin J) :
    ((hfFs I J).map (fun F => (2 * F + 1) *
      (3 * iDotJ I J F ^ 2 + 3 / 2 * iDotJ I J F - I * (I + 1) * J * (J + 1)))).sum = 0 := by
  set a := J * (J + 1) + I * (I + 1) with ha
  rw [sum_hfFs_sq _ (fun w => 3 / 4 * (aH2 w - a * (w ^ 2 - w) + a ^ 2 * w)
      + 3 / 4 * ((w ^ 2 - w) / 2 - a * w) - I * (I + 1) * J * (J + 1) * w)
    (by intro x; unfold iDotJ aH2; rw [ha]; ring) hI hJ]
  unfold aH2
  rw [ha]; ring

theorem centroid_M3 {I J : ℚ} (hI : IsSpin I) (hJ : IsSpin J) :
    ((hfFs I J).map (fun F => (2 * F + 1) *
      (10 * iDotJ I J F ^ 3 + 20 * iDotJ I J F ^ 2
        + 2 * iDotJ I J F * (-3 * I * (I + 1) * J * (J + 1) + I * (I + 1) + J * (J + 1) + 3)
        - 5 * I * (I + 1) * J * (J + 1)))).sum = 0 := by
  set a := J * (J + 1) + I * (I + 1) with ha
  set b := -3 * I * (I + 1) * J * (J + 1) + I * (I + 1) + J * (J + 1) + 3 with hb
  rw [sum_hfFs_sq _ (fun w => 5 / 4 * (aH3 w - 3 * a * aH2 w + 3 * a ^ 2 * ((w ^ 2 - w) / 2) - a ^ 3 * w)
      + 5 * (aH2 w - a * (w ^ 2 - w) + a ^ 2 * w) + b * ((w ^ 2 - w) / 2 - a * w)
      - 5 * I * (I + 1) * J * (J + 1) * w)
    (by intro x; unfold iDotJ aH3 aH2; rw [ha]; ring) hI hJ]
  unfold aH3 aH2
  rw [ha, hb]; ring

/-- C19: the hyperfine structure preserves the centroid, whatever the constants. -/
theorem C19_centroid (A B C I J E : ℚ) (hI : IsSpin I) (hJ : IsSpin J) (s : ℚ → ℚ)
    (hs : ∀ F ∈ hfFs I J, hfShift A B C I J F = .ok (s F)) :
    ((hfFs I J).map (fun F => (2 * F + 1) * s F)).sum = 0 ∧
    ((hfFs I J).map (fun F => (2 * F + 1) * (E + s F))).sum / ((hfFs I J).map (fun F => 2 * F + 1)).sum = E := by
  have hsum : ((hfFs I J).map (fun F => (2 * F + 1) * s F)).sum = 0 := by
    have e : (hfFs I J).map (fun F => (2 * F + 1) * s F) =
        (hfFs I J).map (fun F => A * ((2 * F + 1) * iDotJ I J F) +
          (B * ((2 * F + 1) * e2 I J F) + ((2 * F + 1) * m3 I J F * C + 0))) := by
      apply List.map_congr_left
      intro F hF
      have := hs F hF
      rw [hfShift_ok] at this
      simp only [Except.ok.injEq] at this
      rw [← this]; ring
    rw [e, sum_map_lin, sum_map_lin, centroid_M1 hI hJ]
    have h2 : ((hfFs I J).map (fun F => (2 * F + 1) * e2 I J F)).sum = 0 := by
      unfold e2
      split
      · simp
      · have := centroid_E2 hI hJ
        have e : (hfFs I J).map (fun F => (2 * F + 1) * ((3 * iDotJ I J F ^ 2 + 3 / 2 * iDotJ I J F - I * (I + 1) * J * (J + 1)) /
            (2 * I * (2 * I - 1) * J * (2 * J - 1)))) =
            (hfFs I J).map (fun F => (2 * I * (2 * I - 1) * J * (2 * J - 1))⁻¹ * ((2 * F + 1) *
              (3 * iDotJ I J F ^ 2 + 3 / 2 * iDotJ I J F - I * (I + 1) * J * (J + 1))) + 0) := by
          apply List.map_congr_left; intro F _; rw [div_eq_mul_inv]; ring
        rw [e, sum_map_lin, this]; simp
    have h3 : ((hfFs I J).map (fun F => (2 * F + 1) * m3 I J F * C + 0)).sum = 0 := by
      unfold m3
      split
      · simp
      · have := centroid_M3 hI hJ
        have e : (hfFs I J).map (fun F => (2 * F + 1) * ((10 * iDotJ I J F ^ 3 + 20 * iDotJ I J F ^ 2
            + 2 * iDotJ I J F * (-3 * I * (I + 1) * J * (J + 1) + I * (I + 1) + J * (J + 1) + 3)
            - 5 * I * (I + 1) * J * (J + 1)) / (I * (I - 1) * J * (J - 1) * (2 * J - 1))) * C + 0) =
            (hfFs I J).map (fun F => (C * (I * (I - 1) * J * (J - 1) * (2 * J - 1))⁻¹) * ((2 * F + 1) *
              (10 * iDotJ I J F ^ 3 + 20 * iDotJ I J F ^ 2
            + 2 * iDotJ I J F * (-3 * I * (I + 1) * J * (J + 1) + I * (I + 1) + J * (J + 1) + 3)
            - 5 * I * (I + 1) * J * (J + 1))) + 0) := by
          apply List.map_congr_left; intro F _; rw [div_eq_mul_inv]; ring
        rw [e, sum_map_lin, this]; simp
    rw [h2, h3]; ring
  refine ⟨hsum, ?_⟩
  have e : (hfFs I J).map (fun F => (2 * F + 1) * (E + s F)) =
      (hfFs I J).map (fun F => E * (2 * F + 1) + (2 * F + 1) * s F) := by
    apply List.map_congr_left; intro F _; ring
  rw [e, sum_map_lin, hsum, add_zero]
  have : ((hfFs I J).map (fun F => 2 * F + 1)).sum ≠ 0 := by
    rw [sum_degeneracy hI hJ]
    have := hI.nonneg
    have := hJ.nonneg
    positivity
  field_simp

example : IsSpin (5/2) ∧ IsSpin 2 ∧ (hfFs (5/2) 2).length = 5 ∧
    hfShift 3 5 7 (5/2) 2 (1/2) ≠ .ok 0 := ⟨⟨5, by norm_num⟩, ⟨4, by norm_num⟩, by decide +kernel, by decide +kernel⟩

/-! ## C20 -/

/-- C20 fails: already for I = J = 3/2, A = B = 0 the stretched shift is 2C, not C. -/
theorem C20_octupole_fails : ∃ I J C : ℚ, IsSpin I ∧ IsSpin J ∧ 3 / 2 ≤ I ∧ 3 / 2 ≤ J ∧
    hfShift 0 0 C I J (I + J) ≠ .ok C :=
  ⟨3/2, 3/2, 1, ⟨3, by norm_num⟩, ⟨3, by norm_num⟩, le_refl _, le_refl _, by decide +kernel⟩

/-- C20 (what holds): the stretched shift is `A I J + B/4 + (2I-1) C`, with the B term from I, J ≥ 1 and the C term
from I, J ≥ 3/2.  Missing for the full property: the factor of C should be 1; it is `2I-1` because the
denominator (atom.py:434) lacks the factor `2I-1`. -/
theorem C20_stretched_partial (A B C I J : ℚ) (hI : IsSpin I) (hJ : IsSpin J) :
    hfShift A B C I J (I + J) =
      .ok (A * I * J + (if 1 ≤ I ∧ 1 ≤ J then B / 4 else 0)
        + (if 3 / 2 ≤ I ∧ 3 / 2 ≤ J then (2 * I - 1) * C else 0)) := by
  have half : ∀ q, IsSpin q → (1 ≤ q ↔ ¬ q ≤ 1 / 2) := by
    rintro q ⟨n, rfl⟩
    constructor
    · intro h; linarith
    · intro h
      have : (1 : ℚ) < n := by linarith
      have : 1 < n := by exact_mod_cast this
      have : (2 : ℚ) ≤ n := by exact_mod_cast this
      linarith
  have one : ∀ q, IsSpin q → (3 / 2 ≤ q ↔ ¬ q ≤ 1) := by
    rintro q ⟨n, rfl⟩
    constructor
    · intro h; linarith
    · intro h
      have : (2 : ℚ) < n := by linarith
      have : 2 < n := by exact_mod_cast this
      have : (3 : ℚ) ≤ n := by exact_mod_cast this
      linarith
  rw [hfShift_ok]
  have hx : iDotJ I J (I + J) = I * J := by unfold iDotJ; ring
  congr 1
  have h2 : e2 I J (I + J) = if 1 ≤ I ∧ 1 ≤ J then 1 / 4 else 0 := by
    unfold e2
    by_cases h : 1 ≤ I ∧ 1 ≤ J
    · have h1 := (half I hI).1 h.1
      have h2 := (half J hJ).1 h.2
      rw [if_neg (by tauto), if_pos h, hx]
      have a1 : I ≠ 0 := by linarith [h.1]
      have a2 : J ≠ 0 := by linarith [h.2]
      have a3 : 2 * I - 1 ≠ 0 := by intro h0; linarith
      have a4 : 2 * J - 1 ≠ 0 := by intro h0; linarith
      rw [div_eq_iff (by simp [a1, a2, a3, a4])]
      ring
    · have : J ≤ 1 / 2 ∨ I ≤ 1 / 2 := by
        by_contra hc
        push Not at hc
        exact h ⟨(half I hI).2 (not_le.2 hc.2), (half J hJ).2 (not_le.2 hc.1)⟩
      rw [if_pos this, if_neg h]
  have h3 : m3 I J (I + J) = if 3 / 2 ≤ I ∧ 3 / 2 ≤ J then 2 * I - 1 else 0 := by
    unfold m3
    by_cases h : 3 / 2 ≤ I ∧ 3 / 2 ≤ J
    · have h1 := (one I hI).1 h.1
      have h2 := (one J hJ).1 h.2
      rw [if_neg (by tauto), if_pos h, hx]
      have a1 : I ≠ 0 := by intro h0; linarith [h.1]
      have a2 : J ≠ 0 := by intro h0; linarith [h.2]
      have a3 : I - 1 ≠ 0 := by intro h0; linarith
      have a4 : J - 1 ≠ 0 := by intro h0; linarith
      have a5 : 2 * J - 1 ≠ 0 := by intro h0; linarith
      rw [div_eq_iff (by simp [a1, a2, a3, a4, a5])]
      ring
    · have : J ≤ 1 ∨ I ≤ 1 := by
        by_contra hc
        push Not at hc
        exact h ⟨(one I hI).2 (not_le.2 hc.2), (one J hJ).2 (not_le.2 hc.1)⟩
      rw [if_pos this, if_neg h]
  rw [hx, h2, h3]
  split <;> split <;> ring

example : IsSpin (5/2) ∧ IsSpin (3/2) ∧ hfShift 2 8 3 (5/2) (3/2) 4 = .ok (2 * (5/2) * (3/2) + 8/4 + 4 * 3) :=
  ⟨⟨5, by norm_num⟩, ⟨3, by norm_num⟩, by decide +kernel⟩

/-- C20, general negative form: wherever the C term is present and C ≠ 0, the normalisation is off. -/
theorem C20_octupole_always_off (A B C I J : ℚ) (hI : IsSpin I) (hJ : IsSpin J) (h1 : 3 / 2 ≤ I) (h2 : 3 / 2 ≤ J)
    (hC : C ≠ 0) : hfShift A B C I J (I + J) ≠ .ok (A * I * J + B / 4 + C) := by
  rw [C20_stretched_partial A B C I J hI hJ, if_pos ⟨by linarith, by linarith⟩, if_pos ⟨h1, h2⟩]
  intro h
  simp only [Except.ok.injEq] at h
  have : (2 * I - 2) * C = 0 := by linarith
  rcases mul_eq_zero.1 this with h | h
  · linarith
  · exact hC h

/-! ## C21 -/

/-- C21: one gauss is `10⁻⁴` tesla, and the constant of the code is the Bohr magneton divided by Planck's constant, both in SI units
(`9.2740100783e-24 J/T` and `6.62607015e-34 J s`), up to a relative error of `10⁻⁷`. -/
theorem C21_magneton : |10000 * muB - (92740100783 / 10 ^ 34) / (662607015 / 10 ^ 42)| ≤ 10000 * muB / 10 ^ 7 := by
  rw [abs_le]
  norm_num [muB]

/-- C21: at zero field a Zeeman sublevel sits on its hyperfine level. -/
theorem C21_zero_field (g m q : ℚ) : zShift g m q 0 = 0 := by simp [zShift]

/-- C21: without quadratic coefficient the shifts are odd in mF, equally spaced and linear in the field. -/
theorem C21_linear (g m B c : ℚ) :
    zShift g (-m) 0 B = - zShift g m 0 B ∧
    zShift g (m + 1) 0 B - zShift g m 0 B = zShift g 1 0 B ∧
    zShift g m 0 (c * B) = c * zShift g m 0 B := by
  refine ⟨?_, ?_, ?_⟩ <;> simp only [zShift] <;> ring

/-- C21: the linear shifts of a manifold sum to zero; the quadratic ones to `(2F+1) q B²`. -/
theorem C21_sum (g q B F : ℚ) (hF : IsSpin F) :
    ((zMs F).map (fun m => zShift g m q B)).sum = (2 * F + 1) * (q * B ^ 2) := by
  obtain ⟨n, hn, hn2⟩ := spin_count_m hF
  rw [zMs, arange_nat _ _ n hn,
    sum_telescope (fun m => zShift g m q B) (fun x => g * muB * B * (x * (x + 1) / 2) + q * B ^ 2 * x)
      (by intro x; simp only [zShift]; ring)]
  have : -F + (n : ℚ) - 1 = F := by linarith
  rw [this]; ring

example : IsSpin (3/2) ∧ ((zMs (3/2)).map (fun m => zShift 1 m 0 1)).head? ≠ some 0 :=
  ⟨⟨3, by norm_num⟩, by decide +kernel⟩

/-! ## C22 -/

/-- C22: `g_F` never divides by zero for F ≥ 0; its value. -/
theorem C22_gF (gJ I J F : ℚ) (hF : IsSpin F) :
    compGF gJ I J F = .ok (if F = 0 then 0 else gJ * (F * (F + 1) + J * (J + 1) - I * (I + 1)) / (2 * F * (F + 1))) := by
  unfold compGF
  by_cases h : F = 0
  · simp [h]
  · have h1 : F + 1 ≠ 0 := by have := hF.nonneg; intro h0; linarith
    simp [h, pyDiv, h1]

/-- C22: no nuclear spin: `g_F = g_J` for J > 0. -/
theorem C22_no_spin (gJ J : ℚ) (hJ : IsSpin J) (h0 : 0 < J) : compGF gJ 0 J J = .ok gJ := by
  rw [C22_gF gJ 0 J J hJ, if_neg (ne_of_gt h0)]
  congr 1
  have h1 : J + 1 ≠ 0 := by linarith
  have h2 : J ≠ 0 := ne_of_gt h0
  field_simp
  ring

/-- C22: the stretched state. -/
theorem C22_stretched (gJ I J : ℚ) (hI : IsSpin I) (hJ : IsSpin J) (h0 : 0 < I + J) :
    compGF gJ I J (I + J) = .ok (gJ * J / (I + J)) := by
  have hF : IsSpin (I + J) := by
    obtain ⟨a, rfl⟩ := hI
    obtain ⟨b, rfl⟩ := hJ
    exact ⟨a + b, by push_cast; ring⟩
  rw [C22_gF gJ I J (I + J) hF, if_neg (ne_of_gt h0)]
  congr 1
  have h1 : I + J + 1 ≠ 0 := by linarith
  have h2 : I + J ≠ 0 := ne_of_gt h0
  field_simp
  ring

example : compGF 2 (1/2) (1/2) 1 = .ok 1 ∧ compGF 2 (1/2) (1/2) 0 = .ok 0 := by decide +kernel

/-! ## C23 -/

/-- C23 (what holds): a single LS term with J > 0 gets `percentage` times the Landé formula.  Missing for the full
property: the factor should be 1, and the default percentage is 100. -/
theorem C23_lande_partial (conv : Coupling → Term → List (ℚ × ℚ × ℚ)) (t : Term) (L S J : ℚ) (hc : t.coupling = .LS)
    (hl : t.qn.l = some L) (hs : t.qn.s = some S) (hJ : t.J = some J) (h0 : 0 < J) :
    multiGJ conv (MultiTerm.mk' [t]) =
      .ok (t.percentage * (1 + 10023 / 10000 * (J * (J + 1) + S * (S + 1) - L * (L + 1)) / (2 * J * (J + 1)))) := by
  have hne : 2 * J * (J + 1) ≠ 0 := by positivity
  have hd : (MultiTerm.mk' [t]).termsDict = [(t.percentage, t)] := rfl
  have ht : (MultiTerm.mk' [t]).terms = [t] := rfl
  simp only [multiGJ, ht, hd, compGJ, hc, hl, hs, hJ, gjSum, gjPart, pyDiv, if_neg hne, bind, Except.bind]
  congr 1
  ring

/-- C23 fails: with the default percentage of 100 a ground state 2S1/2 gets g_J = 200.23 instead of 2.0023. -/
theorem C23_lande_fails : ∃ t : Term, t.coupling = .LS ∧ t.percentage = 100 ∧ t.qn.l = some 0 ∧ t.qn.s = some (1/2) ∧
    t.J = some (1/2) ∧ multiGJ (fun _ _ => []) (MultiTerm.mk' [t]) = .ok (20023 / 100) ∧
    (1 : ℚ) + 10023 / 10000 * (1/2 * (1/2 + 1) + 1/2 * (1/2 + 1) - 0 * (0 + 1)) / (2 * (1/2) * (1/2 + 1)) = 20023 / 10000 :=
  ⟨exTerm, by decide, rfl, rfl, rfl, rfl, by decide +kernel, by norm_num⟩

example : exTerm.coupling = .LS ∧ exTerm.qn.l = some 0 ∧ exTerm.qn.s = some (1/2) ∧ exTerm.J = some (1/2) ∧ (0 : ℚ) < 1/2 :=
  ⟨by decide, rfl, rfl, rfl, by norm_num⟩

end AtomTk
