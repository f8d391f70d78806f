import Verif.Props.GSum

/-!
# C168: the hyperfine constants from the energies

The three hyperfine interactions are scalar products of tensors of rank 1, 2 and 3, so their factors are orthogonal functions of F with the degeneracies
2F+1 as weights.  Hence the constants A, B and C, and the energy of the level, can be computed back from the energies of the hyperfine levels.
-/

namespace AtomTk
open Util World

/-- Telescoping functions for (2F+1) (F(F+1))^k, in the variable (F+1)². -/
def tele (c1 c2 c3 c4 c5 c6 u : ℚ) : ℚ :=
  c1 * (u ^ 2 / 2 - u / 2) + c2 * (u ^ 3 / 3 - 2 * u ^ 2 / 3 + u / 3) + c3 * (u ^ 4 / 4 - 5 * u ^ 3 / 6 + 11 * u ^ 2 / 12 - u / 3) +
  c4 * (u ^ 5 / 5 - u ^ 4 + 29 * u ^ 3 / 15 - 5 * u ^ 2 / 3 + 8 * u / 15) +
  c5 * (u ^ 6 / 6 - 7 * u ^ 5 / 6 + 7 * u ^ 4 / 2 - 11 * u ^ 3 / 2 + 13 * u ^ 2 / 3 - 4 * u / 3) +
  c6 * (u ^ 7 / 7 - 4 * u ^ 6 / 3 + 86 * u ^ 5 / 15 - 100 * u ^ 4 / 7 + 313 * u ^ 3 / 15 - 16 * u ^ 2 + 512 * u / 105)

theorem mom1 {I J : ℚ} (hI : IsSpin I) (hJ : IsSpin J) : ((hfFs I J).map (fun F => (2 * F + 1) * iDotJ I J F)).sum = 0 := by
  rw [sum_hfFs_sq _ (fun u => tele (1/2) 0 0 0 0 0 u - (J * (J + 1) + I * (I + 1)) / 2 * u) (by intro x; unfold iDotJ tele; ring) hI hJ]
  unfold tele; ring

theorem mom2 {I J : ℚ} (hI : IsSpin I) (hJ : IsSpin J) : ((hfFs I J).map (fun F => (2 * F + 1) * iDotJ I J F ^ 2)).sum =
    (2 * I + 1) * (2 * J + 1) * (I * (I + 1)) * (J * (J + 1)) * (1 / 3) := by
  rw [sum_hfFs_sq _ (fun u => tele (-2 * (J * (J + 1) + I * (I + 1)) / 4) (1/4) 0 0 0 0 u + (J * (J + 1) + I * (I + 1)) ^ 2 / 4 * u)
    (by intro x; unfold iDotJ tele; ring) hI hJ]
  unfold tele; ring

theorem mom3 {I J : ℚ} (hI : IsSpin I) (hJ : IsSpin J) : ((hfFs I J).map (fun F => (2 * F + 1) * iDotJ I J F ^ 3)).sum =
    (2 * I + 1) * (2 * J + 1) * (I * (I + 1)) * (J * (J + 1)) * (-1 / 6) := by
  rw [sum_hfFs_sq _ (fun u => tele (3 * (J * (J + 1) + I * (I + 1)) ^ 2 / 8) (-3 * (J * (J + 1) + I * (I + 1)) / 8) (1/8) 0 0 0 u -
      (J * (J + 1) + I * (I + 1)) ^ 3 / 8 * u)
    (by intro x; unfold iDotJ tele; ring) hI hJ]
  unfold tele; ring

theorem mom4 {I J : ℚ} (hI : IsSpin I) (hJ : IsSpin J) : ((hfFs I J).map (fun F => (2 * F + 1) * iDotJ I J F ^ 4)).sum =
    (2 * I + 1) * (2 * J + 1) * (I * (I + 1)) * (J * (J + 1)) *
      (2 / 15 - I * (I + 1) / 15 - J * (J + 1) / 15 + I * (I + 1) * (J * (J + 1)) / 5) := by
  rw [sum_hfFs_sq _ (fun u => tele (-4 * (J * (J + 1) + I * (I + 1)) ^ 3 / 16) (6 * (J * (J + 1) + I * (I + 1)) ^ 2 / 16)
      (-4 * (J * (J + 1) + I * (I + 1)) / 16) (1/16) 0 0 u + (J * (J + 1) + I * (I + 1)) ^ 4 / 16 * u)
    (by intro x; unfold iDotJ tele; ring) hI hJ]
  unfold tele; ring

theorem mom5 {I J : ℚ} (hI : IsSpin I) (hJ : IsSpin J) : ((hfFs I J).map (fun F => (2 * F + 1) * iDotJ I J F ^ 5)).sum =
    (2 * I + 1) * (2 * J + 1) * (I * (I + 1)) * (J * (J + 1)) *
      (-1 / 6 + I * (I + 1) / 6 + J * (J + 1) / 6 - I * (I + 1) * (J * (J + 1)) / 3) := by
  rw [sum_hfFs_sq _ (fun u => tele (5 * (J * (J + 1) + I * (I + 1)) ^ 4 / 32) (-10 * (J * (J + 1) + I * (I + 1)) ^ 3 / 32)
      (10 * (J * (J + 1) + I * (I + 1)) ^ 2 / 32) (-5 * (J * (J + 1) + I * (I + 1)) / 32) (1/32) 0 u - (J * (J + 1) + I * (I + 1)) ^ 5 / 32 * u)
    (by intro x; unfold iDotJ tele; ring) hI hJ]
  unfold tele; ring

/-- The weighted sum of a polynomial in I·J over the multiplet. -/
theorem sum_poly {I J : ℚ} (hI : IsSpin I) (hJ : IsSpin J) (c0 c1 c2 c3 c4 c5 : ℚ) :
    ((hfFs I J).map (fun F => (2 * F + 1) * (c0 + c1 * iDotJ I J F + c2 * iDotJ I J F ^ 2 + c3 * iDotJ I J F ^ 3 + c4 * iDotJ I J F ^ 4 +
      c5 * iDotJ I J F ^ 5))).sum =
    c0 * ((2 * I + 1) * (2 * J + 1)) + (2 * I + 1) * (2 * J + 1) * (I * (I + 1)) * (J * (J + 1)) * (c2 / 3 - c3 / 6 +
      c4 * (2 / 15 - I * (I + 1) / 15 - J * (J + 1) / 15 + I * (I + 1) * (J * (J + 1)) / 5) +
      c5 * (-1 / 6 + I * (I + 1) / 6 + J * (J + 1) / 6 - I * (I + 1) * (J * (J + 1)) / 3)) := by
  have e : (hfFs I J).map (fun F => (2 * F + 1) * (c0 + c1 * iDotJ I J F + c2 * iDotJ I J F ^ 2 + c3 * iDotJ I J F ^ 3 + c4 * iDotJ I J F ^ 4 +
      c5 * iDotJ I J F ^ 5)) = (hfFs I J).map (fun F => c0 * (2 * F + 1) + (c1 * ((2 * F + 1) * iDotJ I J F) + (c2 * ((2 * F + 1) * iDotJ I J F ^ 2) +
      (c3 * ((2 * F + 1) * iDotJ I J F ^ 3) + (c4 * ((2 * F + 1) * iDotJ I J F ^ 4) + (c5 * ((2 * F + 1) * iDotJ I J F ^ 5) + 0)))))) :=
    List.map_congr_left (fun F _ => by ring)
  rw [e, sum_map_lin, sum_degeneracy hI hJ, sum_map_lin, sum_map_lin, sum_map_lin, sum_map_lin, sum_map_lin, mom1 hI hJ, mom2 hI hJ, mom3 hI hJ, mom4 hI hJ,
    mom5 hI hJ]
  simp only [List.map_const', List.sum_replicate, smul_zero]
  ring

theorem ortho12 {I J : ℚ} (hI : IsSpin I) (hJ : IsSpin J) : ((hfFs I J).map (fun F => (2 * F + 1) * (iDotJ I J F * e2 I J F))).sum = 0 := by
  unfold e2
  split
  · simp
  · have e : (hfFs I J).map (fun F => (2 * F + 1) * (iDotJ I J F * ((3 * iDotJ I J F ^ 2 + 3 / 2 * iDotJ I J F - I * (I + 1) * J * (J + 1)) /
        (2 * I * (2 * I - 1) * J * (2 * J - 1))))) =
        (hfFs I J).map (fun F => (2 * I * (2 * I - 1) * J * (2 * J - 1))⁻¹ * ((2 * F + 1) * (0 + -(I * (I + 1) * J * (J + 1)) * iDotJ I J F +
          3 / 2 * iDotJ I J F ^ 2 + 3 * iDotJ I J F ^ 3 + 0 * iDotJ I J F ^ 4 + 0 * iDotJ I J F ^ 5)) + 0) :=
      List.map_congr_left (fun F _ => by rw [div_eq_mul_inv]; ring)
    rw [e, sum_map_lin, sum_poly hI hJ]
    simp only [List.map_const', List.sum_replicate, smul_zero]
    ring

theorem ortho13 {I J : ℚ} (hI : IsSpin I) (hJ : IsSpin J) : ((hfFs I J).map (fun F => (2 * F + 1) * (iDotJ I J F * m3 I J F))).sum = 0 := by
  unfold m3
  split
  · simp
  · have e : (hfFs I J).map (fun F => (2 * F + 1) * (iDotJ I J F * ((10 * iDotJ I J F ^ 3 + 20 * iDotJ I J F ^ 2
        + 2 * iDotJ I J F * (-3 * I * (I + 1) * J * (J + 1) + I * (I + 1) + J * (J + 1) + 3) - 5 * I * (I + 1) * J * (J + 1)) /
        (I * (I - 1) * J * (J - 1) * (2 * J - 1))))) =
        (hfFs I J).map (fun F => (I * (I - 1) * J * (J - 1) * (2 * J - 1))⁻¹ * ((2 * F + 1) * (0 + -(5 * I * (I + 1) * J * (J + 1)) * iDotJ I J F +
          2 * (-3 * I * (I + 1) * J * (J + 1) + I * (I + 1) + J * (J + 1) + 3) * iDotJ I J F ^ 2 + 20 * iDotJ I J F ^ 3 + 10 * iDotJ I J F ^ 4 +
          0 * iDotJ I J F ^ 5)) + 0) :=
      List.map_congr_left (fun F _ => by rw [div_eq_mul_inv]; ring)
    rw [e, sum_map_lin, sum_poly hI hJ]
    simp only [List.map_const', List.sum_replicate, smul_zero]
    ring

theorem ortho23 {I J : ℚ} (hI : IsSpin I) (hJ : IsSpin J) : ((hfFs I J).map (fun F => (2 * F + 1) * (e2 I J F * m3 I J F))).sum = 0 := by
  unfold m3 e2
  split
  · simp
  · split
    · simp
    · have e : (hfFs I J).map (fun F => (2 * F + 1) * ((3 * iDotJ I J F ^ 2 + 3 / 2 * iDotJ I J F - I * (I + 1) * J * (J + 1)) /
        (2 * I * (2 * I - 1) * J * (2 * J - 1)) * ((10 * iDotJ I J F ^ 3 + 20 * iDotJ I J F ^ 2
        + 2 * iDotJ I J F * (-3 * I * (I + 1) * J * (J + 1) + I * (I + 1) + J * (J + 1) + 3) - 5 * I * (I + 1) * J * (J + 1)) /
        (I * (I - 1) * J * (J - 1) * (2 * J - 1))))) =
        (hfFs I J).map (fun F => (2 * I * (2 * I - 1) * J * (2 * J - 1))⁻¹ * (I * (I - 1) * J * (J - 1) * (2 * J - 1))⁻¹ * ((2 * F + 1) *
          (5 * (I * (I + 1) * J * (J + 1)) ^ 2 +
          (-(15 / 2) * (I * (I + 1) * J * (J + 1)) - 2 * (I * (I + 1) * J * (J + 1)) * (-3 * I * (I + 1) * J * (J + 1) + I * (I + 1) + J * (J + 1) + 3)) * iDotJ I J F +
          (3 * (-3 * I * (I + 1) * J * (J + 1) + I * (I + 1) + J * (J + 1) + 3) - 35 * (I * (I + 1) * J * (J + 1))) * iDotJ I J F ^ 2 +
          (30 + 6 * (-3 * I * (I + 1) * J * (J + 1) + I * (I + 1) + J * (J + 1) + 3) - 10 * (I * (I + 1) * J * (J + 1))) * iDotJ I J F ^ 3 +
          75 * iDotJ I J F ^ 4 + 30 * iDotJ I J F ^ 5)) + 0) :=
        List.map_congr_left (fun F _ => by rw [div_eq_mul_inv, div_eq_mul_inv]; ring)
      rw [e, sum_map_lin, sum_poly hI hJ]
      simp only [List.map_const', List.sum_replicate, smul_zero]
      ring

/-- The weighted sum of the shifts against a function of F. -/
theorem sum_against {I J : ℚ} (f : ℚ → ℚ) (A B C : ℚ) : ((hfFs I J).map (fun F => (2 * F + 1) * (f F * (A * iDotJ I J F + B * e2 I J F + C * m3 I J F)))).sum =
    A * ((hfFs I J).map (fun F => (2 * F + 1) * (f F * iDotJ I J F))).sum + (B * ((hfFs I J).map (fun F => (2 * F + 1) * (f F * e2 I J F))).sum +
      C * ((hfFs I J).map (fun F => (2 * F + 1) * (f F * m3 I J F))).sum) := by
  have e : (hfFs I J).map (fun F => (2 * F + 1) * (f F * (A * iDotJ I J F + B * e2 I J F + C * m3 I J F))) =
      (hfFs I J).map (fun F => A * ((2 * F + 1) * (f F * iDotJ I J F)) + (B * ((2 * F + 1) * (f F * e2 I J F)) + (C * ((2 * F + 1) * (f F * m3 I J F)) + 0))) :=
    List.map_congr_left (fun F _ => by ring)
  rw [e, sum_map_lin, sum_map_lin, sum_map_lin]
  simp only [List.map_const', List.sum_replicate, smul_zero, add_zero]

/-- A function that does not vanish at a level of the multiplet has a positive norm. -/
theorem norm_pos {I J : ℚ} (hI : IsSpin I) (hJ : IsSpin J) (f : ℚ → ℚ) {F0 : ℚ} (h0 : F0 ∈ hfFs I J) (hf : f F0 ≠ 0) :
    0 < ((hfFs I J).map (fun F => (2 * F + 1) * (f F * f F))).sum := by
  have hs : ∀ F ∈ hfFs I J, 0 ≤ F := fun F hF => (hfFs_spin hI hJ hF).nonneg
  generalize hfFs I J = l at *
  have hnn : ∀ l : List ℚ, (∀ F ∈ l, 0 ≤ F) → 0 ≤ (l.map (fun F => (2 * F + 1) * (f F * f F))).sum := by
    intro l hl
    refine List.sum_nonneg ?_
    intro x hx
    obtain ⟨F, hF, rfl⟩ := List.mem_map.1 hx
    have := hl F hF
    exact mul_nonneg (by linarith) (mul_self_nonneg _)
  induction l with
  | nil => cases h0
  | cons a l ih =>
    rw [List.map_cons, List.sum_cons]
    have ha := hs a List.mem_cons_self
    rcases List.mem_cons.1 h0 with rfl | h0
    · have : 0 < (2 * F0 + 1) * (f F0 * f F0) := mul_pos (by linarith) (mul_self_pos.2 hf)
      have := hnn l (fun F hF => hs F (List.mem_cons_of_mem _ hF))
      linarith
    · have h1 := ih h0 (fun F hF => hs F (List.mem_cons_of_mem _ hF))
      have h2 : 0 ≤ (2 * a + 1) * (f a * f a) := mul_nonneg (by linarith) (mul_self_nonneg _)
      linarith

theorem top_mem {I J : ℚ} (hI : IsSpin I) (hJ : IsSpin J) : I + J ∈ hfFs I J := by
  refine ((C13_multiplet I J hI hJ).1 _).2 ⟨?_, by linarith, ?_⟩
  · have h1 := hI.nonneg
    have h2 := hJ.nonneg
    rw [abs_le]
    constructor <;> linarith
  · exact ⟨0, by push_cast; ring⟩

theorem top_values {I J : ℚ} (hI : IsSpin I) (hJ : IsSpin J) : iDotJ I J (I + J) = I * J ∧ e2 I J (I + J) = (if 1 ≤ I ∧ 1 ≤ J then 1 / 4 else 0) ∧
    m3 I J (I + J) = (if 3 / 2 ≤ I ∧ 3 / 2 ≤ J then 2 * I - 1 else 0) := by
  have h1 := C20_stretched_partial 1 0 0 I J hI hJ
  have h2 := C20_stretched_partial 0 1 0 I J hI hJ
  have h3 := C20_stretched_partial 0 0 1 I J hI hJ
  rw [hfShift_ok] at h1 h2 h3
  have h1 := Except.ok.inj h1
  have h2 := Except.ok.inj h2
  have h3 := Except.ok.inj h3
  refine ⟨by simpa using h1, by simpa using h2, by simpa using h3⟩

/-- `sum over F of (2F+1) f(F)`, over all hyperfine levels. -/
def wsum (I J : ℚ) (f : ℚ → ℚ) : ℚ := ((hfFs I J).map (fun F => (2 * F + 1) * f F)).sum

theorem wsum_congr {I J : ℚ} {f g : ℚ → ℚ} (h : ∀ F ∈ hfFs I J, f F = g F) : wsum I J f = wsum I J g := by
  unfold wsum
  rw [List.map_congr_left (fun F hF => by rw [h F hF])]

theorem wsum_shift {I J : ℚ} (E : ℚ) (f g : ℚ → ℚ) (h0 : wsum I J f = 0) : wsum I J (fun F => f F * (E + g F)) = wsum I J (fun F => f F * g F) := by
  unfold wsum at *
  have e : (hfFs I J).map (fun F => (2 * F + 1) * (f F * (E + g F))) = (hfFs I J).map (fun F => E * ((2 * F + 1) * f F) + (2 * F + 1) * (f F * g F)) :=
    List.map_congr_left (fun F _ => by ring)
  rw [e, sum_map_lin, h0]; ring

/-- C168: the constants computed back from the energies of the hyperfine levels: with the patterns k, e, m of a unit A, B, C, each constant is the
projection of the energies on its pattern, and the energy of the level is their mean. -/
theorem C168_recover (E A B C I J : ℚ) (hI : IsSpin I) (hJ : IsSpin J) (s k e m : ℚ → ℚ) (hs : ∀ F ∈ hfFs I J, hfShift A B C I J F = .ok (s F))
    (hk : ∀ F ∈ hfFs I J, hfShift 1 0 0 I J F = .ok (k F)) (he : ∀ F ∈ hfFs I J, hfShift 0 1 0 I J F = .ok (e F))
    (hm : ∀ F ∈ hfFs I J, hfShift 0 0 1 I J F = .ok (m F)) :
    E = wsum I J (fun F => E + s F) / wsum I J (fun _ => 1) ∧
    (0 < I → 0 < J → A = wsum I J (fun F => k F * (E + s F)) / wsum I J (fun F => k F * k F)) ∧
    (1 ≤ I → 1 ≤ J → B = wsum I J (fun F => e F * (E + s F)) / wsum I J (fun F => e F * e F)) ∧
    (3 / 2 ≤ I → 3 / 2 ≤ J → C = wsum I J (fun F => m F * (E + s F)) / wsum I J (fun F => m F * m F)) := by
  have hc := (C19_centroid A B C I J E hI hJ s hs).2
  have zk := (C19_centroid 1 0 0 I J 0 hI hJ k hk).1
  have ze := (C19_centroid 0 1 0 I J 0 hI hJ e he).1
  have zm := (C19_centroid 0 0 1 I J 0 hI hJ m hm).1
  have ek : ∀ F ∈ hfFs I J, k F = iDotJ I J F := fun F hF => by
    have := hk F hF; rw [hfShift_ok] at this; rw [← Except.ok.inj this]; ring
  have ee : ∀ F ∈ hfFs I J, e F = e2 I J F := fun F hF => by
    have := he F hF; rw [hfShift_ok] at this; rw [← Except.ok.inj this]; ring
  have em : ∀ F ∈ hfFs I J, m F = m3 I J F := fun F hF => by
    have := hm F hF; rw [hfShift_ok] at this; rw [← Except.ok.inj this]; ring
  have es : ∀ F ∈ hfFs I J, s F = A * iDotJ I J F + B * e2 I J F + C * m3 I J F := fun F hF => by
    have := hs F hF; rw [hfShift_ok] at this; exact (Except.ok.inj this).symm
  have hcomm : ∀ f g : ℚ → ℚ, wsum I J (fun F => f F * g F) = wsum I J (fun F => g F * f F) := fun f g => wsum_congr (fun F _ => mul_comm _ _)
  have o12 : wsum I J (fun F => iDotJ I J F * e2 I J F) = 0 := ortho12 hI hJ
  have o13 : wsum I J (fun F => iDotJ I J F * m3 I J F) = 0 := ortho13 hI hJ
  have o23 : wsum I J (fun F => e2 I J F * m3 I J F) = 0 := ortho23 hI hJ
  have hag : ∀ f : ℚ → ℚ, wsum I J (fun F => f F * (A * iDotJ I J F + B * e2 I J F + C * m3 I J F)) = A * wsum I J (fun F => f F * iDotJ I J F) +
      (B * wsum I J (fun F => f F * e2 I J F) + C * wsum I J (fun F => f F * m3 I J F)) := fun f => sum_against f A B C
  obtain ⟨t1, t2, t3⟩ := top_values hI hJ
  have hT := top_mem hI hJ
  refine ⟨?_, ?_, ?_, ?_⟩
  · rw [← hc]
    unfold wsum
    simp only [mul_one]
    rw [hc]
    exact hc.symm
  · intro hI0 hJ0
    have hp : 0 < wsum I J (fun F => iDotJ I J F * iDotJ I J F) := norm_pos hI hJ _ hT (by rw [t1]; positivity)
    rw [wsum_shift E k s zk, wsum_congr (f := fun F => k F * s F) (g := fun F => iDotJ I J F * (A * iDotJ I J F + B * e2 I J F + C * m3 I J F))
      (fun F hF => by rw [ek F hF, es F hF]), wsum_congr (f := fun F => k F * k F) (g := fun F => iDotJ I J F * iDotJ I J F) (fun F hF => by rw [ek F hF]),
      hag, o12, o13, eq_div_iff hp.ne']
    ring
  · intro hI1 hJ1
    have hp : 0 < wsum I J (fun F => e2 I J F * e2 I J F) := norm_pos hI hJ _ hT (by rw [t2, if_pos ⟨hI1, hJ1⟩]; norm_num)
    rw [wsum_shift E e s ze, wsum_congr (f := fun F => e F * s F) (g := fun F => e2 I J F * (A * iDotJ I J F + B * e2 I J F + C * m3 I J F))
      (fun F hF => by rw [ee F hF, es F hF]), wsum_congr (f := fun F => e F * e F) (g := fun F => e2 I J F * e2 I J F) (fun F hF => by rw [ee F hF]),
      hag, hcomm (e2 I J) (iDotJ I J), o12, o23, eq_div_iff hp.ne']
    ring
  · intro hI1 hJ1
    have hp : 0 < wsum I J (fun F => m3 I J F * m3 I J F) := norm_pos hI hJ _ hT (by rw [t3, if_pos ⟨hI1, hJ1⟩]; linarith)
    rw [wsum_shift E m s zm, wsum_congr (f := fun F => m F * s F) (g := fun F => m3 I J F * (A * iDotJ I J F + B * e2 I J F + C * m3 I J F))
      (fun F hF => by rw [em F hF, es F hF]), wsum_congr (f := fun F => m F * m F) (g := fun F => m3 I J F * m3 I J F) (fun F hF => by rw [em F hF]),
      hag, hcomm (m3 I J) (iDotJ I J), hcomm (m3 I J) (e2 I J), o13, o23, eq_div_iff hp.ne']
    ring

/-- C168: energies of the hyperfine levels that agree come from the same level energy and the same constants, as far as these have an effect. -/
theorem C168_unique (E A B C E' A' B' C' I J : ℚ) (hI : IsSpin I) (hJ : IsSpin J)
    (h : ∀ F ∈ hfFs I J, ∃ s s', hfShift A B C I J F = .ok s ∧ hfShift A' B' C' I J F = .ok s' ∧ E + s = E' + s') :
    E = E' ∧ (0 < I → 0 < J → A = A') ∧ (1 ≤ I → 1 ≤ J → B = B') ∧ (3 / 2 ≤ I → 3 / 2 ≤ J → C = C') := by
  have key : ∀ F ∈ hfFs I J, E + (A * iDotJ I J F + B * e2 I J F + C * m3 I J F) = E' + (A' * iDotJ I J F + B' * e2 I J F + C' * m3 I J F) := by
    intro F hF
    obtain ⟨s, s', h1, h2, h3⟩ := h F hF
    rw [hfShift_ok] at h1 h2
    rw [← Except.ok.inj h1, ← Except.ok.inj h2] at h3
    exact h3
  have hu := C168_recover E A B C I J hI hJ _ _ _ _ (fun F _ => hfShift_ok ..) (fun F _ => hfShift_ok ..) (fun F _ => hfShift_ok ..) (fun F _ => hfShift_ok ..)
  have hu' := C168_recover E' A' B' C' I J hI hJ _ _ _ _ (fun F _ => hfShift_ok ..) (fun F _ => hfShift_ok ..) (fun F _ => hfShift_ok ..)
    (fun F _ => hfShift_ok ..)
  obtain ⟨a, b, c, d⟩ := hu
  obtain ⟨a', b', c', d'⟩ := hu'
  refine ⟨?_, fun h1 h2 => ?_, fun h1 h2 => ?_, fun h1 h2 => ?_⟩
  · rw [a, a', wsum_congr key]
  · rw [b h1 h2, b' h1 h2]
    congr 1
    exact wsum_congr (fun F hF => by simp only [key F hF])
  · rw [c h1 h2, c' h1 h2]
    congr 1
    exact wsum_congr (fun F hF => by simp only [key F hF])
  · rw [d h1 h2, d' h1 h2]
    congr 1
    exact wsum_congr (fun F hF => by simp only [key F hF])

/-- C168: where a constant cannot be computed back it has no effect: A without nuclear spin or for J = 0, B below spin 1, C below spin 3/2. -/
theorem C168_blind (A B C A' B' C' I J F : ℚ) (hI : IsSpin I) (hJ : IsSpin J) (hF : F ∈ hfFs I J) :
    ((I = 0 ∨ J = 0) → hfShift A B C I J F = hfShift A' B C I J F) ∧ ((I < 1 ∨ J < 1) → hfShift A B C I J F = hfShift A B' C I J F) ∧
      ((I < 3 / 2 ∨ J < 3 / 2) → hfShift A B C I J F = hfShift A B C' I J F) := by
  obtain ⟨b1, b2⟩ := hfFs_bounds hI hJ hF
  simp only [hfShift_ok, Except.ok.injEq]
  refine ⟨fun h => ?_, fun h => ?_, fun h => ?_⟩
  · have : iDotJ I J F = 0 := by
      unfold iDotJ
      rcases h with h | h
      · rw [h, sub_zero, abs_of_nonneg hJ.nonneg] at b1
        rw [h] at b2
        have : F = J := by linarith
        rw [h, this]; ring
      · rw [h, zero_sub, abs_neg, abs_of_nonneg hI.nonneg] at b1
        rw [h] at b2
        have : F = I := by linarith
        rw [h, this]; ring
    rw [this]; ring
  · have h1 : ∀ q, IsSpin q → q < 1 → q ≤ 1 / 2 := by
      rintro q ⟨n, rfl⟩ hq
      have : (n : ℚ) < 2 := by linarith
      have : n < 2 := by exact_mod_cast this
      have : (n : ℚ) ≤ 1 := by exact_mod_cast (by omega : n ≤ 1)
      linarith
    have : e2 I J F = 0 := by
      unfold e2
      rw [if_pos (h.symm.imp (h1 J hJ) (h1 I hI))]
    rw [this]; ring
  · have h1 : ∀ q, IsSpin q → q < 3 / 2 → q ≤ 1 := by
      rintro q ⟨n, rfl⟩ hq
      have : (n : ℚ) < 3 := by linarith
      have : n < 3 := by exact_mod_cast this
      have : (n : ℚ) ≤ 2 := by exact_mod_cast (by omega : n ≤ 2)
      linarith
    have : m3 I J F = 0 := by
      unfold m3
      rw [if_pos (h.symm.imp (h1 J hJ) (h1 I hI))]
    rw [this]; ring

/-- C168: with A alone, the mean square of the shifts is A² I(I+1) J(J+1) / 3. -/
theorem C168_variance (A I J : ℚ) (hI : IsSpin I) (hJ : IsSpin J) (s : ℚ → ℚ) (hs : ∀ F ∈ hfFs I J, hfShift A 0 0 I J F = .ok (s F)) :
    wsum I J (fun F => s F ^ 2) = (2 * I + 1) * (2 * J + 1) * (A ^ 2 * (I * (I + 1)) * (J * (J + 1)) / 3) := by
  rw [wsum_congr (f := fun F => s F ^ 2) (g := fun F => A ^ 2 * iDotJ I J F ^ 2) (fun F hF => by
    have := hs F hF; rw [hfShift_ok] at this; rw [← Except.ok.inj this]; ring)]
  unfold wsum
  rw [show (hfFs I J).map (fun F => (2 * F + 1) * (A ^ 2 * iDotJ I J F ^ 2)) = (hfFs I J).map (fun F => A ^ 2 * ((2 * F + 1) * iDotJ I J F ^ 2) + 0) from
    List.map_congr_left (fun F _ => by ring), sum_map_lin, mom2 hI hJ]
  simp only [List.map_const', List.sum_replicate, smul_zero]
  ring

/-- The energies of the hyperfine levels of a level: `[h.level for h in level.values()]`. -/
theorem lvSubs_energies {w : World} (hr : Reachable w) (hI : IsSpin w.I) {i : Nat} {J : ℚ} (hf : Findable w i J) :
    ∃ w' js, lvSubs i w = (w', .ok js) ∧ w'.eHz i = w.eHz i ∧ List.Forall₂ (fun j F => ∃ s, hfShift (w.lv i).hfA (w.lv i).hfB (w.lv i).hfC w.I J F = .ok s ∧
      w'.hHz j = .ok (w.eHz i + s)) js (hfFs w.I J) := by
  have hv := hr.subInv
  obtain ⟨w1, e1, ek, -⟩ := lazyHF_ok hv.keys hI (hr.wf.node _ _ hf.reg).2.1 hf.hJ hf.spin hf.hF
  have hfr : LFrame w w1 := by
    have := lazyHF_frame i w
    rwa [e1] at this
  have hin1 : SubInv w1 := by
    have := hv.steps (lazyHF_steps (C := fun _ _ _ => True) i w)
    rwa [e1] at this
  have hD : Draw w1 i J := ⟨hin1, by rw [hfr.I]; exact hI, by rw [hfr.inAtom]; exact (hr.wf.node _ _ hf.reg).2.1, by rw [hfr.term]; exact hf.hJ, hf.spin,
    by rw [hfr.term]; exact hf.hF, by rw [hfr.I]; exact ek⟩
  have hz := hyp_zip hD
  rw [hfr.I] at hz
  obtain ⟨x, hx⟩ := hfr.lv i
  have hE : w1.eHz i = w.eHz i := by unfold eHz; rw [hx]
  refine ⟨w1, (w1.lv i).subs.vals, ?_, hE, hz.imp (fun j F h => ⟨_, hfShift_ok .., ?_⟩)⟩
  · unfold lvSubs; rw [PyM.bind_ok e1]; rfl
  · rw [h.energy]
    unfold hypE
    rw [hE, hfr.I, hx]

/-- C168: two levels with the same J, in atoms with the same nuclear spin, whose hyperfine levels have the same energies, have the same energy and, as far
as these have an effect, the same constants. -/
theorem C168_levels {w v : World} (hw : Reachable w) (hv : Reachable v) (hI : IsSpin w.I) (hIv : v.I = w.I) {i k : Nat} {J : ℚ} (hf : Findable w i J)
    (hg : Findable v k J) {w' v' : World} {js ks : List Nat} (h1 : lvSubs i w = (w', .ok js)) (h2 : lvSubs k v = (v', .ok ks))
    (h : List.Forall₂ (fun j j' => ∃ e, w'.hHz j = .ok e ∧ v'.hHz j' = .ok e) js ks) :
    w.eHz i = v.eHz k ∧ (0 < w.I → 0 < J → (w.lv i).hfA = (v.lv k).hfA) ∧ (1 ≤ w.I → 1 ≤ J → (w.lv i).hfB = (v.lv k).hfB) ∧
      (3 / 2 ≤ w.I → 3 / 2 ≤ J → (w.lv i).hfC = (v.lv k).hfC) := by
  obtain ⟨w1, js1, a1, -, a2⟩ := lvSubs_energies hw hI hf
  obtain ⟨v1, ks1, b1, -, b2⟩ := lvSubs_energies hv (by rw [hIv]; exact hI) hg
  rw [h1] at a1
  rw [h2] at b1
  cases a1; cases b1
  refine C168_unique _ _ _ _ _ _ _ _ w.I J hI hf.spin ?_
  rw [hIv] at b2
  have key : ∀ {js ks : List Nat} {Fs : List ℚ}, List.Forall₂ (fun j F => ∃ s, hfShift (w.lv i).hfA (w.lv i).hfB (w.lv i).hfC w.I J F = .ok s ∧
      w'.hHz j = .ok (w.eHz i + s)) js Fs → List.Forall₂ (fun j F => ∃ s, hfShift (v.lv k).hfA (v.lv k).hfB (v.lv k).hfC w.I J F = .ok s ∧
      v'.hHz j = .ok (v.eHz k + s)) ks Fs → List.Forall₂ (fun j j' => ∃ e, w'.hHz j = .ok e ∧ v'.hHz j' = .ok e) js ks → ∀ F ∈ Fs,
      ∃ s s', hfShift (w.lv i).hfA (w.lv i).hfB (w.lv i).hfC w.I J F = .ok s ∧ hfShift (v.lv k).hfA (v.lv k).hfB (v.lv k).hfC w.I J F = .ok s' ∧
        w.eHz i + s = v.eHz k + s' := by
    intro js ks Fs x
    induction x generalizing ks with
    | nil => intro _ _ F hF; cases hF
    | @cons j F0 js Fs p1 _ ih =>
      intro y z F hF
      cases y with
      | @cons j' _ ks _ q1 q2 =>
        cases z with
        | cons z1 z2 =>
          rcases List.mem_cons.1 hF with rfl | hF
          · obtain ⟨s, s1, s2⟩ := p1
            obtain ⟨s', t1, t2⟩ := q1
            obtain ⟨e, u1, u2⟩ := z1
            rw [s2] at u1
            rw [t2] at u2
            exact ⟨s, s', s1, t1, Except.ok.inj (u1.trans u2.symm)⟩
          · exact ih q2 z2 F hF
  exact key a2 b2 h

/-- I = J = 3/2, A = 6, B = 12, C = 1: the energies of F = 0, 1, 2, 3 above a level at 100. -/
example : IsSpin (3/2) ∧ hfFs (3/2) (3/2) = [0, 1, 2, 3] ∧
    [0, 1, 2, 3].map (hfShift 6 12 1 (3/2) (3/2)) = [.ok (-155/2), .ok (57/2), .ok (-55/2), .ok (37/2)] ∧
    [0, 1, 2, 3].map (hfShift 1 0 0 (3/2) (3/2)) = [.ok (-15/4), .ok (-11/4), .ok (-3/4), .ok (9/4)] := by
  refine ⟨⟨3, by norm_num⟩, by decide +kernel, by decide +kernel, by decide +kernel⟩

/-- The levels g and a of one atom, with A = 4 and A = 8. -/
example : let w := runAll (threeLevels 5 5 9 ++ [.setConsts 0 2 4 0 0, .setConsts 1 2 8 0 0]) (emptyAtom (1/2) 0)
    Reachable w ∧ Findable w 0 (1/2) ∧ Findable w 1 (1/2) ∧ (lvSubs 0 w).2 = .ok [0, 1] ∧ (lvSubs 0 w).1.hHz 0 = .ok 2 ∧ (lvSubs 0 w).1.hHz 1 = .ok 6 ∧
      (lvSubs 1 w).1.hHz 0 = .ok (-1) ∧ (lvSubs 1 w).1.hHz 1 = .ok 7 := by
  refine ⟨(Reachable.empty _ _).runAll (by decide +kernel), ⟨by decide +kernel, by decide +kernel, by decide +kernel, ⟨1, by decide +kernel⟩, by decide +kernel, by decide +kernel⟩,
    ⟨by decide +kernel, by decide +kernel, by decide +kernel, ⟨1, by decide +kernel⟩, by decide +kernel, by decide +kernel⟩, by decide +kernel,
    by decide +kernel, by decide +kernel, by decide +kernel, by decide +kernel⟩

end AtomTk
