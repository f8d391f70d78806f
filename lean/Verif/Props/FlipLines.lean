import Verif.Props.Flip
import Verif.Props.LinkedZ

/-!
# C186: the lines of a transition with its ends exchanged
-/

namespace AtomTk
open Util World Strengths

/-- C186: a hyperfine line of a transition with the ends exchanged is that of the transition, with its ends exchanged. -/
theorem C186_line_partial {W : Wig} (hW : W.Good) {S : Nat → Bool} {w : World} {t : Nat} (hS : S t = true) {a b : Nat} {J1 F1 J2 F2 e1 e2 : ℚ} (hI : IsSpin w.I)
    (s1 : IsSpin J1) (s2 : IsSpin J2) (h1 : IsHyp w (w.tr t).e1 J1 a F1) (h2 : IsHyp w (w.tr t).e2 J2 b F2) (g1 : w.hHz a = .ok e1) (g2 : w.hHz b = .ok e2)
    (hne : e1 ≠ e2) :
    ∃ x y, w.newHTr W t a b = .ok x ∧ (w.flip S).newHTr W t b a = .ok y ∧ (x.e1 = a ∧ x.e2 = b ∧ y.e1 = b ∧ y.e2 = a) ∧
      y.lower = x.lower ∧ y.upper = x.upper ∧ y.A = x.A ∧ y.rel = x.rel ∧ y.allowed = x.allowed := by
  have e : ((w.flip S).tr t).e1 = (w.tr t).e2 ∧ ((w.flip S).tr t).e2 = (w.tr t).e1 := by
    constructor
    · show (if S t then (w.tr t).e2 else (w.tr t).e1) = _
      rw [hS]; rfl
    · show (if S t then (w.tr t).e1 else (w.tr t).e2) = _
      rw [hS]; rfl
  have k1 : IsHyp (w.flip S) ((w.flip S).tr t).e2 J1 a F1 := by rw [e.2]; exact ⟨h1.mem, h1.get, h1.J, h1.F, h1.mF, h1.par, h1.lt⟩
  have k2 : IsHyp (w.flip S) ((w.flip S).tr t).e1 J2 b F2 := by rw [e.1]; exact ⟨h2.mem, h2.get, h2.J, h2.F, h2.mF, h2.par, h2.lt⟩
  have d1 : w.hypE (w.tr t).e1 J1 F1 = e1 := Except.ok.inj (h1.energy.symm.trans g1)
  have d2 : w.hypE (w.tr t).e2 J2 F2 = e2 := Except.ok.inj (h2.energy.symm.trans g2)
  have c1 : (w.flip S).hypE ((w.flip S).tr t).e2 J1 F1 = e1 := Except.ok.inj (k1.energy.symm.trans g1)
  have c2 : (w.flip S).hypE ((w.flip S).tr t).e1 J2 F2 = e2 := Except.ok.inj (k2.energy.symm.trans g2)
  refine ⟨_, _, newHTr_ok hW hI s1 s2 h1 h2, newHTr_ok (w := w.flip S) hW hI s2 s1 k2 k1, ⟨rfl, rfl, rfl, rfl⟩, ?_, ?_, ?_, ?_, ?_⟩
  · show (if (w.flip S).hypE ((w.flip S).tr t).e2 J1 F1 > (w.flip S).hypE ((w.flip S).tr t).e1 J2 F2 then b else a) =
      if w.hypE (w.tr t).e2 J2 F2 > w.hypE (w.tr t).e1 J1 F1 then a else b
    rw [c1, c2, d1, d2]
    rcases lt_or_gt_of_ne hne with h | h
    · rw [if_neg (not_lt.2 h.le), if_pos h]
    · rw [if_pos h, if_neg (not_lt.2 h.le)]
  · show (if (w.flip S).hypE ((w.flip S).tr t).e2 J1 F1 > (w.flip S).hypE ((w.flip S).tr t).e1 J2 F2 then a else b) =
      if w.hypE (w.tr t).e2 J2 F2 > w.hypE (w.tr t).e1 J1 F1 then b else a
    rw [c1, c2, d1, d2]
    rcases lt_or_gt_of_ne hne with h | h
    · rw [if_neg (not_lt.2 h.le), if_pos h]
    · rw [if_pos h, if_neg (not_lt.2 h.le)]
  · show (w.tr t).A.map (fun A => (A : ℝ) * hStrength (w.tr t).allowed w.I J2 F2 J1 F1) = (w.tr t).A.map (fun A => (A : ℝ) * hStrength (w.tr t).allowed w.I J1 F1 J2 F2)
    rw [hStrength_symm]
  · show (match (w.tr t).A with
      | none => (1 : ℝ)
      | some _ => hStrength (w.tr t).allowed w.I J2 F2 J1 F1) = (match (w.tr t).A with
      | none => (1 : ℝ)
      | some _ => hStrength (w.tr t).allowed w.I J1 F1 J2 F2)
    rw [hStrength_symm]
  · show hTypes (w.tr t).allowed w.I J2 F2 J1 F1 = hTypes (w.tr t).allowed w.I J1 F1 J2 F2
    exact hTypes_symm _ _ _ _ _ _

/-- Two levels with their hyperfine levels and a transition. -/
def lineOps : List Op := [.newLevel (demoTerm 'g') 0 2 4 0 0 none, .newLevel (demoTerm 'a') 500 2 8 0 0 none,
  .addLevel 0 true none, .addLevel 1 true none, .newTrans 0 1 none (.hz 5) none]

example : let w := runAll lineOps (emptyAtom (1/2) 0)
    IsSpin w.I ∧ IsHyp w (w.tr 0).e1 (1/2) 0 0 ∧ IsHyp w (w.tr 0).e2 (1/2) 3 1 ∧ w.hHz 0 = .ok (-3) ∧ w.hHz 3 = .ok 502 :=
  ⟨⟨1, by decide +kernel⟩, ⟨by decide +kernel, by decide +kernel, by decide +kernel, by decide +kernel, by decide +kernel, by decide +kernel, by decide +kernel⟩,
    ⟨by decide +kernel, by decide +kernel, by decide +kernel, by decide +kernel, by decide +kernel, by decide +kernel, by decide +kernel⟩, by decide +kernel, by decide +kernel⟩

/-- The strength of a Zeeman line does not depend on which end is given first. -/
def C186_zeeman_full : Prop := ∀ (W : Wig) (al : Types) (F m F' m' : ℚ), W.Good → IsSpin F → IsSpin F' → m ∈ zMs F → m' ∈ zMs F' →
  zFactor W al F m F' m' = zFactor W al F' m' F m

/-- This fails for E2 lines: from F = 0 to F' = 2 the strength is 0, from F' = 2 to F = 0 it is not. -/
theorem C186_zeeman_fails : ¬C186_zeeman_full := by
  intro h
  have h1 := h exactWig (false, false, true) 0 0 2 0 exactWig_good ⟨0, by simp⟩ ⟨4, by norm_num⟩ (by decide +kernel) (by decide +kernel)
  rw [zFactor_ok exactWig_good _ ⟨0, by simp⟩ ⟨0, by simp⟩ ⟨4, by norm_num⟩ ⟨0, by simp⟩,
    zFactor_ok exactWig_good _ ⟨4, by norm_num⟩ ⟨0, by simp⟩ ⟨0, by simp⟩ ⟨0, by simp⟩] at h1
  simp only [zStrength, Bool.or_self, Bool.false_eq_true, if_false, if_true, Except.ok.injEq] at h1
  have e0 : half 0 = 0 := by unfold half; simp
  have e4 : half 4 = 2 := by unfold half; norm_num
  have a := threeSum_two (n := 2) (by decide) 0 0 0 0
  have b := threeSum_two (n := 2) (by decide) 4 4 0 0
  rw [e0] at a b
  rw [e4] at b
  rw [a, b, Racah.w3_zero] at h1
  · have : Racah.w3 4 4 4 (-0) (0 - 0) 0 ≠ 0 := w3_ne (by decide) (by decide +kernel)
    exact this (pow_eq_zero_iff (two_ne_zero) |>.1 (h1.symm.trans (by simp)))
  · rintro ⟨-, -, -, -, -, -, -, -, h9, -⟩
    revert h9
    decide

end AtomTk
