import Verif.Props.TransFresh
import Verif.Props.SumRules

/-!
# C184: isotopes without nuclear spin
-/

namespace AtomTk
open Util World Strengths

/-- C184: without a nuclear spin, F = J and nothing else; without J, F = I and nothing else. -/
theorem C184_single {J : ℚ} (hJ : IsSpin J) : hfFs 0 J = [J] ∧ hfFs J 0 = [J] := by
  have e1 : J + 0 + 1 = |J - 0| + (1 : ℕ) := by rw [sub_zero, abs_of_nonneg hJ.nonneg]; push_cast; ring
  have e2 : 0 + J + 1 = |0 - J| + (1 : ℕ) := by rw [zero_sub, abs_neg, abs_of_nonneg hJ.nonneg]; push_cast; ring
  unfold hfFs
  rw [arange_nat _ _ 1 e1, arange_nat _ _ 1 e2]
  simp [abs_of_nonneg hJ.nonneg]

/-- C184: the one hyperfine level of a level of an atom without nuclear spin, or of a level without J, looked up by name, is where the level is, whatever the
hyperfine constants are and were, and stays there while other things are looked up. -/
theorem C184_energy {w : World} (hr : Reachable w) (hI : IsSpin w.I) {i : Nat} {J : ℚ} (h0 : w.I = 0 ∨ J = 0) (hf : Findable w i J)
    (ha : w.lalias.get? (hypText (w.lname i) (J + w.I)) = none) :
    ∃ w' j, levelsGet (hypText (w.lname i) (J + w.I)) w = (w', .ok (.hyp j)) ∧ ∀ w'', LFrame w' w'' → w''.hHz j = .ok (w.eHz i) := by
  have hF : J + w.I ∈ hfFs w.I J := by
    rcases h0 with h | h
    · rw [h, (C184_single hf.spin).1]
      simp
    · rw [h, (C184_single hI).2]
      simp
  obtain ⟨w', j, h1, -, -, h2⟩ := hyp_found hr hI hf hF ha
  refine ⟨w', j, h1, fun w'' l => ?_⟩
  rw [h2 w'' l]
  have h3 := C18_zero (w.lv i).hfA (w.lv i).hfB (w.lv i).hfC w.I J (J + w.I) h0 hI hf.spin hF
  rw [hfShift_ok] at h3
  have h4 := Except.ok.inj h3
  have h5 : w.hypE i J (J + w.I) = w.eHz i + 0 := by
    rw [← h4]
    rfl
  rw [h5, add_zero]

/-- C184: the Zeeman levels of such a level are where the Zeeman effect puts them, counted from the level itself. -/
theorem C184_zeeman {w : World} (hr : Reachable w) (hI : IsSpin w.I) {i : Nat} {J : ℚ} (h0 : w.I = 0 ∨ J = 0) (hf : Findable w i J) {k k' : Str} {j z : Nat}
    (hj : (w.lv i).subs.get? k = some j) (hz : (w.hf j).subs.get? k' = some z) :
    ∃ m ∈ zMs (J + w.I), k' = mKey m ∧ w.zHz z = .ok (w.eHz i + ((w.zl z).gF * m * muB * w.B + (w.zl z).quad * w.B ^ 2)) := by
  obtain ⟨F, hm, rfl, hp, ht⟩ := sub_hyp hr hf hj
  have hF : F = J + w.I := by
    rcases h0 with h | h
    · rw [h, (C184_single hf.spin).1, List.mem_singleton] at hm
      rw [hm, h, add_zero]
    · rw [h, (C184_single hI).2, List.mem_singleton] at hm
      rw [hm, h, zero_add]
  have htF : (w.hf j).term.F = some F := by rw [ht]; simp [Term.withF, hf.hF]
  have htJ : (w.hf j).term.J = some J := by rw [ht]; simp [Term.withF, hf.hJ]
  obtain ⟨m, hmm, rfl, hpz, htz⟩ := sub_zee hr htF hz
  refine ⟨m, hF ▸ hmm, rfl, ?_⟩
  have h1 : w.hHz j = .ok (w.eHz i) := by
    unfold hHz hShift
    rw [htJ, htF, hp]
    simp only
    rw [C18_zero _ _ _ _ _ _ h0 hI hf.spin hm]
    show Except.ok (w.eHz i + 0) = _
    rw [add_zero]
  have h2 : (w.zl z).term.mF = some m := by rw [htz]; simp [Term.withM]
  unfold zHz zShiftHz
  rw [hpz, h1, h2]
  rfl

/-- C184: the one hyperfine line of an allowed transition of an atom without nuclear spin has all the strength and all the rate. -/
theorem C184_line {W : Wig} (hW : W.Good) {J J' : ℚ} (hJ : IsSpin J) (hJ' : IsSpin J') (hint : ∃ n : ℤ, J - J' = n)
    (h0 : ¬(J = 0 ∧ J' = 0)) (p p' : ℤ) (same : Bool) (al : Types) (hal : al = allowedTypes J J' p p' same) (hany : al.any = true) :
    hFactor W al 0 J J J' J' = .ok 1 := by
  obtain ⟨v, h1, h2, -, -⟩ := C96_sums hW (⟨0, by norm_num⟩ : IsSpin 0) hJ hJ' hint h0 p p' same al hal hany
  have m : J ∈ hfFs 0 J := by rw [(C184_single hJ).1]; exact List.mem_singleton_self J
  have m' : J' ∈ hfFs 0 J' := by rw [(C184_single hJ').1]; exact List.mem_singleton_self J'
  have h3 := h2 J m
  rw [(C184_single hJ').1] at h3
  have hp : ((2 * J + 1 : ℚ) : ℝ) ≠ 0 := by
    have := hJ.nonneg
    have : (2 * J + 1 : ℚ) ≠ 0 := by positivity
    exact_mod_cast this
  have h4 : v J J' = 1 := by
    rw [div_self hp] at h3
    simpa using h3
  rw [h1 J m J' m', h4]

/-- A level with hyperfine constants in an atom without nuclear spin. -/
def evenOps : List Op := [.newLevel (demoTerm 'g') 7 2 400 50 6 none, .addLevel 0 false none, .getSub (.fine 0) "F=1/2".toList, .getSub (.hyp 0) "mF=1/2".toList]
/-- That atom, in a field. -/
def evenAtom : World := runAll evenOps (emptyAtom 0 1)

theorem evenAtom_reachable : Reachable evenAtom := (Reachable.empty _ _).runAll (by decide +kernel)

example : evenAtom.I = 0 ∧ IsSpin evenAtom.I ∧ Findable evenAtom 0 (1/2) ∧ evenAtom.lalias.get? (hypText (evenAtom.lname 0) (1/2 + evenAtom.I)) = none ∧
    (evenAtom.lv 0).subs.get? "F=1/2".toList = some 0 ∧ (evenAtom.hf 0).subs.get? "mF=1/2".toList = some 1 ∧ evenAtom.hHz 0 = .ok 7 ∧
    evenAtom.zHz 1 = .ok (7 + muB) := by
  refine ⟨by decide +kernel, ⟨0, by decide +kernel⟩, ⟨by decide +kernel, by decide +kernel, by decide +kernel, ⟨1, by norm_num⟩, by decide +kernel, by decide +kernel⟩,
    by decide +kernel, by decide +kernel, by decide +kernel, by decide +kernel, by decide +kernel⟩

example : hFactor exactWig (allowedTypes (1/2) (3/2) 0 1 false) 0 (1/2) (1/2) (3/2) (3/2) = .ok 1 :=
  C184_line exactWig_good ⟨1, by norm_num⟩ ⟨3, by norm_num⟩ ⟨-1, by norm_num⟩ (by norm_num) 0 1 false _ rfl (by decide +kernel)

end AtomTk
