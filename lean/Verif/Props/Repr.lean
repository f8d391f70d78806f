import Verif.Model.Repr
import Verif.Props.Items

/-! # C135: printed forms -/

namespace AtomTk
open World

/-- The full claim: containers print with their number of members, levels with their number of sublevels, transitions with frequency and
rate, terms print. -/
def C135_full : Prop := ∀ w, Reachable w → IsSpin w.I →
  w.levelsRepr = .ok ⟨w.levelNames.length, "EnergyLevel".toList⟩ ∧ w.transRepr = .ok ⟨w.transVals.length, "Transition".toList⟩ ∧
  (∀ i J, Findable w i J → ∃ T, w.levelRepr (.fine i) = .ok T ∧ T.name = w.lname i ∧ T.level = w.eHz i ∧ (T.count : ℚ) = 2 * min w.I J + 1) ∧
  ∀ m : MultiTerm, ∃ s, multiRepr m = .ok s

theorem pyIndex_zero {α} (l : List α) (h : l ≠ []) : ∃ a, pyIndex l 0 = .ok a := by
  cases l with
  | nil => exact absurd rfl h
  | cons a l => exact ⟨a, by simp [pyIndex]⟩

/-- C135: containers that are not empty print with their number of members. -/
theorem C135_containers_partial (w : World) :
    (w.levelNames ≠ [] → w.levelsRepr = .ok ⟨w.levelNames.length, "EnergyLevel".toList⟩) ∧
    (w.transVals ≠ [] → w.transRepr = .ok ⟨w.transVals.length, "Transition".toList⟩) ∧
    w.atomRepr = (w.I, w.levelNames.length) := by
  refine ⟨fun h => ?_, fun h => ?_, ?_⟩
  · obtain ⟨a, ha⟩ := pyIndex_zero w.g.levelAttrs.vals (by
      intro e
      apply h
      have : w.g.levelAttrs = [] := by simpa [Dict.vals] using e
      simp [levelNames, this, Dict.keys])
    unfold levelsRepr
    rw [ha]
    simp [bind, Except.bind, levelNames, Dict.keys]
  · obtain ⟨a, ha⟩ := pyIndex_zero w.transVals h
    unfold transRepr
    rw [ha]
    simp [bind, Except.bind, transVals, transLen, Dict.vals]
  · simp [atomRepr, levelNames, Dict.keys]

/-- C135: empty containers cannot be printed. -/
theorem C135_empty_raises (w : World) :
    (w.levelNames = [] → w.levelsRepr = .error .IndexError) ∧ (w.transVals = [] → w.transRepr = .error .IndexError) := by
  refine ⟨fun h => ?_, fun h => ?_⟩
  · have : w.g.levelAttrs = [] := by simpa [levelNames, Dict.keys] using h
    unfold levelsRepr
    rw [this]
    rfl
  · unfold transRepr
    rw [h]
    rfl

/-- C135: a term with its components cannot be printed at all. -/
theorem C135_multi_raises (m : MultiTerm) : multiRepr m = .error .TypeError := rfl

/-- C135: a level prints with its name and energy, and with 0 sublevels before they are first asked for. -/
theorem C135_fresh (w : World) (i : Nat) (h : (w.lv i).subs = []) :
    w.levelRepr (.fine i) = .ok ⟨"EnergyLevel".toList, w.lname i, w.eHz i, 0⟩ := by
  simp only [levelRepr]
  rw [h]; rfl

/-- C135: once its sublevels have been asked for, a level prints with their number. -/
theorem C135_level_partial {w : World} (hr : Reachable w) (hI : IsSpin w.I) {i : Nat} {J : ℚ} (hf : Findable w i J) :
    ∃ w' n T, lvLen i w = (w', .ok n) ∧ w'.levelRepr (.fine i) = .ok T ∧ T.name = w.lname i ∧ T.level = w.eHz i ∧ T.count = n ∧
      (T.count : ℚ) = 2 * min w.I J + 1 := by
  have hin := (hr.wf.node _ _ hf.reg).2.1
  obtain ⟨w1, h1, h2, h3⟩ := lazyHF_ok hr.keysInv hI hin hf.hJ hf.spin hf.hF
  have hlen : ((w1.lv i).subs.length : ℚ) = 2 * min w.I J + 1 := by
    have e : (w1.lv i).subs.length = (hfFs w.I J).length := by
      have := congrArg List.length h2
      simpa [Dict.keys] using this
    rw [e]; exact (C13_multiplet w.I J hI hf.spin).2.2.1
  have hfr : LFrame w w1 := by
    have := lazyHF_frame i w
    rwa [h1] at this
  obtain ⟨s, hs⟩ := hfr.lv i
  refine ⟨w1, (w1.lv i).subs.length, ⟨"EnergyLevel".toList, w1.lname i, w1.eHz i, (w1.lv i).subs.length⟩, ?_, rfl, ?_, ?_, rfl, hlen⟩
  · unfold lvLen
    rw [PyM.bind_ok h1]
    rfl
  · show w1.lname i = _
    unfold lname
    rw [hs]
  · show w1.eHz i = _
    unfold eHz
    rw [hs]

/-- C135: a transition prints with the distance of its levels and its rate, its name made of the names of its levels; sublevels print
with the energies they report. -/
theorem C135_rest (w : World) :
    (∀ t, w.transText t = ⟨"Transition".toList, w.lname (w.tr t).e1 ++ " → ".toList ++ w.lname (w.tr t).e2,
      |w.eHz (w.tr t).e1 - w.eHz (w.tr t).e2|, (w.tr t).A⟩) ∧
    (∀ r T, w.levelRepr r = .ok T → w.refHz r = .ok T.level ∧ T.name = w.levelStr r) ∧
    (∀ r e, w.levelRepr r = .error e ↔ w.refHz r = .error e) := by
  refine ⟨fun t => rfl, fun r T h => ?_, fun r e => ?_⟩
  · cases r with
    | fine i => cases h; exact ⟨rfl, rfl⟩
    | hyp j =>
      simp only [levelRepr] at h
      simp only [refHz]
      rcases hE : w.hHz j with e | E
      · rw [hE] at h; cases h
      · rw [hE] at h; cases h; exact ⟨rfl, rfl⟩
    | zee k =>
      simp only [levelRepr] at h
      simp only [refHz]
      rcases hE : w.zHz k with e | E
      · rw [hE] at h; cases h
      · rw [hE] at h; cases h; exact ⟨rfl, rfl⟩
  · cases r with
    | fine i => simp [levelRepr, refHz]
    | hyp j =>
      simp only [levelRepr]
      simp only [refHz]
      rcases w.hHz j with e' | E <;> simp [bind, Except.bind]
    | zee k =>
      simp only [levelRepr]
      simp only [refHz]
      rcases w.zHz k with e' | E <;> simp [bind, Except.bind]

/-- C135: a level prints with the kind of level it is. -/
theorem C135_kind (w : World) (r : Ref) (T : LevelText) (h : w.levelRepr r = .ok T) :
    T.cls = match r with
      | .fine _ => "EnergyLevel".toList
      | .hyp _ => "HFLevel".toList
      | .zee _ => "ZLevel".toList := by
  cases r with
  | fine i => cases h; rfl
  | hyp j =>
    simp only [levelRepr] at h
    rcases hE : w.hHz j with e | E
    · rw [hE] at h; cases h
    · rw [hE] at h; cases h; rfl
  | zee k =>
    simp only [levelRepr] at h
    rcases hE : w.zHz k with e | E
    · rw [hE] at h; cases h
    · rw [hE] at h; cases h; rfl

/-- C135 fails: the levels of a new atom. -/
theorem C135_fails : ¬C135_full := by
  intro h
  have := (h (emptyAtom 0 0) (.empty 0 0) ⟨0, by norm_num [emptyAtom]⟩).1
  revert this
  decide +kernel

example : let w := runAll hfOps (emptyAtom (1/2) 0)
    w.levelsRepr = .ok ⟨2, "EnergyLevel".toList⟩ ∧ w.levelRepr (.fine 0) = .ok ⟨"EnergyLevel".toList, "g 2S1/2".toList, 100, 2⟩ ∧
    w.levelRepr (.hyp 1) = .ok ⟨"HFLevel".toList, "g 2S1/2 F=1".toList, 101, 3⟩ ∧ w.transVals = [] := by decide +kernel

example : let w := runAll (hfOps.take 4) (emptyAtom (1/2) 0)
    Reachable w ∧ IsSpin w.I ∧ (w.lv 1).subs = [] ∧ w.levelRepr (.fine 1) = .ok ⟨"EnergyLevel".toList, "a 2S1/2".toList, 500, 0⟩ ∧
    (lvLen 1 w).1.levelRepr (.fine 1) = .ok ⟨"EnergyLevel".toList, "a 2S1/2".toList, 500, 2⟩ :=
  ⟨(Reachable.empty _ _).runAll (by decide +kernel), ⟨1, by decide +kernel⟩, by decide +kernel, by decide +kernel, by decide +kernel⟩

end AtomTk
