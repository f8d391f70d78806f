import Verif.Props.Pinned

/-!
# C155: setting a frequency to its present value
-/

namespace AtomTk
open Util World

/-- Every set frequency is the distance from the lower to the upper level of its transition. -/
def MetUp (w : World) : Prop := ∀ n m t f, SetEdge w n m t f → 0 ≤ f ∧ w.eHz (w.tr t).upper - w.eHz (w.tr t).lower = f

/-- From a state in which all set frequencies are met no energy changes and nothing is reported. -/
def Still (a b : World) : Prop := b.g = a.g ∧ b.tr = a.tr ∧ (MetUp a → (∀ i, b.eHz i = a.eHz i) ∧ b.warned = a.warned)

theorem MetUp.of_still {a b : World} (h : Still a b) (ha : MetUp a) : MetUp b := by
  obtain ⟨h1, h2, h3⟩ := h
  intro n m t f he
  unfold SetEdge at he
  rw [h1, h2] at he
  rw [h2, (h3 ha).1, (h3 ha).1]
  exact ha n m t f he

theorem Still.refl (a : World) : Still a a := ⟨rfl, rfl, fun _ => ⟨fun _ => rfl, rfl⟩⟩

theorem Still.trans (a b c : World) (h1 : Still a b) (h2 : Still b c) : Still a c :=
  ⟨h2.1.trans h1.1, h2.2.1.trans h1.2.1, fun ha => ⟨fun i => ((h2.2.2 (ha.of_still h1)).1 i).trans ((h1.2.2 ha).1 i),
    (h2.2.2 (ha.of_still h1)).2.trans (h1.2.2 ha).2⟩⟩

theorem enfEdge_still (u v : Str) (w : World) : Still w (enfEdge u v w).1 := by
  refine ⟨(enfEdge_frame u v w).g, enfEdge_tr u v w, fun hs => ?_⟩
  unfold enfEdge
  split
  · exact ⟨fun _ => rfl, rfl⟩
  · rename_i t he
    split
    · exact ⟨fun _ => rfl, rfl⟩
    · rename_i f hf
      obtain ⟨h1, h2⟩ := hs u v t f ⟨he, hf⟩
      have hfe : f = |w.eHz (w.tr t).lower - w.eHz (w.tr t).upper| := by
        rw [abs_sub_comm, h2, abs_of_nonneg h1]
      simp only
      rw [if_neg (fun h => h.2.2 hfe)]
      refine ⟨fun i => ?_, ?_⟩
      · rw [eHz_setFixed, eHz_setFixed]
        split <;> rw [eHz_setE] <;> split
        · rename_i hi; rw [hi]; linarith
        · rfl
        · rename_i hi; rw [hi]; linarith
        · rfl
      · split <;> rfl

theorem enfEdges_still (l : List (Str × Str)) (w : World) : Still w (enfEdges l w).1 := by
  induction l generalizing w with
  | nil => exact .refl w
  | cons p t ih =>
    obtain ⟨u, v⟩ := p
    unfold enfEdges
    exact PyM.bind_rel Still Still.trans (enfEdge_still u v) (fun _ => ih) w

theorem enforce_still (σ : Ord') (trig : Option (Str × Str)) (w : World) : Still w (enforce σ trig w).1 := by
  unfold enforce
  split
  · exact .refl w
  · refine enfComps_rel Still Still.refl Still.trans σ _ (fun c w => ?_) _ _ _
    unfold enfComp
    split
    · exact .refl w
    · exact .refl w
    · exact enfEdges_still _ _

/-- C155: where all set frequencies are met, `enforce_consistency` moves no level and reports nothing, whichever levels are pinned. -/
theorem C155_enforce {w : World} (hr : Reachable w) {σ : Ord'} (hσ : Shuffles σ) (hm : MetUp w) :
    ∃ w', enforce σ none w = (w', .ok ()) ∧ (∀ i, w'.eHz i = w.eHz i) ∧ w'.warned = w.warned := by
  obtain ⟨w', h, -⟩ := enforce_group hr.wf hσ none []
  have hs := (enforce_still σ none w).2.2 hm
  rw [h] at hs
  exact ⟨w', h, hs⟩

/-- The full claim C155: in an atom whose set frequencies are all met, setting a transition to the frequency it has moves no level. -/
def C155_full : Prop := ∀ (w : World) (σ : Ord') (t : Nat), Reachable w → Shuffles σ → InAtom w t →
  (∀ n m t' f', SetEdge w n m t' f' → w.freqHz t' = f') → ∀ i, (setFrequency σ t (w.freqHz t) w).1.eHz i = w.eHz i

/-- C155, the part that holds: where no transition in question is upside down, setting a transition to the frequency it has is accepted, moves no
level, reports nothing and makes that frequency the set one.  Missing: transitions whose upper level lies below the lower one. -/
theorem C155_present_partial {w : World} (hr : Reachable w) {σ : Ord'} (hσ : Shuffles σ) {t : Nat} (ht : InAtom w t)
    (hm : ∀ n m t' f', SetEdge w n m t' f' → t' ≠ t → w.freqHz t' = f' ∧ w.eHz (w.tr t').lower ≤ w.eHz (w.tr t').upper)
    (ho : w.eHz (w.tr t).lower ≤ w.eHz (w.tr t).upper) :
    ∃ w', setFrequency σ t (w.freqHz t) w = (w', .ok ()) ∧ (∀ i, w'.eHz i = w.eHz i) ∧ w'.warned = w.warned ∧
      (w'.tr t).setFreq = some (w.freqHz t) ∧ w'.freqHz t = w.freqHz t ∧ ∀ t', t' ≠ t → w'.tr t' = w.tr t' := by
  have hw := hr.wf
  have freq : ∀ {n m t'}, w.g.adj n m = some t' → w.eHz (w.tr t').lower ≤ w.eHz (w.tr t').upper →
      w.freqHz t' = w.eHz (w.tr t').upper - w.eHz (w.tr t').lower := by
    intro n m t' he hle
    obtain ⟨_, _, _, _, _, k6⟩ := hw.edge _ _ _ he
    unfold freqHz
    rcases k6 with ⟨e1, e2⟩ | ⟨e1, e2⟩
    · rw [e1, e2, abs_sub_comm, abs_of_nonneg (by linarith)]
    · rw [e1, e2, abs_of_nonneg (by linarith)]
  obtain ⟨k1, hb, k3, k4, k5, k6⟩ := hw.edge _ _ _ ht
  have ha : (w.lv (w.tr t).e1).inAtom = true := by
    rcases k6 with ⟨e, _⟩ | ⟨e, _⟩
    · rw [e]; exact (hw.node _ _ k3).2.1
    · rw [e]; exact (hw.node _ _ k4).2.1
  have hmet : MetUp (prep w t (w.freqHz t)) := by
    intro n m t' f' he
    rw [prep_setEdge, withFreq_setEdge] at he
    rw [prep_eHz, prep_eHz, prep_tr]
    rcases he with ⟨rfl, rfl, he⟩ | ⟨hne, he⟩
    · rw [withFreq_tr_same]
      have := freq he ho
      exact ⟨by rw [this]; linarith, this.symm⟩
    · rw [withFreq_tr_ne w hne]
      obtain ⟨e1, e2⟩ := hm n m t' f' he hne
      have := freq he.1 e2
      exact ⟨by rw [← e1, this]; linarith, by rw [← e1, this]⟩
  obtain ⟨w', h, -⟩ := enforce_group (hw.frame (prep_frame w t (w.freqHz t))) hσ (some (w.lname (w.tr t).e1, w.lname (w.tr t).e2)) []
  have hs := enforce_still σ (some (w.lname (w.tr t).e1, w.lname (w.tr t).e2)) (prep w t (w.freqHz t))
  rw [h] at hs
  obtain ⟨s1, s2, s3⟩ := hs
  obtain ⟨s4, s5⟩ := s3 hmet
  have hE : ∀ i, w'.eHz i = w.eHz i := fun i => (s4 i).trans (prep_eHz w t _ i)
  have htr : w'.tr = (withFreq w t (w.freqHz t)).tr := s2.trans (prep_tr w t _)
  refine ⟨w', by rw [setFrequency_eq hb ha]; exact h, hE, s5.trans (prep_warned w t _), ?_, ?_, fun t' hne => ?_⟩
  · rw [htr, withFreq_tr_same]
  · show |w'.eHz (w'.tr t).e1 - w'.eHz (w'.tr t).e2| = _
    rw [htr, withFreq_tr_same, hE, hE]
    rfl
  · rw [htr, withFreq_tr_ne w hne]

/-- C155 fails: g at 0 and a at -5 have a transition built with `a` above, set to 5, the frequency it has; setting it to 5 moves `a` to 5. -/
theorem C155_fails : ¬C155_full := by
  intro h
  have := h (runAll flippedOps (emptyAtom 0 0)) idOrd 0 (demo_reachable (by decide +kernel)) idOrd_shuffles (by decide +kernel)
    (fun n m t f he => forall_setEdge (w := runAll flippedOps (emptyAtom 0 0)) (P := fun _ _ t f => (runAll flippedOps (emptyAtom 0 0)).freqHz t = f)
      (by decide +kernel) he) 1
  revert this
  decide +kernel

example : let w := runAll flippedOps (emptyAtom 0 0)
    w.eHz 1 = -5 ∧ w.freqHz 0 = 5 ∧ (setFrequency idOrd 0 5 w).1.eHz 1 = 5 := by decide +kernel

/-- The hypotheses of `C155_present_partial` and `C155_enforce` hold in the enforced chain. -/
example : ∃ w', setFrequency idOrd 1 (chainDone.freqHz 1) chainDone = (w', .ok ()) :=
  (C155_present_partial (w := chainDone) (t := 1) (demo_reachable (by decide +kernel)) idOrd_shuffles (by decide +kernel)
    (fun n m t f he _ => forall_setEdge (w := chainDone) (P := fun _ _ t f => chainDone.freqHz t = f ∧
      chainDone.eHz (chainDone.tr t).lower ≤ chainDone.eHz (chainDone.tr t).upper) (by decide +kernel) he) (by decide +kernel)).imp (fun _ h => h.1)

example : MetUp chainDone := fun n m t f he => forall_setEdge (w := chainDone) (P := fun _ _ t f =>
  0 ≤ f ∧ chainDone.eHz (chainDone.tr t).upper - chainDone.eHz (chainDone.tr t).lower = f) (by decide +kernel) he

end AtomTk
