import Verif.Props.Enforce

/-!
# C99: pinned levels

A level is pinned (`fixed`) once a set transition has been enforced on it.  Enforcement is meant to move the levels that
are still free.
-/

namespace AtomTk
open Util World

/-- C99 as stated: enforcement leaves every pinned level where it is. -/
def C99_full : Prop := ∀ (w : World) (σ : Ord') (i : Nat), Reachable w → Shuffles σ → (w.lv i).fixed = true →
  (enforce σ none w).1.eHz i = w.eHz i

/-- Every set transition lies between two pinned levels, the upper one not below the lower one. -/
def AllPinned (w : World) : Prop := ∀ n m t f, SetEdge w n m t f → (w.lv (w.tr t).lower).fixed = true ∧
  (w.lv (w.tr t).upper).fixed = true ∧ w.eHz (w.tr t).lower ≤ w.eHz (w.tr t).upper

/-- From a settled state no energy changes. -/
def Rest (a b : World) : Prop := b.g = a.g ∧ b.tr = a.tr ∧
  (∀ i, (a.lv i).fixed = true → (b.lv i).fixed = true) ∧ (AllPinned a → ∀ i, b.eHz i = a.eHz i)

theorem AllPinned.of_rest {a b : World} (h : Rest a b) (ha : AllPinned a) : AllPinned b := by
  obtain ⟨h1, h2, h3, h4⟩ := h
  intro n m t f he
  unfold SetEdge at he
  rw [h1, h2] at he
  obtain ⟨k1, k2, k3⟩ := ha n m t f he
  rw [h2, h4 ha, h4 ha]
  exact ⟨h3 _ k1, h3 _ k2, k3⟩

theorem Rest.refl (a : World) : Rest a a := ⟨rfl, rfl, fun _ h => h, fun _ _ => rfl⟩

theorem Rest.trans (a b c : World) (h1 : Rest a b) (h2 : Rest b c) : Rest a c :=
  ⟨h2.1.trans h1.1, h2.2.1.trans h1.2.1, fun i h => h2.2.2.1 i (h1.2.2.1 i h),
    fun ha i => (h2.2.2.2 (ha.of_rest h1) i).trans (h1.2.2.2 ha i)⟩

theorem fixed_setFixed_true (w : World) (k i : Nat) (h : (w.lv i).fixed = true) : ((w.setFixed k true).lv i).fixed = true := by
  by_cases e : i = k
  · subst e; simp [setFixed, setLv]
  · simp [setFixed, setLv, upd_ne _ _ _ e, h]

theorem enfEdge_rest (u v : Str) (w : World) : Rest w (enfEdge u v w).1 := by
  have hg := (enfEdge_frame u v w).g
  have ht := enfEdge_tr u v w
  refine ⟨hg, ht, ?_, ?_⟩
  · intro i hi
    unfold enfEdge
    split
    · exact hi
    · split
      · exact hi
      · simp only
        apply fixed_setFixed_true
        apply fixed_setFixed_true
        split
        · exact hi
        · split <;> rw [fixed_setE] <;> exact hi
  · intro hs i
    unfold enfEdge
    split
    · rfl
    · rename_i t he
      split
      · rfl
      · rename_i f hf
        obtain ⟨h1, h2, h3⟩ := hs u v t f ⟨he, hf⟩
        rw [eHz_setFixed, eHz_setFixed]
        split
        · rfl
        · rename_i hne
          have hfe : f = |w.eHz (w.tr t).lower - w.eHz (w.tr t).upper| := by
            by_contra hc
            exact hne ⟨h1, h2, hc⟩
          rw [eHz_setE]
          split
          · rename_i hi
            rw [hi, hfe, abs_sub_comm, abs_of_nonneg (by linarith)]
            ring
          · rfl

theorem enfEdges_rest (l : List (Str × Str)) (w : World) : Rest w (enfEdges l w).1 := by
  induction l generalizing w with
  | nil => exact .refl w
  | cons p t ih =>
    obtain ⟨u, v⟩ := p
    unfold enfEdges
    exact PyM.bind_rel Rest Rest.trans (enfEdge_rest u v) (fun _ => ih) w

theorem enforce_rest (σ : Ord') (trig : Option (Str × Str)) (w : World) : Rest w (enforce σ trig w).1 := by
  unfold enforce
  split
  · exact .refl w
  · refine enfComps_rel Rest Rest.refl Rest.trans σ _ (fun c w => ?_) _ _ _
    unfold enfComp
    split
    · exact .refl w
    · exact .refl w
    · exact enfEdges_rest _ _

/-- C99: enforcement never unpins a level. -/
theorem C99_stays_pinned (w : World) (σ : Ord') (trig : Option (Str × Str)) (i : Nat) (h : (w.lv i).fixed = true) :
    ((enforce σ trig w).1.lv i).fixed = true := (enforce_rest σ trig w).2.2.1 i h

/-- C99, the part that holds: when all set transitions lie between pinned levels and none is upside down, enforcement
moves nothing, contradictory frequencies or not.  Missing: transitions whose upper level has come to lie below the lower
one (`C99_fails`). -/
theorem C99_settled_partial (w : World) (σ : Ord') (trig : Option (Str × Str)) (h : AllPinned w) (i : Nat) :
    (enforce σ trig w).1.eHz i = w.eHz i := (enforce_rest σ trig w).2.2.2 h i

/-- C37, the failing side in general: when everything is pinned and the transition had no set frequency, or the set
frequency zero, a new one has no effect at all: no level moves, and the transition's frequency is what it was. -/
theorem C37_no_effect {w : World} (hr : Reachable w) {σ : Ord'} {t : Nat} {f : ℚ}
    (ht : InAtom w t) (h0 : (w.tr t).setFreq = none ∨ (w.tr t).setFreq = some 0) (hs : AllPinned w)
    (hl : (w.lv (w.tr t).lower).fixed = true) (hu : (w.lv (w.tr t).upper).fixed = true)
    (ho : w.eHz (w.tr t).lower ≤ w.eHz (w.tr t).upper) :
    (∀ i, (setFrequency σ t f w).1.eHz i = w.eHz i) ∧ (setFrequency σ t f w).1.freqHz t = w.freqHz t := by
  have hw := hr.wf
  obtain ⟨k1, hb, k3, k4, k5, k6⟩ := hw.edge _ _ _ ht
  have hrel : ¬releases w t := by
    rintro ⟨h, _⟩
    rcases h0 with e | e <;> rw [e] at h <;> simp [truthy] at h
  have hp : prep w t f = withFreq w t f := by
    unfold prep
    rw [if_neg hrel]
  have ha : (w.lv (w.tr t).e1).inAtom = true := by
    rcases k6 with ⟨e, _⟩ | ⟨e, _⟩
    · rw [e]; exact (hw.node _ _ k3).2.1
    · rw [e]; exact (hw.node _ _ k4).2.1
  rw [setFrequency_eq hb ha, hp]
  have hs' : AllPinned (withFreq w t f) := by
    intro n m t' f' he
    rw [withFreq_setEdge] at he
    have e1 : ∀ i, (withFreq w t f).eHz i = w.eHz i := fun _ => rfl
    have e2 : ∀ i, (withFreq w t f).lv i = w.lv i := fun _ => rfl
    rw [e1, e1, e2, e2]
    by_cases htt : t' = t
    · subst htt
      rw [withFreq_tr_same]
      exact ⟨hl, hu, ho⟩
    · rw [withFreq_tr_ne w htt]
      rcases he with ⟨e, _⟩ | ⟨_, he⟩
      · exact absurd e htt
      · exact hs n m t' f' he
  have key := fun i => C99_settled_partial (withFreq w t f) σ (some (w.lname (w.tr t).e1, w.lname (w.tr t).e2)) hs' i
  refine ⟨key, ?_⟩
  have htr := enforce_tr σ (some (w.lname (w.tr t).e1, w.lname (w.tr t).e2)) (withFreq w t f)
  unfold freqHz
  rw [htr, withFreq_tr_same, key, key]
  rfl

/-- g at 0 and a at 5 with the transition set to 5 and enforced; then `a` is moved to -5. -/
def flippedOps : List Op :=
  threeLevels 0 5 9 ++ [.newTrans 0 1 (some 5) .none none, .enforce idOrd, .setEnergy 1 (-5)]

/-- C99 fails: the ground level, pinned at 0, is moved to -10. -/
theorem C99_fails : ¬C99_full := by
  intro h
  have := h (runAll flippedOps (emptyAtom 0 0)) idOrd 0 (demo_reachable (by decide +kernel)) idOrd_shuffles (by decide +kernel)
  revert this
  decide +kernel

/-- Where it ends up: the transition reads 5 again, with the ground level 10 below where it was pinned. -/
example : let w := runAll flippedOps (emptyAtom 0 0)
    (w.lv 0).fixed = true ∧ w.eHz 0 = 0 ∧ (enforce idOrd none w).1.eHz 0 = -10 := by decide +kernel

/-- A settled atom with a contradiction: the enforced chain g-a-b at 0, 1, 2 with g-a then set to 3. -/
example : AllPinned chainDone := fun n m t f he => forall_setEdge (w := chainDone) (P := fun _ _ t _ =>
  (chainDone.lv (chainDone.tr t).lower).fixed = true ∧ (chainDone.lv (chainDone.tr t).upper).fixed = true ∧
    chainDone.eHz (chainDone.tr t).lower ≤ chainDone.eHz (chainDone.tr t).upper) (by decide +kernel) he

/-- A transition set to frequency zero and enforced. -/
def zeroFreqOps : List Op := threeLevels 0 3 9 ++ [.newTrans 0 1 (some 0) .none none, .enforce idOrd]

/-- The atom after these calls. -/
def zeroFreqAtom : World := runAll zeroFreqOps (emptyAtom 0 0)

/-- The hypotheses of `C37_no_effect` are met: a frequency once set to zero can no longer be changed. -/
example : (setFrequency idOrd 0 7 zeroFreqAtom).1.freqHz 0 = 0 := by
  rw [(C37_no_effect (w := zeroFreqAtom) (t := 0) (demo_reachable (by decide +kernel)) (by decide +kernel) (.inr (by decide +kernel))
    (fun n m t f he => forall_setEdge (w := zeroFreqAtom) (P := fun _ _ t _ =>
      (zeroFreqAtom.lv (zeroFreqAtom.tr t).lower).fixed = true ∧ (zeroFreqAtom.lv (zeroFreqAtom.tr t).upper).fixed = true ∧
      zeroFreqAtom.eHz (zeroFreqAtom.tr t).lower ≤ zeroFreqAtom.eHz (zeroFreqAtom.tr t).upper) (by decide +kernel) he)
    (by decide +kernel) (by decide +kernel) (by decide +kernel)).2]
  decide +kernel

end AtomTk
