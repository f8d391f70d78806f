import Verif.Proofs.SetFreq

/-!
# C36 - C40: enforcing set frequencies

`World.SetConn w v` is the group of the level named `v`: the names connected to it through transitions with set
frequencies.  `World.Shuffles σ` says that the iteration orders networkx happens to use are some permutations; every
theorem holds for all of them.  `Reachable w` ranges over all histories of API calls (`Spec/Atom.lean`).
-/

namespace AtomTk
open Util World

/-! ## A small atom to show the hypotheses are met -/

/-- A level with a one-letter configuration. -/
def demoTerm (c : Char) : Term := ⟨[c], "2S".toList, some (1/2), none, none, 100, { l := some 0, s := some (1/2) }⟩

/-- The name `'g 2S1/2'`. -/
def demoName (c : Char) : Str := (demoTerm c).name

/-- The iteration order "as stored". -/
def idOrd : Ord' := fun _ l => l

theorem idOrd_shuffles : Shuffles idOrd := fun _ _ => .refl _

/-- Add three levels `g`, `a`, `b` at the given energies. -/
def threeLevels (g a b : ℚ) : List Op :=
  [.newLevel (demoTerm 'g') g 0 0 0 0 none, .newLevel (demoTerm 'a') a 0 0 0 0 none,
   .newLevel (demoTerm 'b') b 0 0 0 0 none, .addLevel 0 false none, .addLevel 1 false none, .addLevel 2 false none]

/-- Three levels and transitions constructed (not yet enforced) with the given frequencies. -/
def demoAtom (g a b : ℚ) (ts : List (Nat × Nat × ℚ)) : World :=
  runAll (threeLevels g a b ++ ts.map (fun p => .newTrans p.1 p.2.1 (some p.2.2) .none none)) (emptyAtom 0 0)

theorem demo_reachable {ops : List Op} (h : SaneAll ops (emptyAtom 0 0)) : Reachable (runAll ops (emptyAtom 0 0)) :=
  (Reachable.empty 0 0).runAll h

/-- All set edges of a concrete atom, both ways round. -/
def setEdgeList (w : World) : List (Str × Str × Nat × ℚ) :=
  w.g.flatMap (fun p => p.2.nbrs.filterMap (fun q => (w.tr q.2).setFreq.map (fun f => (p.1, q.1, q.2, f))))

theorem mem_of_get? {κ α : Type} [DecidableEq κ] {d : Dict κ α} {k : κ} {a : α} (h : d.get? k = some a) : (k, a) ∈ d := by
  induction d with
  | nil => simp [Dict.get?] at h
  | cons p d ih =>
    obtain ⟨k', a'⟩ := p
    unfold Dict.get? at h
    split at h
    · rename_i e; simp only [Option.some.injEq] at h; subst e; subst h; simp
    · simp [ih h]

theorem mem_setEdgeList {w : World} {n m : Str} {t : Nat} {f : ℚ} (h : SetEdge w n m t f) :
    (n, m, t, f) ∈ setEdgeList w := by
  obtain ⟨h1, h2⟩ := h
  unfold Graph.adj at h1
  split at h1
  · rename_i r hr
    refine List.mem_flatMap.2 ⟨(n, r), mem_of_get? hr, List.mem_filterMap.2 ⟨(m, t), mem_of_get? h1, ?_⟩⟩
    simp [h2]
  · simp at h1

/-- All levels of a concrete atom. -/
def levelList (w : World) : List Nat := w.g.filterMap (fun p => p.2.level)

theorem mem_levelList {w : World} {n : Str} {i : Nat} (h : w.g.lev n = some i) : i ∈ levelList w := by
  unfold Graph.lev at h
  obtain ⟨r, hr, h2⟩ := Option.bind_eq_some_iff.1 h
  exact List.mem_filterMap.2 ⟨(n, r), mem_of_get? hr, h2⟩

/-- To show something about all set edges of a concrete atom it is enough to run through the list. -/
theorem forall_setEdge {w : World} {P : Str → Str → Nat → ℚ → Prop}
    (h : ∀ e ∈ setEdgeList w, P e.1 e.2.1 e.2.2.1 e.2.2.2) {n m : Str} {t : Nat} {f : ℚ} (he : SetEdge w n m t f) :
    P n m t f := h _ (mem_setEdgeList he)

/-- The same for levels. -/
theorem forall_level {w : World} {X : Str → Prop} {P : Nat → Prop} (h : ∀ i ∈ levelList w, P i) {i : Nat}
    (hi : InX w X i) : P i := by
  obtain ⟨n, _, hn⟩ := hi
  exact h i (mem_levelList hn)

instance (w : World) (u v : Str) (t : Nat) (f : ℚ) : Decidable (SetEdge w u v t f) := by
  unfold SetEdge; infer_instance

/-! ## C36 -/

/-- The set frequencies of the group of `v` can be met by some energies: each transition's two levels can be put at the
set distance. -/
def Satisfiable (w : World) (v : Str) : Prop :=
  ∃ φ : Nat → ℚ, ∀ n m t f, SetConn w v n → SetEdge w n m t f → |φ (w.tr t).e1 - φ (w.tr t).e2| = f

/-- No level of the group of `v` has been pinned by an earlier enforcement. -/
def Unpinned (w : World) (v : Str) : Prop := ∀ i, InX w (SetConn w v) i → (w.lv i).fixed = false

/-- Every set transition of the group of `v` in `w` has its set frequency in `w'`. -/
def AllMet (w w' : World) (v : Str) : Prop :=
  ∀ n m t f, SetConn w v n → SetEdge w n m t f → w'.freqHz t = f

/-- The full claim C36. -/
def C36_full : Prop := ∀ (w : World) (σ : Ord') (v : Str), Reachable w → Shuffles σ → Satisfiable w v → Unpinned w v →
  ∃ w', enforce σ none w = (w', .ok ()) ∧ AllMet w w' v ∧
    ∃ i, InX w (SetConn w v) i ∧ (∀ j, InX w (SetConn w v) j → w.eHz i ≤ w.eHz j) ∧ w'.eHz i = w.eHz i

/-- From the outcome on oriented differences to frequencies. -/
theorem Done.allMet {w w' : World} (hw : w.WF) {v : Str} (hf : EFrame w w') (hd : Done w w' (SetConn w v)) :
    AllMet w w' v := by
  intro n m t f hn he
  obtain ⟨_, _, _, _, _, h6⟩ := hw.edge _ _ _ he.1
  obtain ⟨h0, h1⟩ := hd.real n m t f hn he
  refine freqHz_of (w := w) ?_ h0 h1
  rw [hf.tr]
  exact h6

/-- C36, the part that holds: if the frequencies can be met with every transition the way round it was built, then
enforcing meets all of them; and if moreover no transition is upside down at the moment, a lowest level of the group
stays where it is.  Missing from the full claim: frequencies that can be met only by turning a transition round
(`C36_fails`). -/
theorem C36_enforced_partial {w : World} (hr : Reachable w) {σ : Ord'} (hσ : Shuffles σ) {v : Str}
    (hedge : ∃ m t f, SetEdge w v m t f) (hsat : ∃ φ, Potential w (SetConn w v) φ) (hun : Unpinned w v) :
    ∃ w', enforce σ none w = (w', .ok ()) ∧ AllMet w w' v ∧
      (Oriented w (SetConn w v) →
        ∃ i, InX w (SetConn w v) i ∧ (∀ j, InX w (SetConn w v) j → w.eHz i ≤ w.eHz j) ∧ w'.eHz i = w.eHz i) := by
  obtain ⟨φ, hφ⟩ := hsat
  obtain ⟨w', h1, h2, _, h4⟩ := enforce_group hr.wf hσ none v
  have hd := h4 (by simp) hedge ⟨φ, hφ, .inl hun⟩
  exact ⟨w', h1, Done.allMet hr.wf h2 hd, hd.lowest hun⟩

/-- C36 for loop-free groups: whatever non-negative frequencies are set, they are all met. -/
theorem C36_loop_free {w : World} (hr : Reachable w) {σ : Ord'} (hσ : Shuffles σ) {v : Str}
    (hedge : ∃ m t f, SetEdge w v m t f) (hlf : LoopFree w (SetConn w v))
    (hpos : ∀ n m t f, SetConn w v n → SetEdge w n m t f → 0 ≤ f) (hun : Unpinned w v) :
    ∃ w', enforce σ none w = (w', .ok ()) ∧ AllMet w w' v ∧
      (Oriented w (SetConn w v) →
        ∃ i, InX w (SetConn w v) i ∧ (∀ j, InX w (SetConn w v) j → w.eHz i ≤ w.eHz j) ∧ w'.eHz i = w.eHz i) :=
  C36_enforced_partial hr hσ hedge
    (hlf.potential hr.wf (fun _ _ t f hn he => hn.tail ⟨t, f, he⟩) hpos) hun

/-- Three levels at 0, 1, 2 with all three transitions constructed: g-a with frequency 1, a-b with 1, g-b with `f`. -/
def triangleOps (f : ℚ) : List Op :=
  threeLevels 0 1 2 ++ [.newTrans 0 1 (some 1) .none none, .newTrans 1 2 (some 1) .none none,
    .newTrans 0 2 (some f) .none none]

/-- The atom after these calls. -/
def triangle (f : ℚ) : World := runAll (triangleOps f) (emptyAtom 0 0)

/-- C36 fails: in the triangle g-a 1, a-b 1, g-b 0 (met by g=0, a=1, b=0) the transition g-b ends up at frequency 2. -/
theorem C36_fails : ¬C36_full := by
  intro h
  obtain ⟨w', h1, h2, _⟩ := h (triangle 0) idOrd (demoName 'g') (demo_reachable (by decide +kernel)) idOrd_shuffles
    ⟨fun i => if i = 1 then 1 else 0, fun n m t f _ he =>
      forall_setEdge (w := triangle 0)
        (P := fun _ _ t f => |(if ((triangle 0).tr t).e1 = 1 then (1 : ℚ) else 0) -
          (if ((triangle 0).tr t).e2 = 1 then 1 else 0)| = f) (by decide +kernel) he⟩
    (fun i hi => forall_level (w := triangle 0) (P := fun i => ((triangle 0).lv i).fixed = false) (by decide +kernel) hi)
  have := h2 (demoName 'g') (demoName 'b') 2 0 .refl (by decide +kernel)
  have hw' : w' = (enforce idOrd none (triangle 0)).1 := by rw [h1]
  rw [hw'] at this
  revert this
  decide +kernel

/-- The hypotheses of `C36_enforced_partial` are met by a consistent triangle (a loop), whose levels then move. -/
example : ∃ w', enforce idOrd none (triangle 2) = (w', .ok ()) ∧ AllMet (triangle 2) w' (demoName 'g') := by
  obtain ⟨w', h1, h2, _⟩ := C36_enforced_partial (w := triangle 2) (demo_reachable (by decide +kernel)) idOrd_shuffles
    (v := demoName 'g') ⟨demoName 'b', 2, 2, by decide +kernel⟩
    ⟨fun i => (i : ℚ), fun n m t f _ he => forall_setEdge (w := triangle 2)
      (P := fun _ _ t f => 0 ≤ f ∧ (((triangle 2).tr t).upper : ℚ) - (((triangle 2).tr t).lower : ℚ) = f)
      (by decide +kernel) he⟩
    (fun i hi => forall_level (w := triangle 2) (P := fun i => ((triangle 2).lv i).fixed = false) (by decide +kernel) hi)
  exact ⟨w', h1, h2⟩

/-- A chain g-a-b: g-a with frequency `p`, a-b with frequency `q`; levels at 0, 1, 2. -/
def chainOps (p q : ℚ) : List Op :=
  threeLevels 0 1 2 ++ [.newTrans 0 1 (some p) .none none, .newTrans 1 2 (some q) .none none]

/-- The atom after these calls. -/
def chain (p q : ℚ) : World := runAll (chainOps p q) (emptyAtom 0 0)

/-- Every set edge of a concrete atom goes between a vertex and its parent. -/
theorem loopFree_of_parent {w : World} (par : Str → Str) (rk : Str → ℕ)
    (h : ∀ e ∈ setEdgeList w, (e.2.1 = par e.1 ∧ rk e.2.1 < rk e.1) ∨ (e.1 = par e.2.1 ∧ rk e.1 < rk e.2.1))
    (X : Str → Prop) : LoopFree w X := by
  have h' : ∀ n m t f, SetEdge w n m t f → (m = par n ∧ rk m < rk n) ∨ (n = par m ∧ rk n < rk m) := fun n m t f he =>
    forall_setEdge (P := fun n m _ _ => (m = par n ∧ rk m < rk n) ∨ (n = par m ∧ rk n < rk m)) h he
  refine ⟨acyclic_of_parent par rk ?_, ?_⟩
  · intro a b hab
    rw [SimpleGraph.fromRel_adj] at hab
    obtain ⟨_, ⟨_, _, t, f, he⟩ | ⟨_, _, t, f, he⟩⟩ := hab
    · exact h' a b t f he
    · exact (h' b a t f he).symm
  · intro n t f _ he
    rcases h' n n t f he with ⟨_, h⟩ | ⟨_, h⟩ <;> exact lt_irrefl _ h

/-- Parents in the chain g-a-b. -/
def chainPar (n : Str) : Str := if n = demoName 'b' then demoName 'a' else demoName 'g'
/-- Ranks in the chain g-a-b. -/
def chainRk (n : Str) : ℕ := if n = demoName 'b' then 2 else if n = demoName 'a' then 1 else 0

/-- The hypotheses of `C36_loop_free` are met: the chain with frequencies 5 and 7. -/
example : ∃ w', enforce idOrd none (chain 5 7) = (w', .ok ()) ∧ AllMet (chain 5 7) w' (demoName 'g') ∧
    w'.eHz 2 = 12 := by
  obtain ⟨w', h1, h2, _⟩ := C36_loop_free (w := chain 5 7) (demo_reachable (by decide +kernel)) idOrd_shuffles
    (v := demoName 'g') ⟨demoName 'a', 0, 5, by decide +kernel⟩
    (loopFree_of_parent chainPar chainRk (by decide +kernel) _)
    (fun n m t f _ he => forall_setEdge (w := chain 5 7) (P := fun _ _ _ f => 0 ≤ f) (by decide +kernel) he)
    (fun i hi => forall_level (w := chain 5 7) (P := fun i => ((chain 5 7).lv i).fixed = false) (by decide +kernel) hi)
  refine ⟨w', h1, h2, ?_⟩
  have hw' : w' = (enforce idOrd none (chain 5 7)).1 := by rw [h1]
  rw [hw']
  decide +kernel

/-! ## C37, C38 -/

/-- `t` is the atom's transition between its two levels. -/
def InAtom (w : World) (t : Nat) : Prop := w.g.adj (w.lname (w.tr t).e1) (w.lname (w.tr t).e2) = some t

instance (w : World) (t : Nat) : Decidable (InAtom w t) := by unfold InAtom; infer_instance

/-- The group of the transition `t` once its frequency is set to `f`. -/
def GroupOf (w : World) (t : Nat) (f : ℚ) : Str → Prop := SetConn (withFreq w t f) (w.lname (w.tr t).e1)

/-- The full claim C37. -/
def C37_full : Prop := ∀ (w : World) (σ : Ord') (t : Nat) (f : ℚ), Reachable w → Shuffles σ → InAtom w t → 0 ≤ f →
  ∃ w', setFrequency σ t f w = (w', .ok ()) ∧ w'.freqHz t = f

/-- The full claim C38. -/
def C38_full : Prop := ∀ (w : World) (σ : Ord') (t : Nat) (f : ℚ), Reachable w → Shuffles σ → InAtom w t → 0 ≤ f →
  LoopFree w (fun _ => True) → (w.tr t).setFreq ≠ none →
  (∀ n m t' f', SetEdge w n m t' f' → w.freqHz t' = f') →
  ∃ w', setFrequency σ t f w = (w', .ok ()) ∧ ∀ n m t' f', SetEdge w' n m t' f' → w'.freqHz t' = f'

theorem done_met {w w' : World} (hw : w.WF) {t : Nat} {f : ℚ} (hf : EFrame (prep w t f) w') (ht : InAtom w t)
    (hd : Done (prep w t f) w' (GroupOf w t f)) :
    w'.freqHz t = f ∧ (∀ n m t' f', GroupOf w t f n → SetEdge w n m t' f' → t' ≠ t → w'.freqHz t' = f') ∧
      w'.eHz (w.tr t).upper - w'.eHz (w.tr t).lower = f := by
  have key : ∀ n m t' f', GroupOf w t f n → SetEdge (withFreq w t f) n m t' f' → w'.freqHz t' = f' := by
    intro n m t' f' hn he
    have he' := (prep_setEdge w t f n m t' f').2 he
    obtain ⟨_, _, _, _, _, h6⟩ := (hw.frame (prep_frame w t f)).edge _ _ _ he'.1
    obtain ⟨h0, h1⟩ := hd.real n m t' f' hn he'
    refine freqHz_of (w := prep w t f) ?_ h0 h1
    rw [hf.tr]
    exact h6
  refine ⟨key _ _ t f .refl ((withFreq_setEdge ..).2 (.inl ⟨rfl, rfl, ht⟩)), ?_, ?_⟩
  · intro n m t' f' hn he hne
    exact key n m t' f' hn ((withFreq_setEdge ..).2 (.inr ⟨hne, he⟩))
  · have := (hd.real _ _ t f .refl ((prep_setEdge ..).2 ((withFreq_setEdge ..).2 (.inl ⟨rfl, rfl, ht⟩)))).2
    rw [prep_tr, withFreq_tr_same] at this
    exact this

theorem first_wf {w : World} (hw : w.WF) {σ : Ord'} (hσ : Shuffles σ) {t : Nat} {f : ℚ}
    (ht : InAtom w t) (hf : 0 ≤ f) (hlf : LoopFree (withFreq w t f) (GroupOf w t f))
    (hpos : ∀ n m t' f', SetEdge w n m t' f' → 0 ≤ f')
    (hun : ∀ i, InX w (GroupOf w t f) i → (w.lv i).fixed = false) :
    ∃ w', setFrequency σ t f w = (w', .ok ()) ∧ w'.freqHz t = f ∧
      (∀ n m t' f', GroupOf w t f n → SetEdge w n m t' f' → t' ≠ t → w'.freqHz t' = f') ∧
      w'.eHz (w.tr t).upper - w'.eHz (w.tr t).lower = f := by
  have hwf : WF (withFreq w t f) := hw.frame (setTr_frame w t _ ⟨rfl, rfl, rfl, rfl, rfl⟩)
  obtain ⟨φ, hφ⟩ := hlf.potential hwf (X := GroupOf w t f) (fun n m t' f' hn he => hn.tail ⟨t', f', he⟩)
    (by
      intro n m t' f' _ he
      rw [withFreq_setEdge] at he
      rcases he with ⟨_, rfl, _⟩ | ⟨_, he⟩
      · exact hf
      · exact hpos n m t' f' he)
  obtain ⟨w', h1, h2, h3⟩ := setFrequency_ready hw hσ ht (f := f) ⟨φ, (by
      intro n m t' f' hn he
      rw [prep_setEdge] at he
      rw [prep_tr]
      exact hφ n m t' f' hn he), .inl (by
      intro i hi
      rw [prep_inX] at hi
      rw [prep_fixed, hun i hi]
      simp)⟩
  exact ⟨w', h1, done_met hw h2 ht h3⟩

/-- C37, first part that holds: in a loop-free group none of whose levels is pinned yet, the frequency takes effect, and
so do all the other set frequencies of the group.  Missing: groups with loops, and pinned groups beyond
`C37_leaf_partial`. -/
theorem C37_first_partial {w : World} (hr : Reachable w) {σ : Ord'} (hσ : Shuffles σ) {t : Nat} {f : ℚ}
    (ht : InAtom w t) (hf : 0 ≤ f) (hlf : LoopFree (withFreq w t f) (GroupOf w t f))
    (hpos : ∀ n m t' f', SetEdge w n m t' f' → 0 ≤ f')
    (hun : ∀ i, InX w (GroupOf w t f) i → (w.lv i).fixed = false) :
    ∃ w', setFrequency σ t f w = (w', .ok ()) ∧ w'.freqHz t = f ∧
      (∀ n m t' f', GroupOf w t f n → SetEdge w n m t' f' → t' ≠ t → w'.freqHz t' = f') ∧
      w'.eHz (w.tr t).upper - w'.eHz (w.tr t).lower = f :=
  first_wf hr.wf hσ ht hf hlf hpos hun

/-- C37 and C38, second part that holds: all the other set transitions of the group have their set frequencies, all
levels of the group but `x` are pinned, and `x` is an end of `t` without any other set transition, which is either not
pinned yet or is the upper end of the already constrained `t`.  Then the frequency takes effect, all the others keep
their set frequencies, and nothing is reported. -/
theorem C37_leaf_partial {w : World} (hr : Reachable w) {σ : Ord'} (hσ : Shuffles σ) {t : Nat} {f : ℚ}
    (ht : InAtom w t) (hf : 0 ≤ f) {x : Nat} (hx : x = (w.tr t).lower ∨ x = (w.tr t).upper)
    (hlu : (w.tr t).lower ≠ (w.tr t).upper)
    (hleaf : ∀ m t' f', SetEdge w (w.lname x) m t' f' → t' = t)
    (hpin : ∀ i, InX w (GroupOf w t f) i → i ≠ x → (w.lv i).fixed = true)
    (hfree : (w.lv x).fixed = false ∨ (x = (w.tr t).upper ∧ ∃ f0, (w.tr t).setFreq = some f0 ∧ f0 ≠ 0))
    (hmet : ∀ n m t' f', GroupOf w t f n → SetEdge w n m t' f' → t' ≠ t →
      0 ≤ f' ∧ w.eHz (w.tr t').upper - w.eHz (w.tr t').lower = f') :
    ∃ w', setFrequency σ t f w = (w', .ok ()) ∧ w'.freqHz t = f ∧
      (∀ n m t' f', GroupOf w t f n → SetEdge w n m t' f' → t' ≠ t → w'.freqHz t' = f') ∧
      (∀ i, i ≠ x → InX w (GroupOf w t f) i → w'.eHz i = w.eHz i) ∧
      w'.eHz (w.tr t).upper - w'.eHz (w.tr t).lower = f := by
  have hw := hr.wf
  obtain ⟨k1, hb, k3, k4, k5, k6⟩ := hw.edge _ _ _ ht
  -- the ends of t are in the group
  have hends : InX w (GroupOf w t f) (w.tr t).lower ∧ InX w (GroupOf w t f) (w.tr t).upper := by
    have he : SetEdge (withFreq w t f) (w.lname (w.tr t).e1) (w.lname (w.tr t).e2) t f :=
      (withFreq_setEdge ..).2 (.inl ⟨rfl, rfl, ht⟩)
    have hg1 : GroupOf w t f (w.lname (w.tr t).e1) := .refl
    have hg2 : GroupOf w t f (w.lname (w.tr t).e2) := hg1.tail ⟨t, f, he⟩
    rcases k6 with ⟨e1, e2⟩ | ⟨e1, e2⟩
    · rw [e1] at hg1; rw [e2] at hg2
      exact ⟨⟨_, hg1, k3⟩, ⟨_, hg2, k4⟩⟩
    · rw [e1] at hg1; rw [e2] at hg2
      exact ⟨⟨_, hg2, k3⟩, ⟨_, hg1, k4⟩⟩
  -- the target energies
  set φ : Nat → ℚ := fun i => if i = x then
    (if x = (w.tr t).upper then w.eHz (w.tr t).lower + f else w.eHz (w.tr t).upper - f) else w.eHz i with hφd
  have hφt : φ (w.tr t).upper - φ (w.tr t).lower = f := by
    simp only [hφd]
    rcases hx with rfl | rfl
    · rw [if_neg hlu.symm, if_pos rfl, if_neg hlu]; ring
    · rw [if_pos rfl, if_pos rfl, if_neg hlu]; ring
  have hpot : Potential (prep w t f) (GroupOf w t f) φ := by
    intro n m t' f' hn he
    rw [prep_setEdge, withFreq_setEdge] at he
    rw [prep_tr]
    rcases he with ⟨rfl, rfl, _⟩ | ⟨hne, he⟩
    · rw [withFreq_tr_same]
      exact ⟨hf, hφt⟩
    · rw [withFreq_tr_ne w hne]
      obtain ⟨h0, h1⟩ := hmet n m t' f' hn he hne
      refine ⟨h0, ?_⟩
      -- neither end of t' is x
      obtain ⟨_, _, l3, l4, l5, _⟩ := hw.edge _ _ _ he.1
      have hlx : (w.tr t').lower ≠ x := by
        intro e
        apply hne
        rcases l5 with ⟨a, b⟩ | ⟨a, b⟩
        · exact hleaf m t' f' (by rw [← e, ← a]; exact he)
        · exact hleaf n t' f' (by rw [← e, ← b]; exact he.symm hw)
      have hux : (w.tr t').upper ≠ x := by
        intro e
        apply hne
        rcases l5 with ⟨a, b⟩ | ⟨a, b⟩
        · exact hleaf n t' f' (by rw [← e, ← b]; exact he.symm hw)
        · exact hleaf m t' f' (by rw [← e, ← a]; exact he)
      simp only [hφd, if_neg hlx, if_neg hux, h1]
  -- what is pinned when the search starts
  have hpx : ((prep w t f).lv x).fixed = false := by
    rw [prep_fixed]
    rcases hfree with h | ⟨h1, f0, h2, h3⟩
    · rw [h]; simp
    · by_cases hfx : (w.lv x).fixed = false
      · rw [hfx]; simp
      · have hfx' : (w.lv x).fixed = true := by simpa using hfx
        rw [if_pos]
        refine ⟨⟨?_, ?_, ?_⟩, h1⟩
        · rw [h2]; simp [truthy, h3]
        · rw [← h1]; exact hfx'
        · exact hpin _ hends.1 (by rw [h1]; exact hlu)
  have hpo : ∀ i, InX w (GroupOf w t f) i → i ≠ x → ((prep w t f).lv i).fixed = true := by
    intro i hi hix
    rw [prep_fixed, if_neg]
    · exact hpin i hi hix
    · rintro ⟨⟨_, hu, hl⟩, rfl⟩
      rcases hx with e | e
      · rw [← e] at hl
        rcases hfree with h | ⟨h1, _⟩
        · rw [h] at hl; simp at hl
        · exact hlu (e.symm.trans h1)
      · exact hix e.symm
  obtain ⟨w', h1, h2, h3⟩ := setFrequency_ready hw hσ ht (f := f) ⟨φ, hpot, .inr ⟨by
      intro i hi hfi
      rw [prep_inX] at hi
      have hix : i ≠ x := by rintro rfl; rw [hpx] at hfi; simp at hfi
      rw [prep_eHz]
      simp only [hφd, if_neg hix], .inr (by
      intro n m t' f' i j hn hm he hnm hi hj
      rw [prep_g] at hi hj
      by_cases hix : i = x
      · right
        apply hpo j ⟨m, hm, hj⟩
        rintro rfl
        subst hix
        exact hnm (lev_inj hw hi hj)
      · left; exact hpo i ⟨n, hn, hi⟩ hix)⟩⟩
  obtain ⟨g1, g2, g3⟩ := done_met hw h2 ht h3
  refine ⟨w', h1, g1, g2, ?_, g3⟩
  intro i hix hi
  have := h3.kept i ((prep_inX ..).2 hi) (hpo i hi hix)
  rw [this, prep_eHz]

/-- Lambda system g-b, a-b: levels at 0, 1, 10, set frequencies 10 and 9, enforced. -/
def lambdaOps : List Op :=
  threeLevels 0 1 10 ++ [.newTrans 0 2 (some 10) .none none, .newTrans 1 2 (some 9) .none none, .enforce idOrd]

/-- The atom after these calls. -/
def lambdaAtom : World := runAll lambdaOps (emptyAtom 0 0)

/-- C37 fails: in the Lambda system setting a-b from 9 to 5 leaves it at 9. -/
theorem C37_fails : ¬C37_full := by
  intro h
  obtain ⟨w', h1, h2⟩ := h lambdaAtom idOrd 1 5 (demo_reachable (by decide +kernel)) idOrd_shuffles (by decide +kernel)
    (by decide +kernel)
  have hw' : w' = (setFrequency idOrd 1 5 lambdaAtom).1 := by rw [h1]
  rw [hw'] at h2
  revert h2
  decide +kernel

/-- The chain g-a-b with frequencies 1, 1, enforced. -/
def chainDone : World := runAll (chainOps 1 1 ++ [.enforce idOrd]) (emptyAtom 0 0)

/-- C38 fails: in the chain g-a-b at 0, 1, 2 setting g-a from 1 to 2 moves `a` onto `b`, so a-b, set to 1, reads 0. -/
theorem C38_fails : ¬C38_full := by
  intro h
  obtain ⟨w', h1, h2⟩ := h chainDone idOrd 0 2 (demo_reachable (by decide +kernel)) idOrd_shuffles (by decide +kernel)
    (by decide +kernel) (loopFree_of_parent chainPar chainRk (by decide +kernel) _) (by decide +kernel)
    (fun n m t' f' he => forall_setEdge (w := chainDone) (P := fun _ _ t f => chainDone.freqHz t = f)
      (by decide +kernel) he)
  have hw' : w' = (setFrequency idOrd 0 2 chainDone).1 := by rw [h1]
  have := h2 (demoName 'a') (demoName 'b') 1 1 (by rw [hw']; decide +kernel)
  rw [hw'] at this
  revert this
  decide +kernel

/-- A set frequency that reads back as something else without any report: g-a-b at 0, 1, 2, then g-a from 1 to 3. -/
example : (setFrequency idOrd 0 3 chainDone).1.freqHz 0 = 1 ∧
    (setFrequency idOrd 0 3 chainDone).1.warned = chainDone.warned := by decide +kernel

/-- The hypotheses of `C37_first_partial` are met: the fresh chain, setting g-a to 5. -/
example : ∃ w', setFrequency idOrd 0 5 (chain 1 7) = (w', .ok ()) ∧ w'.freqHz 0 = 5 := by
  obtain ⟨w', h1, h2, _⟩ := C37_first_partial (w := chain 1 7) (t := 0) (f := 5) (demo_reachable (by decide +kernel)) idOrd_shuffles
    (by decide +kernel) (by decide +kernel) (loopFree_of_parent chainPar chainRk (by decide +kernel) _)
    (fun n m t f he => forall_setEdge (w := chain 1 7) (P := fun _ _ _ f => 0 ≤ f) (by decide +kernel) he)
    (fun i hi => forall_level (w := chain 1 7) (P := fun i => ((chain 1 7).lv i).fixed = false) (by decide +kernel) hi)
  exact ⟨w', h1, h2⟩

/-- The hypotheses of `C37_leaf_partial` are met: the enforced chain, setting a-b (whose upper end `b` is a leaf)
from 1 to 4. -/
example : ∃ w', setFrequency idOrd 1 4 chainDone = (w', .ok ()) ∧ w'.freqHz 1 = 4 ∧ w'.freqHz 0 = 1 := by
  obtain ⟨w', h1, h2, h3, _⟩ := C37_leaf_partial (w := chainDone) (t := 1) (f := 4) (x := 2)
    (demo_reachable (by decide +kernel)) idOrd_shuffles
    (by decide +kernel) (by decide +kernel) (.inr (by decide +kernel)) (by decide +kernel)
    (fun m t' f' he => forall_setEdge (w := chainDone) (P := fun n _ t' _ => n = chainDone.lname 2 → t' = 1)
      (by decide +kernel) he rfl)
    (fun i hi _ => forall_level (w := chainDone) (P := fun i => (chainDone.lv i).fixed = true) (by decide +kernel) hi)
    (.inr ⟨by decide +kernel, 1, by decide +kernel, by decide +kernel⟩)
    (fun n m t' f' _ he _ => forall_setEdge (w := chainDone) (P := fun _ _ t' f' =>
      0 ≤ f' ∧ chainDone.eHz (chainDone.tr t').upper - chainDone.eHz (chainDone.tr t').lower = f') (by decide +kernel) he)
  refine ⟨w', h1, h2, h3 (demoName 'a') (demoName 'g') 0 1 ?_ (by decide +kernel) (by decide)⟩
  have : demoName 'a' = chainDone.lname (chainDone.tr 1).e1 := by decide +kernel
  rw [this]
  exact .refl

/-- C38, the part that holds: when the transition's upper end is a leaf of the graph of set transitions (and
everything is pinned and met), every set transition has its set frequency again.  Missing: transitions whose upper
level takes part in other set transitions (`C38_fails`). -/
theorem C38_leaf_partial {w : World} (hr : Reachable w) {σ : Ord'} (hσ : Shuffles σ) {t : Nat} {f f0 : ℚ}
    (ht : InAtom w t) (hf : 0 ≤ f) (h0 : (w.tr t).setFreq = some f0) (h00 : f0 ≠ 0)
    (hlu : (w.tr t).lower ≠ (w.tr t).upper)
    (hleaf : ∀ m t' f', SetEdge w (w.lname (w.tr t).upper) m t' f' → t' = t)
    (hpin : ∀ n m t' f' i, SetEdge w n m t' f' → w.g.lev n = some i → (w.lv i).fixed = true)
    (hmet : ∀ n m t' f', SetEdge w n m t' f' → 0 ≤ f' ∧ w.eHz (w.tr t').upper - w.eHz (w.tr t').lower = f') :
    ∃ w', setFrequency σ t f w = (w', .ok ()) ∧ ∀ n m t' f', GroupOf w t f n → SetEdge w' n m t' f' →
      w'.freqHz t' = f' := by
  have hw := hr.wf
  obtain ⟨k1, hb, k3, k4, k5, k6⟩ := hw.edge _ _ _ ht
  have hgrp : ∀ n, GroupOf w t f n → ∃ m t' f', SetEdge w n m t' f' := by
    intro n hn
    cases hn with
    | refl => exact ⟨_, t, f0, ht, h0⟩
    | tail _ hbc =>
      obtain ⟨t', f', he⟩ := hbc
      rw [withFreq_setEdge] at he
      rcases he with ⟨rfl, _, ha⟩ | ⟨_, he⟩
      · exact ⟨_, t', f0, by rw [hw.gok.symm]; exact ha, h0⟩
      · exact ⟨_, t', f', he.symm hw⟩
  obtain ⟨w', h1, h2, h3, _⟩ := C37_leaf_partial hr hσ ht hf (.inr rfl) hlu hleaf
    (fun i ⟨n, hn, hi⟩ _ => by
      obtain ⟨m, t', f', he⟩ := hgrp n hn
      exact hpin n m t' f' i he hi)
    (.inr ⟨rfl, f0, h0, h00⟩) (fun n m t' f' _ he _ => hmet n m t' f' he)
  refine ⟨w', h1, ?_⟩
  obtain ⟨w2, g1, g2, _⟩ := setFrequency_frame' hw hσ hb
    (by
      rcases k6 with ⟨e, _⟩ | ⟨e, _⟩
      · rw [e]; exact (hw.node _ _ k3).2.1
      · rw [e]; exact (hw.node _ _ k4).2.1) (f := f)
  rw [h1] at g1
  simp only [Prod.mk.injEq, and_true] at g1
  subst g1
  intro n m t' f' hn he
  rw [g2.setEdge, prep_setEdge, withFreq_setEdge] at he
  rcases he with ⟨rfl, rfl, _⟩ | ⟨hne, he⟩
  · exact h2
  · exact h3 n m t' f' hn he hne

example : ∃ w', setFrequency idOrd 1 4 chainDone = (w', .ok ()) ∧ ∀ n m t' f', GroupOf chainDone 1 4 n →
    SetEdge w' n m t' f' → w'.freqHz t' = f' :=
  C38_leaf_partial (f0 := 1) (demo_reachable (by decide +kernel)) idOrd_shuffles (by decide +kernel) (by decide +kernel)
    (by decide +kernel) (by decide +kernel) (by decide +kernel)
    (fun m t' f' he => forall_setEdge (w := chainDone)
      (P := fun n _ t' _ => n = chainDone.lname (chainDone.tr 1).upper → t' = 1) (by decide +kernel) he rfl)
    (fun n m t' f' i _ hi => forall_level (w := chainDone) (X := fun _ => True)
      (P := fun i => (chainDone.lv i).fixed = true) (by decide +kernel) ⟨n, trivial, hi⟩)
    (fun n m t' f' he => forall_setEdge (w := chainDone) (P := fun _ _ t' f' =>
      0 ≤ f' ∧ chainDone.eHz (chainDone.tr t').upper - chainDone.eHz (chainDone.tr t').lower = f') (by decide +kernel) he)

/-! ## C39 -/

/-- C39: `set_frequency` returns normally, changes the energy only of levels connected to the transition through
transitions with set frequencies (its own included), and changes no transition except the set frequency of its own. -/
theorem C39_only_group {w : World} (hr : Reachable w) {σ : Ord'} (hσ : Shuffles σ) {t : Nat} (f : ℚ)
    (ht : InAtom w t) :
    ∃ w', setFrequency σ t f w = (w', .ok ()) ∧
      (∀ i, ¬InX w (GroupOf w t f) i → w'.eHz i = w.eHz i) ∧
      (∀ t', t' ≠ t → w'.tr t' = w.tr t') ∧ w'.tr t = { w.tr t with setFreq := some f } ∧ w'.g = w.g := by
  have hw := hr.wf
  obtain ⟨k1, hb, k3, k4, k5, k6⟩ := hw.edge _ _ _ ht
  have ha : (w.lv (w.tr t).e1).inAtom = true := by
    rcases k6 with ⟨e, _⟩ | ⟨e, _⟩
    · rw [e]; exact (hw.node _ _ k3).2.1
    · rw [e]; exact (hw.node _ _ k4).2.1
  obtain ⟨w', h1, h2, h3⟩ := setFrequency_frame' hw hσ hb ha (f := f)
  refine ⟨w', h1, ?_, ?_, ?_, ?_⟩
  · intro i hi
    have := h3 i hi
    unfold eHz
    rw [this]
    exact prep_eHz w t f i
  · intro t' hne
    rw [h2.tr, prep_tr, withFreq_tr_ne w hne]
  · rw [h2.tr, prep_tr, withFreq_tr_same]
  · rw [h2.g, prep_g]

/-- A level outside the group exists and stays: in the atom with only g-a set, `b` does not move. -/
example : let w := runAll (threeLevels 0 1 2 ++ [.newTrans 0 1 none .none none]) (emptyAtom 0 0)
    InAtom w 0 ∧ (setFrequency idOrd 0 7 w).1.eHz 1 = 7 ∧ (setFrequency idOrd 0 7 w).1.eHz 2 = 2 := by decide +kernel

/-! ## C40 -/

/-- The full claim C40. -/
def C40_full : Prop := ∀ (w : World) (σ : Ord') (v : Str), Reachable w → Shuffles σ → ¬Satisfiable w v →
  (enforce σ none w).1.warned ≠ w.warned

/-- Enforcement on levels not pinned before never warns, whatever the frequencies: a contradictory loop goes
unreported. -/
theorem C40_silent_on_fresh {w : World} (hr : Reachable w) {σ : Ord'} (hσ : Shuffles σ) (hun : ∀ v, Unpinned w v) :
    ∃ w', enforce σ none w = (w', .ok ()) ∧ w'.warned = w.warned :=
  enforce_silent hr.wf hσ none (fun v _ _ => .inr (hun v))

/-- C40 fails: the triangle g-a 1, a-b 1, g-b 5 cannot be met, and enforcing does not warn. -/
theorem C40_fails : ¬C40_full := by
  intro h
  refine h (triangle 5) idOrd (demoName 'g') (demo_reachable (by decide +kernel)) idOrd_shuffles ?_ (by decide +kernel)
  rintro ⟨φ, hφ⟩
  have h0 := hφ (demoName 'g') (demoName 'a') 0 1 .refl (by decide +kernel)
  have h2 := hφ (demoName 'g') (demoName 'b') 2 5 .refl (by decide +kernel)
  have h1 := hφ (demoName 'a') (demoName 'b') 1 1
    (Relation.ReflTransGen.refl.tail ⟨0, 1, by decide +kernel⟩) (by decide +kernel)
  have e0 : ((triangle 5).tr 0).e1 = 0 ∧ ((triangle 5).tr 0).e2 = 1 := by decide +kernel
  have e1 : ((triangle 5).tr 1).e1 = 1 ∧ ((triangle 5).tr 1).e2 = 2 := by decide +kernel
  have e2 : ((triangle 5).tr 2).e1 = 0 ∧ ((triangle 5).tr 2).e2 = 2 := by decide +kernel
  rw [e0.1, e0.2] at h0
  rw [e1.1, e1.2] at h1
  rw [e2.1, e2.2] at h2
  have := abs_sub_le (φ 0) (φ 1) (φ 2)
  rw [h0, h1, h2] at this
  norm_num at this

/-- C40, the part that holds (no false alarms): when every group can be met the way round its transitions were built,
and agrees with what is pinned, nothing is reported.  Missing: the warning for contradictory loops, which does not
come (`C40_fails`, `C40_silent_on_fresh`). -/
theorem C40_no_false_alarm_partial {w : World} (hr : Reachable w) {σ : Ord'} (hσ : Shuffles σ) (φ : Nat → ℚ)
    (hφ : Potential w (fun _ => True) φ)
    (hpin : ∀ n m t f i, SetEdge w n m t f → w.g.lev n = some i → (w.lv i).fixed = true ∧ w.eHz i = φ i) :
    ∃ w', enforce σ none w = (w', .ok ()) ∧ w'.warned = w.warned := by
  have hw := hr.wf
  refine enforce_silent hw hσ none (fun v hv _ => .inl ⟨φ, fun n m t f _ he => hφ n m t f trivial he, .inr ⟨?_, .inl ?_⟩⟩)
  all_goals
    rintro i ⟨n, hn, hi⟩ _
    have hed : ∃ m t f, SetEdge w n m t f := by
      cases hn with
      | refl => exact hv
      | tail _ hbc => obtain ⟨t, f, he⟩ := hbc; exact ⟨_, t, f, he.symm hw⟩
    obtain ⟨m, t, f, he⟩ := hed
  · exact (hpin n m t f i he hi).2
  · exact (hpin n m t f i he hi).1

example : ∃ w', enforce idOrd none chainDone = (w', .ok ()) ∧ w'.warned = chainDone.warned :=
  C40_no_false_alarm_partial (demo_reachable (by decide +kernel)) idOrd_shuffles (fun i => (i : ℚ))
    (fun n m t f _ he => forall_setEdge (w := chainDone)
      (P := fun _ _ t f => 0 ≤ f ∧ ((chainDone.tr t).upper : ℚ) - ((chainDone.tr t).lower : ℚ) = f) (by decide +kernel) he)
    (fun n m t f i _ hi => forall_level (w := chainDone) (X := fun _ => True)
      (P := fun i => (chainDone.lv i).fixed = true ∧ chainDone.eHz i = (i : ℚ)) (by decide +kernel) ⟨n, trivial, hi⟩)

example : ∀ v, Unpinned (triangle 5) v := fun _ i hi =>
  forall_level (w := triangle 5) (P := fun i => ((triangle 5).lv i).fixed = false) (by decide +kernel) hi

end AtomTk
