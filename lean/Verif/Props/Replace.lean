import Verif.Props.Groups

/-!
# C165: a frequency given to a transition standing alone

A transition that is the only one in its group with a set frequency gets this frequency when the atom is enforced, unless both its levels are pinned.  The
pins are left over from earlier calls: they stay when the transition they came from is removed or replaced, and only `set_frequency` of a transition that
has a frequency already takes one away.
-/

namespace AtomTk
open Util World

/-- No other transition with a set frequency is connected to the node `n` by such transitions. -/
def Alone (w : World) (n : Str) (t : Nat) : Prop := ∀ a b t' f', SetConn w n a → SetEdge w a b t' f' → t' = t

theorem Alone.conn {w : World} (hw : WF w) {n m : Str} {t : Nat} {f : ℚ} (ha : Alone w n t) (he : SetEdge w n m t f) (x : Str) :
    SetConn w n x ↔ x = n ∨ x = m := by
  constructor
  · intro h
    induction h with
    | refl => exact .inl rfl
    | @tail b c hb hbc _ =>
      obtain ⟨t', f', h⟩ := hbc
      have := ha b c t' f' hb h
      subst this
      rcases setEdge_pair hw h he with ⟨_, k⟩ | ⟨_, k⟩
      · exact .inr k
      · exact .inl k
  · rintro (rfl | rfl)
    · exact .refl
    · exact Relation.ReflTransGen.single ⟨t, f, he⟩

/-- Enforcing the group of a transition standing alone is one step. -/
theorem alone_step {w : World} (hw : WF w) {σ : Ord'} (hσ : Shuffles σ) {n m : Str} {t : Nat} {f : ℚ} (he : SetEdge w n m t f) (hnm : n ≠ m)
    (ha : Alone w n t) : enforce σ (some (n, m)) w = (enfStep w (w.tr t).lower (w.tr t).upper f, .ok ()) := by
  obtain ⟨es, s, is, out, hes, hs, h1, _, hg, hcov, heq⟩ := enforce_search hw hσ (p := (n, m)) he
  simp only at hs hcov
  have hin := hg.inside (SetConn w n) (fun a b hna hb => by
    obtain ⟨t', f', h⟩ := (mem_subNbrs hw hes a b).1 hb
    exact hna.tail ⟨t', f', h⟩) (by intro x hx; simp only [List.mem_singleton] at hx; rw [hx]; exact hs)
  have hs2 := (ha.conn hw he s).1 hs
  rw [heq]
  cases hg with
  | nil =>
    exfalso
    have k1 := hcov n .refl
    have k2 := hcov m ((ha.conn hw he m).2 (.inr rfl))
    simp only [List.map_nil, List.not_mem_nil, or_false] at k1 k2
    exact hnm (k1.trans k2.symm)
  | @cons _ p c out' q1 q2 q3 q4 =>
    simp only [List.mem_singleton] at q1 q2
    subst q1
    have hc := (ha.conn hw he c).1 (hin (p, c) (by simp)).2.1
    have hout : out' = [] := by
      cases q4 with
      | nil => rfl
      | @cons _ p' c' out'' r1 r2 r3 r4 =>
        exfalso
        have hc' := (ha.conn hw he c').1 (hin (p', c') (by simp)).2.1
        simp only [List.mem_cons, List.not_mem_nil, or_false, not_or] at r2
        rcases hs2 with a | a <;> rcases hc with b | b <;> rcases hc' with d | d <;> simp_all
    subst hout
    obtain ⟨t', f', hset⟩ := (mem_subNbrs hw hes p c).1 q3
    have ht := ha p c t' f' hs hset
    subst ht
    have hf : f' = f := by
      have := hset.2.symm.trans he.2
      simpa using this
    subst hf
    unfold enfEdges
    rw [PyM.bind_ok (enfEdge_eq hset)]
    rfl

/-- The levels outside the groups that are enforced are left alone. -/
theorem compsRun_keep {σ : Ord'} (hσ : Shuffles σ) {es : List (Str × Str)} (cs : List (List Str)) {w : World} (hw : WF w) (hes : EsOk w es)
    (hcomp : ∀ c ∈ cs, IsComp w c) {i : Nat} (hi : ∀ c ∈ cs, ¬InX w (· ∈ c) i) : (compsRun σ es cs w).lv i = w.lv i := by
  induction cs generalizing w with
  | nil => rfl
  | cons c cs ih =>
    obtain ⟨w1, h1, h2, h3⟩ := enfComp_frame' hw hes hσ (hcomp c (by simp))
    show (compsRun σ es cs (enfComp σ es c w).1).lv i = _
    rw [h1]
    have := ih (hw.frame h2.frame) (h2.esOk hes) (fun d hd => (h2.isComp d).2 (hcomp d (by simp [hd]))) (fun d hd => by
      rintro ⟨n, hn, hi'⟩
      rw [h2.g] at hi'
      exact hi d (by simp [hd]) ⟨n, hn, hi'⟩)
    rw [this]
    exact h3 i (hi c (by simp))

/-- C163, for one group: what enforcing the whole atom does to the levels of a group is what enforcing this group does. -/
theorem C163_group {w : World} (hr : Reachable w) {σ : Ord'} (hσ : Shuffles σ) {n m : Str} {t : Nat} {f : ℚ} (he : SetEdge w n m t f) {i : Nat}
    (hi : InX w (SetConn w n) i) : (enforce σ none w).1.lv i = (enforce σ (some (n, m)) w).1.lv i := by
  have hw := hr.wf
  obtain ⟨es, k1, hes, cs, hcs, hcomp, hpw, hcov⟩ := set_comps hw hσ
  have hall : enforce σ none w = (compsRun σ es cs w, .ok ()) := by
    unfold enforce
    rw [k1]
    simp only
    rw [← hcs, enfComps_all hσ cs hw hes hcomp]
  obtain ⟨c, hc, hpc⟩ := hcov _ _ _ _ he
  have hconn := (hcomp c hc).eq_conn hw hpc
  rw [hall, enforce_pair_comp hw hσ k1 hes (hcs ▸ hc) (p := (n, m)) he hpc]
  have hperm : cs.Perm (c :: cs.erase c) := List.perm_cons_erase hc
  have hpw' := (hperm.pairwise_iff (fun {c d} (h : ∀ x ∈ c, x ∉ d) x hx hx' => h x hx' hx)).1 hpw
  rw [List.pairwise_cons] at hpw'
  rw [compsRun_perm hσ hperm hw hes hcomp hpw]
  obtain ⟨w1, h1, h2, h3⟩ := enfComp_frame' hw hes hσ (hcomp c hc)
  show (compsRun σ es (cs.erase c) (enfComp σ es c w).1).lv i = _
  rw [h1]
  refine compsRun_keep hσ _ (hw.frame h2.frame) (h2.esOk hes) (fun d hd => (h2.isComp d).2 (hcomp d (List.mem_of_mem_erase hd))) (fun d hd => ?_)
  rintro ⟨x, hx, hxi⟩
  rw [h2.g] at hxi
  obtain ⟨y, hy, hyi⟩ := hi
  have := lev_inj hw hxi hyi
  subst this
  exact hpw'.1 d hd x ((iff_of_eq (congrFun hconn x)).2 hy) hx

/-- The frequency of a transition of the graph is the distance of its two levels. -/
theorem freqHz_ends {w : World} (hw : WF w) {n m : Str} {t : Nat} {f : ℚ} (he : SetEdge w n m t f) :
    w.freqHz t = |w.eHz (w.tr t).lower - w.eHz (w.tr t).upper| := by
  obtain ⟨_, _, _, _, _, k⟩ := hw.edge _ _ _ he.1
  unfold freqHz
  rcases k with ⟨e1, e2⟩ | ⟨e1, e2⟩
  · rw [e1, e2]
  · rw [e1, e2, abs_sub_comm]

theorem ends_ne {w : World} (hw : WF w) {n m : Str} {t : Nat} {f : ℚ} (he : SetEdge w n m t f) (hnm : n ≠ m) : (w.tr t).lower ≠ (w.tr t).upper := by
  obtain ⟨_, _, _, _, k, _⟩ := hw.edge _ _ _ he.1
  intro h
  rw [h] at k
  rcases k with ⟨a, b⟩ | ⟨a, b⟩ <;> exact hnm (a.trans b.symm)

/-! ## C165 -/

/-- The full claim C165: enforcing gives a transition standing alone its frequency. -/
def C165_full : Prop := ∀ w, Reachable w → ∀ σ, Shuffles σ → ∀ n m t f, SetEdge w n m t f → n ≠ m → Alone w n t → 0 ≤ f →
  (enforce σ none w).1.freqHz t = f

/-- The levels of the transition after enforcing the whole atom. -/
theorem alone_after {w : World} (hr : Reachable w) {σ : Ord'} (hσ : Shuffles σ) {n m : Str} {t : Nat} {f : ℚ} (he : SetEdge w n m t f) (hnm : n ≠ m)
    (ha : Alone w n t) :
    (enforce σ none w).1.freqHz t = |(enforce σ none w).1.eHz (w.tr t).lower - (enforce σ none w).1.eHz (w.tr t).upper| ∧
    (enforce σ none w).1.eHz (w.tr t).lower = (enfStep w (w.tr t).lower (w.tr t).upper f).eHz (w.tr t).lower ∧
    (enforce σ none w).1.eHz (w.tr t).upper = (enfStep w (w.tr t).lower (w.tr t).upper f).eHz (w.tr t).upper := by
  have hw := hr.wf
  obtain ⟨hl, hu⟩ := he.inX hw (X := SetConn w n) .refl (.single ⟨t, f, he⟩)
  have k1 := C163_group hr hσ he hl
  have k2 := C163_group hr hσ he hu
  rw [alone_step hw hσ he hnm ha] at k1 k2
  refine ⟨?_, ?_, ?_⟩
  · obtain ⟨_, _, _, _, _, k⟩ := hw.edge _ _ _ he.1
    obtain ⟨g1, g2, _⟩ := (enforce_frame σ none w).tr t
    unfold freqHz
    rw [g1, g2]
    rcases k with ⟨e1, e2⟩ | ⟨e1, e2⟩
    · rw [e1, e2]
    · rw [e1, e2, abs_sub_comm]
  · show ((enforce σ none w).1.lv _).levelHz = _
    rw [k1]; rfl
  · show ((enforce σ none w).1.lv _).levelHz = _
    rw [k2]; rfl

/-- C165, the part that holds: enforcing gives a transition standing alone its frequency exactly if not both its levels are pinned or it has this
frequency already. -/
theorem C165_alone_partial {w : World} (hr : Reachable w) {σ : Ord'} (hσ : Shuffles σ) {n m : Str} {t : Nat} {f : ℚ} (he : SetEdge w n m t f)
    (hnm : n ≠ m) (ha : Alone w n t) (h0 : 0 ≤ f) :
    (enforce σ none w).1.freqHz t = f ↔ ¬((w.lv (w.tr t).lower).fixed = true ∧ (w.lv (w.tr t).upper).fixed = true) ∨ w.freqHz t = f := by
  have hw := hr.wf
  obtain ⟨k, kl, ku⟩ := alone_after hr hσ he hnm ha
  have hne := ends_ne hw he hnm
  rw [k, kl, ku, freqHz_ends hw he, eHz_enfStep, eHz_enfStep]
  by_cases hc : (w.lv (w.tr t).lower).fixed = true ∧ (w.lv (w.tr t).upper).fixed = true ∧ f ≠ |w.eHz (w.tr t).lower - w.eHz (w.tr t).upper|
  · rw [if_pos hc, if_pos hc]
    constructor
    · exact .inr
    · rintro (h | h)
      · exact absurd ⟨hc.1, hc.2.1⟩ h
      · exact h
  · rw [if_neg hc, if_neg hc]
    have hr : ¬((w.lv (w.tr t).lower).fixed = true ∧ (w.lv (w.tr t).upper).fixed = true) ∨ |w.eHz (w.tr t).lower - w.eHz (w.tr t).upper| = f := by
      by_cases h : (w.lv (w.tr t).lower).fixed = true ∧ (w.lv (w.tr t).upper).fixed = true
      · right
        by_contra h'
        exact hc ⟨h.1, h.2, fun e => h' e.symm⟩
      · exact .inl h
    simp only [hr, iff_true]
    by_cases hu : (w.lv (w.tr t).upper).fixed = true
    · rw [if_pos hu, if_pos hu, if_pos trivial, if_neg (Ne.symm hne), abs_sub_comm]
      rw [show w.eHz (w.tr t).upper - (w.eHz (w.tr t).upper - f) = f by ring]
      exact abs_of_nonneg h0
    · rw [if_neg hu, if_neg hu, if_neg hne, if_pos trivial, abs_sub_comm]
      rw [show w.eHz (w.tr t).lower + f - w.eHz (w.tr t).lower = f by ring]
      exact abs_of_nonneg h0

/-- C165: which level moves.  If the upper one is not pinned it goes to the distance `f` above the lower one, which stays; if only the upper one is pinned,
the lower one goes to the distance `f` below it. -/
theorem C165_moves {w : World} (hr : Reachable w) {σ : Ord'} (hσ : Shuffles σ) {n m : Str} {t : Nat} {f : ℚ} (he : SetEdge w n m t f)
    (hnm : n ≠ m) (ha : Alone w n t) :
    ((w.lv (w.tr t).upper).fixed = false → (enforce σ none w).1.eHz (w.tr t).lower = w.eHz (w.tr t).lower ∧
      (enforce σ none w).1.eHz (w.tr t).upper = w.eHz (w.tr t).lower + f) ∧
    ((w.lv (w.tr t).upper).fixed = true → (w.lv (w.tr t).lower).fixed = false →
      (enforce σ none w).1.eHz (w.tr t).upper = w.eHz (w.tr t).upper ∧ (enforce σ none w).1.eHz (w.tr t).lower = w.eHz (w.tr t).upper - f) := by
  have hw := hr.wf
  obtain ⟨_, kl, ku⟩ := alone_after hr hσ he hnm ha
  have hne := ends_ne hw he hnm
  rw [kl, ku, eHz_enfStep, eHz_enfStep]
  constructor
  · intro h
    simp [h, hne]
  · intro h h'
    simp [h, h', Ne.symm hne]

/-- C165, both levels pinned and another frequency: no level moves and there is one warning more. -/
theorem C165_pinned {w : World} (hr : Reachable w) {σ : Ord'} (hσ : Shuffles σ) {n m : Str} {t : Nat} {f : ℚ} (he : SetEdge w n m t f)
    (hnm : n ≠ m) (ha : Alone w n t) (hl : (w.lv (w.tr t).lower).fixed = true) (hu : (w.lv (w.tr t).upper).fixed = true) (hf : w.freqHz t ≠ f) :
    ((enforce σ none w).1.eHz (w.tr t).lower = w.eHz (w.tr t).lower ∧ (enforce σ none w).1.eHz (w.tr t).upper = w.eHz (w.tr t).upper) ∧
    (∀ i, (enforce σ (some (n, m)) w).1.eHz i = w.eHz i) ∧ (enforce σ (some (n, m)) w).1.warned = w.warned + 1 := by
  have hw := hr.wf
  obtain ⟨_, kl, ku⟩ := alone_after hr hσ he hnm ha
  rw [freqHz_ends hw he] at hf
  rw [kl, ku, alone_step hw hσ he hnm ha]
  refine ⟨⟨enfStep_warn w hl hu (Ne.symm hf) _, enfStep_warn w hl hu (Ne.symm hf) _⟩, fun i => enfStep_warn w hl hu (Ne.symm hf) i, ?_⟩
  unfold enfStep
  rw [if_pos ⟨hl, hu, Ne.symm hf⟩]
  rfl

/-- C165: removing a transition leaves the energies and the pins of all levels. -/
theorem C165_removed (a b : Str) (w : World) : (transDelCall a b w).1.lv = w.lv := by
  unfold transDelCall
  split <;> rfl

/-- C165: `set_frequency` on a transition standing alone that has a frequency takes effect, without a warning, whatever is pinned. -/
theorem C165_again {w : World} (hr : Reachable w) {σ : Ord'} (hσ : Shuffles σ) {n m : Str} {t : Nat} {f g : ℚ} (he : SetEdge w n m t f)
    (hf : f ≠ 0) (hnm : n ≠ m) (ha : Alone w n t) (h0 : 0 ≤ g) :
    (setFrequency σ t g w).2 = .ok () ∧ (setFrequency σ t g w).1.freqHz t = g ∧ (setFrequency σ t g w).1.warned = w.warned := by
  have hw := hr.wf
  obtain ⟨_, hb, hlo, hup, hnm', hee⟩ := hw.edge _ _ _ he.1
  have hat : (w.lv (w.tr t).e1).inAtom = true := by
    rcases hee with ⟨e1, _⟩ | ⟨e1, _⟩ <;> rw [e1]
    · exact (hw.node _ _ hlo).2.1
    · exact (hw.node _ _ hup).2.1
  have hed : ∀ a b t' f', SetEdge (prep w t g) a b t' f' → ∃ f'', SetEdge w a b t' f'' := by
    intro a b t' f' h
    rw [prep_setEdge, withFreq_setEdge] at h
    rcases h with ⟨rfl, _, h⟩ | ⟨_, h⟩
    · exact ⟨f, h, he.2⟩
    · exact ⟨f', h⟩
  have hcn : ∀ a b, SetConn (prep w t g) a b → SetConn w a b := by
    intro a b h
    induction h with
    | refl => exact .refl
    | tail _ hbc ih =>
      obtain ⟨t', f', h⟩ := hbc
      obtain ⟨f'', h⟩ := hed _ _ _ _ h
      exact ih.tail ⟨t', f'', h⟩
  have hset : SetEdge (prep w t g) (w.lname (w.tr t).e1) (w.lname (w.tr t).e2) t g := by
    rw [prep_setEdge, withFreq_setEdge]
    refine .inl ⟨rfl, rfl, ?_⟩
    rcases hnm' with ⟨a, b⟩ | ⟨a, b⟩ <;> rcases hee with ⟨c, d⟩ | ⟨c, d⟩ <;> rw [c, d, ← a, ← b]
    · exact he.1
    · exact (he.symm hw).1
    · exact (he.symm hw).1
    · exact he.1
  have hall : Alone (prep w t g) (w.lname (w.tr t).e1) t := by
    intro a b t' f' hc h
    obtain ⟨f'', h⟩ := hed _ _ _ _ h
    refine ha a b t' f'' ?_ h
    have h1 : SetConn w n (w.lname (w.tr t).e1) := by
      rcases hnm' with ⟨a, b⟩ | ⟨a, b⟩ <;> rcases hee with ⟨c, d⟩ | ⟨c, d⟩ <;> rw [c]
      · rw [← a]
      · rw [← b]; exact .single ⟨t, f, he⟩
      · rw [← b]; exact .single ⟨t, f, he⟩
      · rw [← a]
    exact h1.trans (hcn _ _ hc)
  have hne : w.lname (w.tr t).e1 ≠ w.lname (w.tr t).e2 := by
    rcases hnm' with ⟨a, b⟩ | ⟨a, b⟩ <;> rcases hee with ⟨c, d⟩ | ⟨c, d⟩ <;> rw [c, d, ← a, ← b]
    · exact hnm
    · exact hnm.symm
    · exact hnm.symm
    · exact hnm
  have hlu := ends_ne hw he hnm
  have htr : (prep w t g).tr t = { w.tr t with setFreq := some g } := by rw [prep_tr, withFreq_tr_same]
  have hrel : ¬(((prep w t g).lv (w.tr t).lower).fixed = true ∧ ((prep w t g).lv (w.tr t).upper).fixed = true) := by
    rw [prep_fixed, prep_fixed]
    rintro ⟨h1, h2⟩
    by_cases hrl : releases w t
    · rw [if_pos ⟨hrl, rfl⟩] at h2
      exact Bool.noConfusion h2
    · rw [if_neg (fun h => hrl h.1)] at h1 h2
      exact hrl ⟨by rw [he.2]; simp [truthy, hf], h2, h1⟩
  rw [setFrequency_eq hb hat, alone_step (hw.frame (prep_frame w t g)) hσ hset hne hall, htr]
  refine ⟨rfl, ?_, ?_⟩
  · show World.freqHz _ t = g
    unfold freqHz
    have hfr := enfStep_eframe (prep w t g) (w.tr t).lower (w.tr t).upper g
    rw [hfr.tr, htr]
    have hd : |(enfStep (prep w t g) (w.tr t).lower (w.tr t).upper g).eHz (w.tr t).lower -
        (enfStep (prep w t g) (w.tr t).lower (w.tr t).upper g).eHz (w.tr t).upper| = g := by
      have hnc : ¬(((prep w t g).lv (w.tr t).lower).fixed = true ∧ ((prep w t g).lv (w.tr t).upper).fixed = true ∧
          g ≠ |(prep w t g).eHz (w.tr t).lower - (prep w t g).eHz (w.tr t).upper|) := fun h => hrel ⟨h.1, h.2.1⟩
      rw [eHz_enfStep, eHz_enfStep, if_neg hnc, if_neg hnc]
      by_cases hu : ((prep w t g).lv (w.tr t).upper).fixed = true
      · rw [if_pos hu, if_pos hu, if_pos rfl, if_neg (Ne.symm hlu), abs_sub_comm]
        rw [show (prep w t g).eHz (w.tr t).upper - ((prep w t g).eHz (w.tr t).upper - g) = g by ring]
        exact abs_of_nonneg h0
      · rw [if_neg hu, if_neg hu, if_neg hlu, if_pos rfl, abs_sub_comm]
        rw [show (prep w t g).eHz (w.tr t).lower + g - (prep w t g).eHz (w.tr t).lower = g by ring]
        exact abs_of_nonneg h0
    rcases hee with ⟨c, d⟩ | ⟨c, d⟩ <;> simp only [c, d]
    · exact hd
    · rw [abs_sub_comm]; exact hd
  · show (enfStep _ _ _ _).warned = _
    unfold enfStep
    rw [if_neg (fun h => hrel ⟨h.1, h.2.1⟩), ← prep_warned w t g]
    split <;> rfl

/-- Three levels, the first two with a transition of frequency 1, enforced; then another transition between them, of frequency 3, in its place. -/
def replaced : World :=
  runAll (threeLevels 0 1 2 ++ [.newTrans 0 1 (some 1) .none none, .enforce idOrd, .newTrans 0 1 (some 3) .none none]) (emptyAtom 0 0)

theorem replaced_alone : Alone replaced (ends replaced 1).1 1 := by
  intro a b t f _ he
  exact forall_setEdge (P := fun _ _ t _ => t = 1) (by decide +kernel) he

/-- C165 fails: the pins of the transition that was replaced keep the new one from taking effect. -/
theorem C165_fails : ¬C165_full := by
  intro h
  have := h replaced (demo_reachable (by decide +kernel)) idOrd idOrd_shuffles (ends replaced 1).1 (ends replaced 1).2 1 3 (by decide +kernel)
    (by decide +kernel) replaced_alone (by norm_num)
  revert this
  decide +kernel

/-- The same after removing the old transition. -/
example : (enforce idOrd none (runAll [.newTrans 0 1 (some 3) .none none]
      (transDelCall (demoName 'g') (demoName 'a') (runAll (threeLevels 0 1 2 ++ [.newTrans 0 1 (some 1) .none none, .enforce idOrd]) (emptyAtom 0 0))).1)).1.freqHz 1 = 1 := by
  decide +kernel

/-- In `replaced` both levels are pinned, and the frequency is not the one there is. -/
example : SetEdge replaced (ends replaced 1).1 (ends replaced 1).2 1 3 ∧ (replaced.lv (replaced.tr 1).lower).fixed = true ∧
    (replaced.lv (replaced.tr 1).upper).fixed = true ∧ replaced.freqHz 1 ≠ 3 := by decide +kernel

/-- Setting the frequency once more puts the upper level where it belongs. -/
example : (setFrequency idOrd 1 3 replaced).1.freqHz 1 = 3 ∧ (setFrequency idOrd 1 3 replaced).1.eHz 0 = 0 ∧
    (setFrequency idOrd 1 3 replaced).1.eHz 1 = 3 := by decide +kernel

/-- In a fresh atom no level is pinned. -/
example : Alone twoPairs (ends twoPairs 1).1 1 := by
  intro a b t f hc he
  by_contra h
  have h0 : t = 0 := by
    have := forall_setEdge (P := fun _ _ t _ => t = 0 ∨ t = 1) (by decide +kernel) he
    tauto
  subst h0
  have hab : a = (ends twoPairs 0).1 ∨ a = (ends twoPairs 0).2 :=
    forall_setEdge (w := twoPairs) (P := fun n _ t _ => t = 0 → n = (ends twoPairs 0).1 ∨ n = (ends twoPairs 0).2) (by decide +kernel) he rfl
  have hw := (demo_reachable (ops := _) (by decide +kernel) : Reachable twoPairs).wf
  have h1 : SetConn twoPairs (ends twoPairs 0).1 a := by
    rcases hab with rfl | rfl
    · exact .refl
    · exact .single ⟨0, 1, by decide +kernel⟩
  exact twoPairs_separate (h1.trans (hc.symm hw))

end AtomTk
