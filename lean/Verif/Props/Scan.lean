import Verif.Props.Present

/-!
# C156: scanning a transition's frequency and setting it back
-/

namespace AtomTk
open Util World

/-- A transition ready to be scanned: its set frequency is not zero, its upper level has no other set transition, the other levels with set
transitions are pinned, and the other set frequencies are met. -/
structure Scannable (w : World) (t : Nat) : Prop where
  inAtom : InAtom w t
  isSet : ∃ f0, (w.tr t).setFreq = some f0 ∧ f0 ≠ 0
  ends : (w.tr t).lower ≠ (w.tr t).upper
  leaf : ∀ m t' f', SetEdge w (w.lname (w.tr t).upper) m t' f' → t' = t
  pinned : ∀ n m t' f' i, SetEdge w n m t' f' → w.g.lev n = some i → i ≠ (w.tr t).upper → (w.lv i).fixed = true
  met : ∀ n m t' f', SetEdge w n m t' f' → t' ≠ t → 0 ≤ f' ∧ w.eHz (w.tr t').upper - w.eHz (w.tr t').lower = f'

/-- Setting one frequency after another, the enforcement walking its graph in any order each time. -/
def scanOps (t : Nat) (l : List (Ord' × ℚ)) : List Op := l.map fun p => .setFrequency p.1 t p.2

theorem scan_step {w : World} (hr : Reachable w) {σ : Ord'} (hσ : Shuffles σ) {t : Nat} {f : ℚ} (hs : Scannable w t) (hf : 0 < f) :
    ∃ w', setFrequency σ t f w = (w', .ok ()) ∧ Scannable w' t ∧ (∀ i, i ≠ (w.tr t).upper → w'.eHz i = w.eHz i) ∧
      w'.eHz (w.tr t).upper - w'.eHz (w.tr t).lower = f ∧ w'.tr t = { w.tr t with setFreq := some f } ∧
      ∀ t', t' ≠ t → w'.tr t' = w.tr t' := by
  have hw := hr.wf
  obtain ⟨ht, ⟨f0, h0, h00⟩, hlu, hleaf, hpin, hmet⟩ := hs
  obtain ⟨k1, hb, k3, k4, k5, k6⟩ := hw.edge _ _ _ ht
  have ha : (w.lv (w.tr t).e1).inAtom = true := by
    rcases k6 with ⟨e, _⟩ | ⟨e, _⟩
    · rw [e]; exact (hw.node _ _ k3).2.1
    · rw [e]; exact (hw.node _ _ k4).2.1
  have hgrp : ∀ n, GroupOf w t f n → ∃ m t' f', SetEdge w n m t' f' := by
    intro n hn
    cases hn with
    | refl => exact ⟨_, t, f0, ht, h0⟩
    | tail _ hbc =>
      obtain ⟨t', f', he⟩ := hbc
      rw [withFreq_setEdge] at he
      rcases he with ⟨rfl, _, ha⟩ | ⟨_, he⟩
      · exact ⟨_, t', f0, by rw [hw.gok.symm]; exact ha, h0⟩
      · exact ⟨_, t', f', he.symm hw⟩
  obtain ⟨w', h1, -, -, h4, h5⟩ := C37_leaf_partial hr hσ ht hf.le (.inr rfl) hlu hleaf
    (fun i ⟨n, hn, hi⟩ hne => by
      obtain ⟨m, t', f', he⟩ := hgrp n hn
      exact hpin n m t' f' i he hi hne)
    (.inr ⟨rfl, f0, h0, h00⟩) (fun n m t' f' _ he hne => hmet n m t' f' he hne)
  obtain ⟨w2, g1, g2, g3, g4, g5⟩ := C39_only_group hr hσ f ht
  rw [h1] at g1
  simp only [Prod.mk.injEq, and_true] at g1
  subst g1
  have hE : ∀ i, i ≠ (w.tr t).upper → w'.eHz i = w.eHz i := by
    intro i hi
    by_cases hx : InX w (GroupOf w t f) i
    · exact h4 i hi hx
    · exact g2 i hx
  obtain ⟨w2, g6, g7, _⟩ := setFrequency_frame' hw hσ hb ha (f := f)
  rw [h1] at g6
  simp only [Prod.mk.injEq, and_true] at g6
  subst g6
  have hname : ∀ i, w'.lname i = w.lname i := by
    intro i
    have e1 := g7.frame.term i
    have e2 := (prep_frame w t f).term i
    unfold lname
    rw [e1, e2]
  have hedge : ∀ {n m t' f'}, SetEdge w' n m t' f' → t' ≠ t → SetEdge w n m t' f' := by
    intro n m t' f' he hne
    refine ⟨by rw [← g5]; exact he.1, by rw [← g3 t' hne]; exact he.2⟩
  -- the ends of the other set transitions
  have hends : ∀ {n m t' f'}, SetEdge w n m t' f' → t' ≠ t → (w.tr t').upper ≠ (w.tr t).upper ∧ (w.tr t').lower ≠ (w.tr t).upper := by
    intro n m t' f' he hne
    obtain ⟨_, _, _, _, k, _⟩ := hw.edge _ _ _ he.1
    have hs := he.symm hw
    constructor
    · intro e
      rcases k with ⟨_, e2⟩ | ⟨e2, _⟩
      · rw [e2, e] at hs; exact hne (hleaf _ _ _ hs)
      · rw [e2, e] at he; exact hne (hleaf _ _ _ he)
    · intro e
      rcases k with ⟨e2, _⟩ | ⟨_, e2⟩
      · rw [e2, e] at he; exact hne (hleaf _ _ _ he)
      · rw [e2, e] at hs; exact hne (hleaf _ _ _ hs)
  have hfix : ∀ i, i ≠ (w.tr t).upper → (w.lv i).fixed = true → (w'.lv i).fixed = true := by
    intro i hi hfx
    have h := h1
    rw [setFrequency_eq hb ha] at h
    have := C99_stays_pinned (prep w t f) σ (some (w.lname (w.tr t).e1, w.lname (w.tr t).e2)) i
      (by rw [prep_fixed, if_neg (fun h => hi h.2)]; exact hfx)
    rw [h] at this
    exact this
  refine ⟨w', h1, ⟨?_, ⟨f, by rw [g4], hf.ne'⟩, by rw [g4]; exact hlu, ?_, ?_, ?_⟩, hE, h5, g4, g3⟩
  · unfold InAtom
    rw [hname, hname, g5, g4]
    exact ht
  · intro m t' f' he
    rw [hname, g4] at he
    by_contra hne
    exact hne (hleaf _ _ _ (hedge he hne))
  · intro n m t' f' i he hi hne
    rw [g4] at hne
    rw [g5] at hi
    by_cases htt : t' = t
    · subst htt
      refine hfix i hne (hpin n m t' f0 i ⟨by rw [← g5]; exact he.1, h0⟩ hi hne)
    · exact hfix i hne (hpin n m t' f' i (hedge he htt) hi hne)
  · intro n m t' f' he hne
    have he' := hedge he hne
    obtain ⟨e1, e2⟩ := hends he' hne
    rw [g3 t' hne, hE _ e1, hE _ e2]
    exact hmet n m t' f' he' hne

/-- C156, the part that holds: however many positive frequencies are set one after another, in the end only the last one counts: the transition
has it, and every level but the transition's upper one is where it was.  Missing: transitions whose upper level has further set transitions, and
the frequency zero. -/
theorem C156_scan_partial {w : World} (hr : Reachable w) {t : Nat} (hs : Scannable w t) (l : List (Ord' × ℚ)) {σ : Ord'} {f : ℚ}
    (hl : ∀ p ∈ l, Shuffles p.1 ∧ 0 < p.2) (hσ : Shuffles σ) (hf : 0 < f) :
    let w' := runAll (scanOps t (l ++ [(σ, f)])) w
    (∀ i, i ≠ (w.tr t).upper → w'.eHz i = w.eHz i) ∧ w'.eHz (w.tr t).upper - w'.eHz (w.tr t).lower = f ∧
      w'.tr t = { w.tr t with setFreq := some f } ∧ ∀ t', t' ≠ t → w'.tr t' = w.tr t' := by
  induction l generalizing w with
  | nil =>
    obtain ⟨w', h1, h2, h3, h4, h5, h6⟩ := scan_step hr hσ hs hf
    have : runAll (scanOps t ([] ++ [(σ, f)])) w = w' := by
      show (setFrequency σ t f w).1 = w'
      rw [h1]
    intro w''
    rw [show w'' = w' from this]
    exact ⟨h3, h4, h5, h6⟩
  | cons p l ih =>
    obtain ⟨p1, p2⟩ := hl p List.mem_cons_self
    obtain ⟨w', h1, h2, h3, h4, h5, h6⟩ := scan_step hr p1 hs p2
    have e : (Op.run (.setFrequency p.1 t p.2) w).1 = w' := by
      show (setFrequency p.1 t p.2 w).1 = w'
      rw [h1]
    have hr' : Reachable w' := e ▸ Reachable.step (.setFrequency p.1 t p.2) hr trivial
    have := ih hr' h2 (fun q hq => hl q (List.mem_cons_of_mem _ hq))
    intro w''
    have e2 : w'' = runAll (scanOps t (l ++ [(σ, f)])) w' := by
      show runAll (scanOps t (l ++ [(σ, f)])) (Op.run (.setFrequency p.1 t p.2) w).1 = _
      rw [e]
    rw [e2]
    obtain ⟨q1, q2, q3, q4⟩ := this
    rw [h5] at q1 q2 q3
    exact ⟨fun i hi => (q1 i hi).trans (h3 i hi), q2, q3, fun t' hne => (q4 t' hne).trans (h6 t' hne)⟩

/-- C156: setting the frequency back after a scan restores every energy. -/
theorem C156_undo_partial {w : World} (hr : Reachable w) {t : Nat} (hs : Scannable w t) (l : List (Ord' × ℚ)) {σ : Ord'} {f0 : ℚ}
    (hl : ∀ p ∈ l, Shuffles p.1 ∧ 0 < p.2) (hσ : Shuffles σ) (hf : 0 < f0) (h0 : (w.tr t).setFreq = some f0)
    (hm : w.eHz (w.tr t).upper - w.eHz (w.tr t).lower = f0) :
    let w' := runAll (scanOps t (l ++ [(σ, f0)])) w
    (∀ i, w'.eHz i = w.eHz i) ∧ ∀ t', w'.tr t' = w.tr t' := by
  obtain ⟨h1, h2, h3, h4⟩ := C156_scan_partial hr hs l hl hσ hf
  refine ⟨fun i => ?_, fun t' => ?_⟩
  · by_cases hi : i = (w.tr t).upper
    · have := h1 _ hs.ends
      rw [hi]
      linarith
    · exact h1 i hi
  · by_cases ht : t' = t
    · rw [ht, h3, ← h0]
    · exact h4 t' ht

/-- The full claim C156: setting a transition that has its set frequency to another one and back restores every energy. -/
def C156_full : Prop := ∀ (w : World) (σ : Ord') (t : Nat) (f f0 : ℚ), Reachable w → Shuffles σ → InAtom w t → 0 ≤ f →
  (w.tr t).setFreq = some f0 → (∀ n m t' f', SetEdge w n m t' f' → w.freqHz t' = f') →
  ∀ i, (setFrequency σ t f0 (setFrequency σ t f w).1).1.eHz i = w.eHz i

/-- C156 fails: in the chain g-a-b at 0, 1, 2 the transition a-b is set to zero and back to 1; b stays at 1. -/
theorem C156_fails : ¬C156_full := by
  intro h
  have := h chainDone idOrd 1 0 1 (demo_reachable (by decide +kernel)) idOrd_shuffles (by decide +kernel) le_rfl (by decide +kernel)
    (fun n m t f he => forall_setEdge (w := chainDone) (P := fun _ _ t f => chainDone.freqHz t = f) (by decide +kernel) he) 2
  revert this
  decide +kernel

theorem chain_scannable : Scannable chainDone 1 where
  inAtom := by decide +kernel
  isSet := ⟨1, by decide +kernel, by decide +kernel⟩
  ends := by decide +kernel
  leaf := fun m t' f' he => forall_setEdge (w := chainDone)
      (P := fun n _ t' _ => n = chainDone.lname (chainDone.tr 1).upper → t' = 1) (by decide +kernel) he rfl
  pinned := fun n m t' f' i _ hi _ => forall_level (w := chainDone) (X := fun _ => True)
      (P := fun i => (chainDone.lv i).fixed = true) (by decide +kernel) ⟨n, trivial, hi⟩
  met := fun n m t' f' he _ => forall_setEdge (w := chainDone) (P := fun _ _ t' f' =>
      0 ≤ f' ∧ chainDone.eHz (chainDone.tr t').upper - chainDone.eHz (chainDone.tr t').lower = f') (by decide +kernel) he

/-- A scan over 3, 5 and 7 and back to 1 restores the chain. -/
example : ∀ i, (runAll (scanOps 1 ([(idOrd, 3), (idOrd, 5), (idOrd, 7)] ++ [(idOrd, 1)])) chainDone).eHz i = chainDone.eHz i :=
  (C156_undo_partial (demo_reachable (by decide +kernel)) chain_scannable _ (by
      intro p hp
      simp only [List.mem_cons, List.not_mem_nil, or_false] at hp
      rcases hp with rfl | rfl | rfl <;> exact ⟨idOrd_shuffles, by norm_num⟩) idOrd_shuffles (by norm_num) (by decide +kernel) (by decide +kernel)).1

example : (setFrequency idOrd 1 5 chainDone).1.eHz 2 = 6 ∧ (setFrequency idOrd 1 1 (setFrequency idOrd 1 0 chainDone).1).1.eHz 2 = 1 := by
  decide +kernel

end AtomTk
