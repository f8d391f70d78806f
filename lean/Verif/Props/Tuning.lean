import Verif.Props.Pinned

/-!
# Frequencies set one after another: C150
-/

namespace AtomTk
open Util World

/-- The frequencies set so far are met, and the levels between which they are set are pinned, no others. -/
structure InTune (w : World) : Prop where
  met : ∀ n m t f, SetEdge w n m t f → 0 ≤ f ∧ w.eHz (w.tr t).upper - w.eHz (w.tr t).lower = f
  pins : ∀ n i, w.g.lev n = some i → ((w.lv i).fixed = true ↔ ∃ m t f, SetEdge w n m t f)

/-- No transition of the level has a set frequency. -/
def Loose (w : World) (i : Nat) : Prop := ∀ m t f, ¬SetEdge w (w.lname i) m t f

/-- Transitions of the atom whose frequencies are set in this order, none of them set before, each with at least one level that no frequency
set before is about. -/
def Grows : List (Nat × ℚ) → World → Prop
  | [], _ => True
  | (t, f) :: l, w => InAtom w t ∧ (w.tr t).setFreq = none ∧ (w.tr t).lower ≠ (w.tr t).upper ∧ 0 ≤ f ∧
      (Loose w (w.tr t).lower ∨ Loose w (w.tr t).upper) ∧ Grows l (withFreq w t f)

/-- `for t, f in l: t.set_frequency(f)`, each call with its own order of the sets of networkx. -/
def tune : List (Nat × ℚ) → List Ord' → PyM Unit
  | (t, f) :: l, σ :: σs => do
    setFrequency σ t f
    tune l σs
  | _, _ => pure ()

theorem withFreq_settled {w : World} {t : Nat} {f : ℚ} (h0 : (w.tr t).setFreq = none) : prep w t f = withFreq w t f := by
  unfold prep
  rw [if_neg]
  rintro ⟨h, -⟩
  rw [h0] at h
  simp [truthy] at h

theorem withFreq_setEdge' {w : World} {t : Nat} {f : ℚ} (h0 : (w.tr t).setFreq = none) (u v : Str) (t' : Nat) (f' : ℚ) :
    SetEdge (withFreq w t f) u v t' f' ↔ (t' = t ∧ f' = f ∧ w.g.adj u v = some t) ∨ SetEdge w u v t' f' := by
  rw [withFreq_setEdge]
  constructor
  · rintro (h | ⟨-, h⟩)
    · exact .inl h
    · exact .inr h
  · rintro (h | h)
    · exact .inl h
    · refine .inr ⟨?_, h⟩
      rintro rfl
      rw [h.2] at h0
      cases h0

/-- One frequency set in a settled atom. -/
theorem tune_step {w : World} (hw : WF w) (hs : InTune w) {σ : Ord'} (hσ : Shuffles σ) {t : Nat} {f : ℚ} (ht : InAtom w t)
    (h0 : (w.tr t).setFreq = none) (hlu : (w.tr t).lower ≠ (w.tr t).upper) (hf : 0 ≤ f)
    (hx : Loose w (w.tr t).lower ∨ Loose w (w.tr t).upper) :
    ∃ w', setFrequency σ t f w = (w', .ok ()) ∧ InTune w' ∧ EFrame (withFreq w t f) w' ∧ w'.warned = w.warned ∧
      (∀ n i, w.g.lev n = some i → (w.lv i).fixed = true → w'.eHz i = w.eHz i) ∧
      ∀ n i, w.g.lev n = some i → i ≠ (w.tr t).lower → i ≠ (w.tr t).upper → w'.eHz i = w.eHz i := by
  obtain ⟨k1, hb, k3, k4, k5, k6⟩ := hw.edge _ _ _ ht
  have ha : (w.lv (w.tr t).e1).inAtom = true := by
    rcases k6 with ⟨e, _⟩ | ⟨e, _⟩
    · rw [e]; exact (hw.node _ _ k3).2.1
    · rw [e]; exact (hw.node _ _ k4).2.1
  have hwp : WF (withFreq w t f) := hw.frame (setTr_frame w t _ ⟨rfl, rfl, rfl, rfl, rfl⟩)
  have hSE := withFreq_setEdge' (f := f) h0
  -- the edge of `t`
  have hmem : ∀ n m, w.g.adj n m = some t → (n = w.lname (w.tr t).lower ∧ m = w.lname (w.tr t).upper) ∨
      (n = w.lname (w.tr t).upper ∧ m = w.lname (w.tr t).lower) := fun n m h => (hw.edge _ _ _ h).2.2.2.2.1
  have hadj : w.g.adj (w.lname (w.tr t).lower) (w.lname (w.tr t).upper) = some t := by
    rcases k6 with ⟨e1, e2⟩ | ⟨e1, e2⟩
    · rw [← e1, ← e2]; exact ht
    · rw [← e1, ← e2, hw.gok.symm]; exact ht
  -- levels of the group
  have hgrp : ∀ n, GroupOf w t f n → (∃ m t' f', SetEdge (withFreq w t f) n m t' f') := by
    intro n hn
    cases hn with
    | refl => exact ⟨_, t, f, (hSE ..).2 (.inl ⟨rfl, rfl, ht⟩)⟩
    | tail _ h =>
      obtain ⟨t', f', h⟩ := h
      exact ⟨_, t', f', h.symm hwp⟩
  have hends : GroupOf w t f (w.lname (w.tr t).lower) ∧ GroupOf w t f (w.lname (w.tr t).upper) := by
    have he : SetEdge (withFreq w t f) (w.lname (w.tr t).e1) (w.lname (w.tr t).e2) t f := (hSE ..).2 (.inl ⟨rfl, rfl, ht⟩)
    have g1 : GroupOf w t f (w.lname (w.tr t).e1) := .refl
    have g2 : GroupOf w t f (w.lname (w.tr t).e2) := g1.tail ⟨t, f, he⟩
    rcases k6 with ⟨e1, e2⟩ | ⟨e1, e2⟩
    · rw [e1] at g1; rw [e2] at g2; exact ⟨g1, g2⟩
    · rw [e1] at g1; rw [e2] at g2; exact ⟨g2, g1⟩
  have fixOf : ∀ n m t' f' i, SetEdge w n m t' f' → w.g.lev n = some i → (w.lv i).fixed = true :=
    fun n m t' f' i he hi => (hs.pins n i hi).2 ⟨m, t', f', he⟩
  have looseOf : ∀ i, w.g.lev (w.lname i) = some i → ((w.lv i).fixed = false ↔ Loose w i) := by
    intro i hi
    have := hs.pins _ i hi
    constructor
    · intro hfx m t' f' he
      rw [this.2 ⟨m, t', f', he⟩] at hfx
      cases hfx
    · intro hl
      by_contra hc
      obtain ⟨m, t', f', he⟩ := this.1 (by simpa using hc)
      exact hl m t' f' he
  -- the level that is free to move, and the other one
  obtain ⟨x, y, hxy, hxl⟩ : ∃ x y, ((x = (w.tr t).lower ∧ y = (w.tr t).upper) ∨ (x = (w.tr t).upper ∧ y = (w.tr t).lower)) ∧ Loose w x := by
    rcases hx with h | h
    · exact ⟨_, _, .inl ⟨rfl, rfl⟩, h⟩
    · exact ⟨_, _, .inr ⟨rfl, rfl⟩, h⟩
  have lx : w.g.lev (w.lname x) = some x := by rcases hxy with ⟨rfl, rfl⟩ | ⟨rfl, rfl⟩ <;> assumption
  have ly : w.g.lev (w.lname y) = some y := by rcases hxy with ⟨rfl, rfl⟩ | ⟨rfl, rfl⟩ <;> assumption
  have hne : x ≠ y := by rcases hxy with ⟨rfl, rfl⟩ | ⟨rfl, rfl⟩ <;> [exact hlu; exact hlu.symm]
  have fx : (w.lv x).fixed = false := (looseOf x lx).2 hxl
  have hmem' : ∀ n m, w.g.adj n m = some t → n = w.lname x ∨ n = w.lname y := by
    intro n m h
    rcases hmem n m h with ⟨h1, -⟩ | ⟨h1, -⟩ <;> rcases hxy with ⟨rfl, rfl⟩ | ⟨rfl, rfl⟩ <;> simp [h1]
  set φ : Nat → ℚ := fun i => if i = x then
    (if x = (w.tr t).upper then w.eHz (w.tr t).lower + f else w.eHz (w.tr t).upper - f) else w.eHz i with hφd
  have hφt : φ (w.tr t).upper - φ (w.tr t).lower = f := by
    simp only [hφd]
    rcases hxy with ⟨rfl, rfl⟩ | ⟨rfl, rfl⟩
    · rw [if_neg hlu.symm, if_pos rfl, if_neg hlu]; ring
    · rw [if_pos rfl, if_pos rfl, if_neg hlu]; ring
  have hpot : Potential (withFreq w t f) (GroupOf w t f) φ := by
    intro n m t' f' _ he
    rcases (hSE ..).1 he with ⟨rfl, rfl, _⟩ | he0
    · rw [withFreq_tr_same]; exact ⟨hf, hφt⟩
    · clear he
      have he := he0
      have hne' : t' ≠ t := by
        rintro rfl
        rw [he0.2] at h0; cases h0
      rw [withFreq_tr_ne w hne']
      obtain ⟨a0, a1⟩ := hs.met n m t' f' he
      obtain ⟨_, _, l3, l4, l5, _⟩ := hw.edge _ _ _ he.1
      have he' := he.symm hw
      have hl : (w.tr t').lower ≠ x := by
        rintro e
        rcases l5 with ⟨a, b⟩ | ⟨a, b⟩
        · exact hxl m t' f' (by rw [← e, ← a]; exact he)
        · exact hxl n t' f' (by rw [← e, ← b]; exact he')
      have hu : (w.tr t').upper ≠ x := by
        rintro e
        rcases l5 with ⟨a, b⟩ | ⟨a, b⟩
        · exact hxl n t' f' (by rw [← e, ← b]; exact he')
        · exact hxl m t' f' (by rw [← e, ← a]; exact he)
      simp only [hφd, if_neg hl, if_neg hu]
      exact ⟨a0, a1⟩
  have hready : Ready (withFreq w t f) (GroupOf w t f) := by
    refine ⟨φ, hpot, ?_⟩
    by_cases fy : (w.lv y).fixed = true
    · refine .inr ⟨fun i hi hfi => ?_, .inr fun n m t' f' i j hn hm he hnm hi hj => ?_⟩
      · have : i ≠ x := by
          rintro rfl
          have : (w.lv i).fixed = true := hfi
          rw [fx] at this; cases this
        show w.eHz i = φ i
        simp only [hφd, if_neg this]
      · show (w.lv i).fixed = true ∨ (w.lv j).fixed = true
        have hi' : w.g.lev n = some i := hi
        have hj' : w.g.lev m = some j := hj
        rcases (hSE ..).1 he with ⟨rfl, rfl, h⟩ | h
        · rcases hmem' n m h with e | e
          · have e2 : m = w.lname y := by
              rcases hmem' m n (by rw [hw.gok.symm]; exact h) with e2 | e2
              · exact absurd (e.trans e2.symm) hnm
              · exact e2
            rw [e2, ly] at hj'
            right; rw [← Option.some.inj hj']; exact fy
          · rw [e, ly] at hi'
            left; rw [← Option.some.inj hi']; exact fy
        · exact .inl (fixOf n m t' f' i h hi')
    · left
      have fy' : Loose w y := (looseOf y ly).1 (by simpa using fy)
      have hxy' : ∀ n, GroupOf w t f n → n = w.lname x ∨ n = w.lname y := by
        intro n hn
        induction hn with
        | refl => exact hmem' _ _ ht
        | @tail a b h1 h2 ih =>
          obtain ⟨t2, f2, h2⟩ := h2
          rcases (hSE ..).1 h2 with ⟨-, -, h⟩ | h
          · exact hmem' b a (by rw [hw.gok.symm]; exact h)
          · rcases ih with rfl | rfl
            · exact absurd h (hxl _ _ _)
            · exact absurd h (fy' _ _ _)
      rintro i ⟨n, hn, hi⟩
      have hi' : w.g.lev n = some i := hi
      show (w.lv i).fixed = false
      rcases hxy' n hn with rfl | rfl
      · rw [lx] at hi'; rw [← Option.some.inj hi']; exact fx
      · rw [ly] at hi'; rw [← Option.some.inj hi']; simpa using fy
  have hp := withFreq_settled (f := f) h0
  obtain ⟨w', e1, e2, e3⟩ := setFrequency_ready hw hσ (f := f) ht (by rw [hp]; exact hready)
  rw [hp] at e2 e3
  obtain ⟨w'', q1, -, q3⟩ := setFrequency_frame' hw hσ (f := f) hb ha
  rw [hp] at q3
  obtain rfl : w'' = w' := by rw [e1] at q1; exact (Prod.mk.inj q1).1.symm
  have hwarn : w''.warned = w.warned := by
    have hsym : ∀ a b, SetConn (withFreq w t f) a b → SetConn (withFreq w t f) b a := by
      intro a b h
      induction h with
      | refl => exact .refl
      | tail _ h ih =>
        obtain ⟨t2, f2, h⟩ := h
        exact .head ⟨t2, f2, h.symm hwp⟩ ih
    obtain ⟨v, g1, g2⟩ := enforce_silent hwp hσ (some (w.lname (w.tr t).e1, w.lname (w.tr t).e2)) (by
      intro v _ hv
      have hv' := hv _ rfl
      have : SetConn (withFreq w t f) v = GroupOf w t f := by
        funext n
        exact propext ⟨fun h => (hsym _ _ hv').trans h, fun h => hv'.trans h⟩
      rw [this]
      exact .inl hready)
    rw [setFrequency_eq hb ha, hp, g1] at e1
    rw [← (Prod.mk.inj e1).1, g2]
    rfl
  have hkept : ∀ n i, w.g.lev n = some i → (w.lv i).fixed = true → w''.eHz i = w.eHz i ∧ (w''.lv i).fixed = true := by
    intro n i hi hfi
    by_cases hX : InX w (GroupOf w t f) i
    · refine ⟨e3.kept i hX hfi, ?_⟩
      have := C99_stays_pinned (withFreq w t f) σ (some (w.lname (w.tr t).e1, w.lname (w.tr t).e2)) i hfi
      rw [← hp, ← setFrequency_eq hb ha, e1] at this
      exact this
    · have := q3 i hX
      exact ⟨by unfold eHz; rw [this]; rfl, by rw [this]; exact hfi⟩
  have hSE' : ∀ n m t' f', SetEdge w'' n m t' f' ↔ (t' = t ∧ f' = f ∧ w.g.adj n m = some t) ∨ SetEdge w n m t' f' := by
    intro n m t' f'
    rw [e2.setEdge, hSE]
  have hnl : w.lname (w.tr t).lower ≠ w.lname (w.tr t).upper := by
    intro e
    rw [e, k4] at k3
    exact hlu (Option.some.inj k3).symm
  refine ⟨w'', e1, ⟨?_, ?_⟩, e2, hwarn, fun n i hi hfi => (hkept n i hi hfi).1, ?_⟩
  · intro n m t' f' he
    rcases (hSE' ..).1 he with ⟨rfl, rfl, h⟩ | h
    · have hn : GroupOf w t' f' n := by rcases hmem n m h with ⟨rfl, -⟩ | ⟨rfl, -⟩ <;> [exact hends.1; exact hends.2]
      have := e3.real n m t' f' hn ((hSE ..).2 (.inl ⟨rfl, rfl, h⟩))
      rw [e2.tr]
      exact this
    · have hne' : t' ≠ t := by
        rintro rfl
        rw [h.2] at h0; cases h0
      obtain ⟨a0, a1⟩ := hs.met n m t' f' h
      obtain ⟨_, _, l3, l4, l5, _⟩ := hw.edge _ _ _ h.1
      have h' := h.symm hw
      rw [e2.tr, withFreq_tr_ne w hne']
      have fl : (w.lv (w.tr t').lower).fixed = true ∧ (w.lv (w.tr t').upper).fixed = true := by
        rcases l5 with ⟨a, b⟩ | ⟨a, b⟩
        · exact ⟨fixOf _ _ _ _ _ h (by rw [a]; exact l3), fixOf _ _ _ _ _ h' (by rw [b]; exact l4)⟩
        · exact ⟨fixOf _ _ _ _ _ h' (by rw [b]; exact l3), fixOf _ _ _ _ _ h (by rw [a]; exact l4)⟩
      rw [(hkept _ _ l3 fl.1).1, (hkept _ _ l4 fl.2).1]
      exact ⟨a0, a1⟩
  · intro n i hi
    rw [e2.g] at hi
    have hi' : w.g.lev n = some i := hi
    constructor
    · intro hfi
      by_cases hX : GroupOf w t f n
      · obtain ⟨m, t', f', h⟩ := hgrp n hX
        exact ⟨m, t', f', (hSE' ..).2 ((hSE ..).1 h)⟩
      · have hX' : ¬InX w (GroupOf w t f) i := by
          rintro ⟨n', h1, h2⟩
          rw [← (hw.node _ _ hi').1, (hw.node _ _ h2).1] at hX
          exact hX h1
        rw [q3 i hX'] at hfi
        obtain ⟨m, t', f', h⟩ := (hs.pins n i hi').1 hfi
        exact ⟨m, t', f', (hSE' ..).2 (.inr h)⟩
    · rintro ⟨m, t', f', h⟩
      rcases (hSE' ..).1 h with ⟨rfl, rfl, h⟩ | h
      · have hn : GroupOf w t' f' n := by rcases hmem n m h with ⟨rfl, -⟩ | ⟨rfl, -⟩ <;> [exact hends.1; exact hends.2]
        refine e3.pinned n m t' f' i hn ((hSE ..).2 (.inl ⟨rfl, rfl, h⟩)) ?_ hi'
        rcases hmem n m h with ⟨rfl, rfl⟩ | ⟨rfl, rfl⟩ <;> [exact hnl; exact hnl.symm]
      · exact (hkept n i hi' (fixOf n m t' f' i h hi')).2
  · intro n i hi hl hu
    by_cases hfi : (w.lv i).fixed = true
    · exact (hkept n i hi hfi).1
    · have hX : ¬InX w (GroupOf w t f) i := by
        rintro ⟨n', h1, h2⟩
        obtain ⟨m, t', f', h⟩ := hgrp n' h1
        rcases (hSE ..).1 h with ⟨rfl, rfl, h3⟩ | h3
        · rcases hmem _ _ h3 with ⟨rfl, -⟩ | ⟨rfl, -⟩
          · rw [k3] at h2; exact hl (Option.some.inj h2).symm
          · rw [k4] at h2; exact hu (Option.some.inj h2).symm
        · exact hfi (fixOf n' m t' f' i h3 h2)
      unfold eHz
      rw [q3 i hX]
      rfl

theorem grows_congr {l : List (Nat × ℚ)} {w w' : World} (hg : w'.g = w.g) (ht : w'.tr = w.tr) (hn : ∀ i, w'.lname i = w.lname i)
    (h : Grows l w) : Grows l w' := by
  induction l generalizing w w' with
  | nil => trivial
  | cons p l ih =>
    obtain ⟨t, f⟩ := p
    obtain ⟨h1, h2, h3, h4, h5, h6⟩ := h
    have hl : ∀ i, Loose w' i ↔ Loose w i := by
      intro i
      unfold Loose SetEdge
      rw [hg, ht, hn]
    refine ⟨?_, by rw [ht]; exact h2, by rw [ht]; exact h3, h4, by rw [ht, hl, hl]; exact h5, ih (w := withFreq w t f) ?_ ?_ ?_ h6⟩
    · unfold InAtom at *
      rw [ht, hn, hn, hg]
      exact h1
    · exact hg
    · show upd w'.tr t _ = upd w.tr t _
      rw [ht]
    · exact hn

/-- C150, the part that holds: frequencies set one after another are all met at the end, the earlier ones included, without a warning, if
each transition has a level that no earlier frequency is about.  Levels pinned before, and levels of none of the transitions, stay where they
were. -/
theorem C150_outward_partial {w : World} (hr : Reachable w) (hs : InTune w) {l : List (Nat × ℚ)} (hl : Grows l w) {σs : List Ord'}
    (hn : σs.length = l.length) (hσ : ∀ σ ∈ σs, Shuffles σ) :
    ∃ w', tune l σs w = (w', .ok ()) ∧ (∀ t f, (t, f) ∈ l → w'.freqHz t = f) ∧ (∀ n m t f, SetEdge w n m t f → w'.freqHz t = f) ∧
      w'.warned = w.warned ∧ InTune w' ∧ (∀ n i, w.g.lev n = some i → (w.lv i).fixed = true → w'.eHz i = w.eHz i) ∧
      ∀ n i, w.g.lev n = some i → (∀ p ∈ l, i ≠ (w.tr p.1).lower ∧ i ≠ (w.tr p.1).upper) → w'.eHz i = w.eHz i := by
  have hw := hr.wf
  clear hr
  have metOf : ∀ {v : World}, WF v → InTune v → ∀ n m t f, SetEdge v n m t f → v.freqHz t = f := by
    intro v hv hsv n m t f h
    obtain ⟨a, b⟩ := hsv.met n m t f h
    exact freqHz_of (hv.edge _ _ _ h.1).2.2.2.2.2 a b
  -- the set edges of the end
  suffices H : ∃ w', tune l σs w = (w', .ok ()) ∧ WF w' ∧ InTune w' ∧ (∀ t f, (t, f) ∈ l → ∃ n m, SetEdge w' n m t f) ∧
      (∀ n m t f, SetEdge w n m t f → SetEdge w' n m t f) ∧ w'.warned = w.warned ∧
      (∀ n i, w.g.lev n = some i → (w.lv i).fixed = true → w'.eHz i = w.eHz i) ∧
      ∀ n i, w.g.lev n = some i → (∀ p ∈ l, i ≠ (w.tr p.1).lower ∧ i ≠ (w.tr p.1).upper) → w'.eHz i = w.eHz i by
    obtain ⟨w', h1, h2, h3, h4, h5, h6, h7, h8⟩ := H
    refine ⟨w', h1, fun t f h => ?_, fun n m t f h => metOf h2 h3 n m t f (h5 n m t f h), h6, h3, h7, h8⟩
    obtain ⟨n, m, h⟩ := h4 t f h
    exact metOf h2 h3 n m t f h
  induction l generalizing w σs with
  | nil => cases σs <;> exact ⟨w, rfl, hw, hs, by simp, fun _ _ _ _ h => h, rfl, fun _ _ _ _ => rfl, fun _ _ _ _ => rfl⟩
  | cons p l ih =>
    obtain ⟨t, f⟩ := p
    cases σs with
    | nil => cases hn
    | cons σ σs =>
      obtain ⟨h1, h2, h3, h4, h5, h6⟩ := hl
      obtain ⟨v, e1, e2, e3, e4, e5, e6⟩ := tune_step hw hs (hσ σ List.mem_cons_self) h1 h2 h3 h4 h5
      have hwp : WF (withFreq w t f) := hw.frame (setTr_frame w t _ ⟨rfl, rfl, rfl, rfl, rfl⟩)
      have hvn : ∀ i, v.lname i = w.lname i := by
        intro i
        obtain ⟨E, b, h⟩ := e3.lv i
        unfold lname
        rw [h]
        rfl
      have hwv : WF v := hwp.frame e3.frame
      have hvg : v.g = w.g := e3.g
      obtain ⟨w', q1, q2, q3, q4, q5, q6, q7, q8⟩ := ih e2 (grows_congr e3.g e3.tr hvn h6) (σs := σs) (by simpa using hn)
        (fun τ h => hσ τ (List.mem_cons_of_mem _ h)) hwv
      have hse : ∀ n m t' f', SetEdge (withFreq w t f) n m t' f' → SetEdge w' n m t' f' :=
        fun n m t' f' h => q5 n m t' f' ((e3.setEdge ..).2 h)
      refine ⟨w', ?_, q2, q3, ?_, fun n m t' f' h => hse n m t' f' ((withFreq_setEdge' h2 ..).2 (.inr h)), q6.trans e4, ?_, ?_⟩
      · show (setFrequency σ t f >>= fun _ => tune l σs) w = _
        rw [PyM.bind_ok e1]
        exact q1
      · intro t' f' h
        rcases List.mem_cons.1 h with h | h
        · obtain ⟨rfl, rfl⟩ := Prod.mk.inj h
          exact ⟨_, _, hse _ _ _ _ ((withFreq_setEdge' h2 ..).2 (.inl ⟨rfl, rfl, h1⟩))⟩
        · exact q4 t' f' h
      · intro n i hi hfi
        obtain ⟨m, t', f', h⟩ := (hs.pins n i hi).1 hfi
        have hi' : v.g.lev n = some i := by rw [hvg]; exact hi
        have := (e2.pins n i hi').2 ⟨m, t', f', (e3.setEdge ..).2 ((withFreq_setEdge' h2 ..).2 (.inr h))⟩
        rw [q7 n i hi' this, e5 n i hi hfi]
      · intro n i hi hp
        have hi' : v.g.lev n = some i := by rw [hvg]; exact hi
        have ht : ∀ k, (v.tr k).lower = (w.tr k).lower ∧ (v.tr k).upper = (w.tr k).upper := by
          intro k
          rw [e3.tr]
          by_cases hk : k = t
          · subst hk; rw [withFreq_tr_same]; exact ⟨rfl, rfl⟩
          · rw [withFreq_tr_ne w hk]; exact ⟨rfl, rfl⟩
        rw [q8 n i hi' (fun p hp' => by rw [(ht p.1).1, (ht p.1).2]; exact hp p (List.mem_cons_of_mem _ hp'))]
        exact e6 n i hi (hp _ List.mem_cons_self).1 (hp _ List.mem_cons_self).2

/-- C150: a transition both of whose levels have frequencies set already cannot be set any more: nothing moves. -/
theorem C150_joined {w : World} (hr : Reachable w) (hs : InTune w) {σ : Ord'} {t : Nat} {f : ℚ} (ht : InAtom w t)
    (h0 : (w.tr t).setFreq = none) (ho : w.eHz (w.tr t).lower ≤ w.eHz (w.tr t).upper) (hl : ¬Loose w (w.tr t).lower)
    (hu : ¬Loose w (w.tr t).upper) :
    (∀ i, (setFrequency σ t f w).1.eHz i = w.eHz i) ∧ (setFrequency σ t f w).1.freqHz t = w.freqHz t := by
  have hw := hr.wf
  obtain ⟨_, _, k3, k4, _, _⟩ := hw.edge _ _ _ ht
  have fix : ∀ i, w.g.lev (w.lname i) = some i → ¬Loose w i → (w.lv i).fixed = true := by
    intro i hi h
    unfold Loose at h
    push Not at h
    exact (hs.pins _ i hi).2 h
  refine C37_no_effect hr ht (.inl h0) (fun n m t' f' he => ?_) (fix _ k3 hl) (fix _ k4 hu) ho
  obtain ⟨_, _, l3, l4, l5, _⟩ := hw.edge _ _ _ he.1
  obtain ⟨a, b⟩ := hs.met n m t' f' he
  have he' := he.symm hw
  refine ⟨?_, ?_, by linarith⟩
  · rcases l5 with ⟨p, q⟩ | ⟨p, q⟩
    · exact (hs.pins n _ (by rw [p]; exact l3)).2 ⟨_, _, _, he⟩
    · exact (hs.pins m _ (by rw [q]; exact l3)).2 ⟨_, _, _, he'⟩
  · rcases l5 with ⟨p, q⟩ | ⟨p, q⟩
    · exact (hs.pins m _ (by rw [q]; exact l4)).2 ⟨_, _, _, he'⟩
    · exact (hs.pins n _ (by rw [p]; exact l4)).2 ⟨_, _, _, he⟩

/-- An atom in which no frequency was ever set is settled. -/
theorem settled_fresh {w : World} (h1 : ∀ t, (w.tr t).setFreq = none) (h2 : ∀ i, (w.lv i).fixed = false) : InTune w := by
  have : ∀ n m t f, ¬SetEdge w n m t f := fun n m t f h => by have := h.2; rw [h1 t] at this; cases this
  refine ⟨fun n m t f h => absurd h (this n m t f), fun n i _ => ?_⟩
  rw [h2 i]
  simp [this]

/-- The transitions of the list together with those set before are free of loops. -/
def TuneForest (l : List (Nat × ℚ)) (w : World) : Prop := LoopFree (l.foldl (fun v p => withFreq v p.1 p.2) w) fun _ => True

/-- The full claim C150. -/
def C150_full : Prop := ∀ (w : World) (l : List (Nat × ℚ)) (σs : List Ord'), Reachable w → InTune w → (l.map Prod.fst).Nodup →
  (∀ p ∈ l, InAtom w p.1 ∧ (w.tr p.1).setFreq = none ∧ 0 ≤ p.2) → TuneForest l w → σs.length = l.length → (∀ σ ∈ σs, Shuffles σ) →
  ∀ t f, (t, f) ∈ l → (tune l σs w).1.freqHz t = f

/-- Four levels at 0, 1, 2, 3 with transitions between neighbours and no frequency set. -/
def ladder : World := runAll (threeLevels 0 1 2 ++ [.newLevel (demoTerm 'c') 3 0 0 0 0 none, .addLevel 3 false none,
  .newTrans 0 1 none .none none, .newTrans 1 2 none .none none, .newTrans 2 3 none .none none]) (emptyAtom 0 0)

theorem ladder_reachable : Reachable ladder := demo_reachable (by decide +kernel)

theorem ladder_settled : InTune ladder := by
  have hd : setEdgeList ladder = [] := by decide +kernel
  have : ∀ n m t f, ¬SetEdge ladder n m t f := fun n m t f h =>
    forall_setEdge (w := ladder) (P := fun _ _ _ _ => False) (by rw [hd]; simp) h
  refine ⟨fun n m t f h => absurd h (this n m t f), fun n i hi => ?_⟩
  have := forall_level (w := ladder) (X := fun _ => True) (P := fun i => (ladder.lv i).fixed = false) (by decide +kernel) ⟨n, trivial, hi⟩
  rw [this]
  simp_all

theorem loose_of {w : World} {i : Nat} (h : ∀ e ∈ setEdgeList w, e.1 ≠ w.lname i) : Loose w i := fun m t f he =>
  forall_setEdge (P := fun n _ _ _ => n ≠ w.lname i) h he rfl

/-- C150 fails: the first and the last step of the ladder set to 1, the middle one cannot be set to 5 any more, though from one end to the
other all three can be. -/
theorem C150_fails : ¬C150_full := by
  intro h
  have := h ladder [(0, 1), (2, 1), (1, 5)] [idOrd, idOrd, idOrd] ladder_reachable ladder_settled (by decide) (by decide +kernel)
    (loopFree_of_parent (fun n => if n = demoName 'c' then demoName 'b' else if n = demoName 'b' then demoName 'a' else demoName 'g')
      (fun n => if n = demoName 'c' then 3 else if n = demoName 'b' then 2 else if n = demoName 'a' then 1 else 0) (by decide +kernel) _)
    rfl (fun σ hσ => by simp at hσ; rw [hσ]; exact idOrd_shuffles) 1 5 (by simp)
  revert this
  decide +kernel

/-- The hypotheses of `C150_outward_partial` are met by the same three frequencies from one end to the other. -/
example : Grows [(0, 1), (1, 5), (2, 1)] ladder := by
  refine ⟨by decide +kernel, by decide +kernel, by decide +kernel, by norm_num, .inr (loose_of (by decide +kernel)),
    by decide +kernel, by decide +kernel, by decide +kernel, by norm_num, .inr (loose_of (by decide +kernel)),
    by decide +kernel, by decide +kernel, by decide +kernel, by norm_num, .inr (loose_of (by decide +kernel)), trivial⟩

example : let w := (tune [(0, 1), (1, 5), (2, 1)] [idOrd, idOrd, idOrd] ladder).1
    w.freqHz 0 = 1 ∧ w.freqHz 1 = 5 ∧ w.freqHz 2 = 1 ∧ w.eHz 3 = 7 := by decide +kernel

end AtomTk
