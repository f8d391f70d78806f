import Verif.Proofs.Retune
import Verif.Props.Pinned

/-!
# C37, C38: changing a frequency of an enforced tree

What `set_frequency` does to a group whose set transitions form a tree, all of whose levels are pinned and all of whose
frequencies are met.  The search starts at the lowest level of the group, so that it matters from which end the changed
transition is met.  `ConnOff w t a b`: connected through set transitions other than `t`.
-/

namespace AtomTk
open Util World

/-- An enforced tree: the set transitions of the group form no loop, all levels are pinned, and every set transition is at
its set frequency. -/
structure EnforcedTree (w : World) (t : Nat) (f : ℚ) : Prop where
  tree : LoopFree (withFreq w t f) (GroupOf w t f)
  pinned : ∀ i, InX w (GroupOf w t f) i → (w.lv i).fixed = true
  met : ∀ n m t' f', GroupOf w t f n → SetEdge w n m t' f' →
    0 ≤ f' ∧ w.eHz (w.tr t').upper - w.eHz (w.tr t').lower = f'

/-- The level is a lowest one of the group. -/
def Lowest (w : World) (X : Str → Prop) (i : Nat) : Prop := InX w X i ∧ ∀ j, InX w X j → w.eHz i ≤ w.eHz j

theorem connOff_prep (w : World) (t : Nat) (f : ℚ) : ConnOff (prep w t f) t = ConnOff w t := by
  have : (fun a b => ∃ t' f', t' ≠ t ∧ SetEdge (prep w t f) a b t' f') = (fun a b => ∃ t' f', t' ≠ t ∧ SetEdge w a b t' f') := by
    funext a b
    apply propext
    constructor
    · rintro ⟨t', f', hne, h⟩
      rw [prep_setEdge, withFreq_setEdge] at h
      rcases h with ⟨e, _⟩ | ⟨_, h⟩
      · exact absurd e hne
      · exact ⟨t', f', hne, h⟩
    · rintro ⟨t', f', hne, h⟩
      exact ⟨t', f', hne, by rw [prep_setEdge, withFreq_setEdge]; exact .inr ⟨hne, h⟩⟩
  unfold ConnOff
  rw [this]

/-- Where the search starts and what it walks, for any loop-free group of pinned levels. -/
theorem retune_setup' {w : World} (hr : Reachable w) {σ : Ord'} (hσ : Shuffles σ) {t : Nat} {f f0 : ℚ}
    (ht : InAtom w t) (h0 : (w.tr t).setFreq = some f0) (hf0 : f0 ≠ 0)
    (htree : LoopFree (withFreq w t f) (GroupOf w t f)) (hpin : ∀ i, InX w (GroupOf w t f) i → (w.lv i).fixed = true) :
    ∃ es s is out, WF (prep w t f) ∧ EsOk (prep w t f) es ∧ GroupOf w t f s ∧ w.g.lev s = some is ∧
      Lowest w (GroupOf w t f) is ∧ s = w.lname is ∧
      Graph.Grow (subNbrs (prep w t f).g es) [s] out ∧ (∀ n, GroupOf w t f n → n = s ∨ n ∈ out.map Prod.snd) ∧
      setFrequency σ t f w = enfEdges out (prep w t f) ∧
      SetEdge w (w.lname (w.tr t).lower) (w.lname (w.tr t).upper) t f0 ∧
      SetEdge (prep w t f) (w.lname (w.tr t).lower) (w.lname (w.tr t).upper) t f ∧
      GroupOf w t f (w.lname (w.tr t).lower) ∧ GroupOf w t f (w.lname (w.tr t).upper) ∧
      releases w t ∧
      ¬ConnOff w t (w.lname (w.tr t).lower) (w.lname (w.tr t).upper) := by
  have hw := hr.wf
  obtain ⟨k1, hb, k3, k4, k5, k6⟩ := hw.edge _ _ _ ht
  have ha : (w.lv (w.tr t).e1).inAtom = true := by
    rcases k6 with ⟨e, _⟩ | ⟨e, _⟩
    · rw [e]; exact (hw.node _ _ k3).2.1
    · rw [e]; exact (hw.node _ _ k4).2.1
  have hwp := hw.frame (prep_frame w t f)
  have hset : SetEdge (prep w t f) (w.lname (w.tr t).e1) (w.lname (w.tr t).e2) t f := by
    rw [prep_setEdge, withFreq_setEdge]
    exact .inl ⟨rfl, rfl, ht⟩
  obtain ⟨es, s, is, out, h1, h2, h3, h4, h5, h6, h7⟩ := enforce_search hwp hσ
    (p := (w.lname (w.tr t).e1, w.lname (w.tr t).e2)) hset
  have hadj : w.g.adj (w.lname (w.tr t).lower) (w.lname (w.tr t).upper) = some t := by
    rcases k6 with ⟨e1, e2⟩ | ⟨e1, e2⟩
    · rw [← e1, ← e2]; exact ht
    · rw [← e1, ← e2, hw.gok.symm]; exact ht
  have hT : SetEdge w (w.lname (w.tr t).lower) (w.lname (w.tr t).upper) t f0 := ⟨hadj, h0⟩
  have hT' : SetEdge (withFreq w t f) (w.lname (w.tr t).lower) (w.lname (w.tr t).upper) t f := by
    rw [withFreq_setEdge]; exact .inl ⟨rfl, rfl, hadj⟩
  have hwf : WF (withFreq w t f) := hw.frame (setTr_frame w t _ ⟨rfl, rfl, rfl, rfl, rfl⟩)
  have hg : GroupOf w t f (w.lname (w.tr t).lower) ∧ GroupOf w t f (w.lname (w.tr t).upper) := by
    unfold GroupOf
    rcases k6 with ⟨e1, e2⟩ | ⟨e1, e2⟩
    · rw [e1]; exact ⟨.refl, .single ⟨t, f, hT'⟩⟩
    · rw [e1]; exact ⟨.single ⟨t, f, hT'.symm hwf⟩, .refl⟩
  have hconn : SetConn (prep w t f) (w.lname (w.tr t).e1) = GroupOf w t f := by
    rw [prep_conn]; rfl
  simp only [hconn] at h2 h4 h6
  rw [prep_g] at h3
  refine ⟨es, s, is, out, hwp, h1, h2, h3, ⟨⟨s, h2, h3⟩, fun j hj => ?_⟩, ((hw.node _ _ h3).1).symm, h5, h6, ?_, hT,
    (prep_setEdge ..).2 hT', hg.1, hg.2, ⟨?_, ?_, ?_⟩, ?_⟩
  · have := h4 j ((prep_inX ..).2 hj)
    rwa [prep_eHz, prep_eHz] at this
  · rw [setFrequency_eq hb ha, h7]
  · rw [h0]; simp [truthy, hf0]
  · exact hpin _ ⟨_, hg.2, k4⟩
  · exact hpin _ ⟨_, hg.1, k3⟩
  · have := htree.connOff hwf (fun n m t' f' hn he => hn.tail ⟨t', f', he⟩) hT' hg.1
    have e : ConnOff (withFreq w t f) t = ConnOff w t := by
      rw [← connOff_prep w t f]
      unfold ConnOff
      simp only [prep_setEdge]
    rwa [e] at this

/-- Everything the two cases share. -/
theorem retune_setup {w : World} (hr : Reachable w) {σ : Ord'} (hσ : Shuffles σ) {t : Nat} {f f0 : ℚ}
    (ht : InAtom w t) (h0 : (w.tr t).setFreq = some f0) (hf0 : 0 < f0) (htree : EnforcedTree w t f) :
    ∃ es s is out, WF (prep w t f) ∧ EsOk (prep w t f) es ∧ GroupOf w t f s ∧ w.g.lev s = some is ∧
      Lowest w (GroupOf w t f) is ∧ s = w.lname is ∧
      Graph.Grow (subNbrs (prep w t f).g es) [s] out ∧ (∀ n, GroupOf w t f n → n = s ∨ n ∈ out.map Prod.snd) ∧
      setFrequency σ t f w = enfEdges out (prep w t f) ∧
      SetEdge w (w.lname (w.tr t).lower) (w.lname (w.tr t).upper) t f0 ∧
      SetEdge (prep w t f) (w.lname (w.tr t).lower) (w.lname (w.tr t).upper) t f ∧
      GroupOf w t f (w.lname (w.tr t).lower) ∧ GroupOf w t f (w.lname (w.tr t).upper) ∧
      w.eHz (w.tr t).upper - w.eHz (w.tr t).lower = f0 ∧ releases w t ∧
      ¬ConnOff w t (w.lname (w.tr t).lower) (w.lname (w.tr t).upper) := by
  obtain ⟨es, s, is, out, q1, q2, q3, q4, q5, q6, q7, q8, q9, q10, q11, q12, q13, q14, q15⟩ :=
    retune_setup' hr hσ ht h0 hf0.ne' htree.tree htree.pinned
  exact ⟨es, s, is, out, q1, q2, q3, q4, q5, q6, q7, q8, q9, q10, q11, q12, q13, (htree.met _ _ t f0 q12 q10).2, q14, q15⟩

/-- C37 and C38 for an enforced tree, first case: seen from the lowest level the transition goes up.  Its upper level is
moved to the new frequency, every other level stays, and a set transition of the group other than `t` is still met exactly
if the frequency is unchanged or the transition does not end at the level moved.  Excluded by `hbad`: another set
transition at the upper level of exactly half the change (`C37_mirror` shows what happens then).  Missing: groups with
loops, and groups not at rest. -/
theorem C37_up_partial {w : World} (hr : Reachable w) {σ : Ord'} (hσ : Shuffles σ) {t : Nat} {f f0 : ℚ}
    (ht : InAtom w t) (h0 : (w.tr t).setFreq = some f0) (hf0 : 0 < f0) (htree : EnforcedTree w t f)
    (hlow : ∀ i, Lowest w (GroupOf w t f) i → ConnOff w t (w.lname i) (w.lname (w.tr t).lower))
    (hbad : ∀ m t' f', t' ≠ t → SetEdge w (w.lname (w.tr t).upper) m t' f' → f = f0 ∨ 2 * f' ≠ |f - f0|) :
    ∃ w', setFrequency σ t f w = (w', .ok ()) ∧ w'.eHz (w.tr t).upper = w.eHz (w.tr t).lower + f ∧
      (∀ i, i ≠ (w.tr t).upper → w'.eHz i = w.eHz i) ∧ (0 ≤ f → w'.freqHz t = f) ∧
      (∀ n m t' f', GroupOf w t f n → SetEdge w n m t' f' → t' ≠ t →
        (w'.freqHz t' = f' ↔ f = f0 ∨ ((w.tr t').lower ≠ (w.tr t).upper ∧ (w.tr t').upper ≠ (w.tr t).upper))) := by
  have hw := hr.wf
  obtain ⟨es, s, is, out, hwp, hes, hs, his, hlo, hsn, hgrow, hall, heq, hT, hT', hgl, hgu, hf, hrel, hoff⟩ :=
    retune_setup hr hσ ht h0 hf0 htree
  have hpt : (prep w t f).tr t = { w.tr t with setFreq := some f } := by rw [prep_tr, withFreq_tr_same]
  have hpl : ((prep w t f).tr t).lower = (w.tr t).lower := by rw [hpt]
  have hpu : ((prep w t f).tr t).upper = (w.tr t).upper := by rw [hpt]
  have hln : ∀ i, (prep w t f).lname i = w.lname i := fun i => (prep_frame w t f).lname i
  obtain ⟨_, _, hlL, hlU, _⟩ := hw.edge _ _ _ hT.1
  have hlu : (w.tr t).lower ≠ (w.tr t).upper := by
    intro e; rw [e] at hf; linarith
  have hsu : s ≠ w.lname (w.tr t).upper := by
    intro e
    rw [e] at his
    have := Option.some.inj (his.symm.trans hlU)
    have h2 := hlo.2 _ ⟨_, hgl, hlL⟩
    rw [this] at h2
    linarith
  have hfix : ∀ i, ((prep w t f).lv i).fixed = if i = (w.tr t).upper then false else (w.lv i).fixed := by
    intro i
    rw [prep_fixed]
    by_cases e : i = (w.tr t).upper
    · rw [if_pos ⟨hrel, e⟩, if_pos e]
    · rw [if_neg (fun h => e h.2), if_neg e]
  have hedge : ∀ n m t' f', t' ≠ t → (SetEdge (prep w t f) n m t' f' ↔ SetEdge w n m t' f') := by
    intro n m t' f' hne
    rw [prep_setEdge, withFreq_setEdge]
    exact ⟨fun h => h.elim (fun h => absurd h.1 hne) (·.2), fun h => .inr ⟨hne, h⟩⟩
  obtain ⟨w', e1, e2, e3⟩ := enfEdges_moved hwp (GroupOf w t f) (t := t) (f := f) (s := s)
    (by rw [hpl, hpu, hln, hln]; exact hT')
    (by rw [connOff_prep, hpl, hln, hsn]; exact hlow is hlo)
    (by rw [connOff_prep, hpl, hpu, hln, hln]; exact hoff)
    (by
      intro n m t' f' hn he hne
      rw [prep_tr, withFreq_tr_ne w hne, prep_eHz, prep_eHz]
      exact htree.met n m t' f' hn ((hedge n m t' f' hne).1 he))
    (by
      intro m t' f' hne he
      rw [hpl, hpu, prep_eHz, prep_eHz, hf]
      rw [hpu, hln] at he
      exact hbad m t' f' hne ((hedge _ _ _ _ hne).1 he))
    hgrow (prep w t f) (EFrame.refl _)
    (fun n m _ hm => (mem_subNbrs hwp hes n m).1 hm)
    (fun n m hn hm => by
      obtain ⟨t', f', he⟩ := (mem_subNbrs hwp hes n m).1 hm
      rw [prep_setEdge] at he
      exact hn.tail ⟨t', f', he⟩)
    (by intro n hn; rw [List.mem_singleton] at hn; rw [hn]; exact hs)
    (by rw [hpl, hpu, hln, hln]; exact Front.start hsu)
    (by
      intro i hi hiu
      rw [hpu] at hiu
      rw [prep_inX] at hi
      refine ⟨rfl, ?_⟩
      rw [hfix, if_neg hiu]
      exact htree.pinned i hi)
    (by rw [hpu, hln, List.mem_singleton]; exact fun e => absurd e.symm hsu)
    (by rw [hpu, hfix, if_pos rfl]; exact fun _ => rfl)
  rw [hpu, hpl, hln, prep_eHz] at e3
  rw [hpu] at e2
  have hup : w'.eHz (w.tr t).upper = w.eHz (w.tr t).lower + f := by
    apply e3
    rcases hall _ hgu with h | h
    · exact absurd h.symm hsu
    · exact .inr h
  obtain ⟨w2, g1, g2, g3, g4, g5⟩ := C39_only_group hr hσ f ht
  have hw2 : w2 = w' := by
    rw [heq, e1] at g1
    exact (Prod.mk.inj g1).1.symm
  subst hw2
  have hothers : ∀ i, i ≠ (w.tr t).upper → w2.eHz i = w.eHz i := by
    intro i hiu
    by_cases hi : InX w (GroupOf w t f) i
    · rw [e2 i ((prep_inX ..).2 hi) hiu, prep_eHz]
    · exact g2 i hi
  refine ⟨w2, g1, hup, hothers, ?_, ?_⟩
  · intro hf'
    refine freqHz_of (w := w) ?_ hf' (by rw [hup, hothers _ hlu]; ring)
    rw [g4]
    exact (hw.edge _ _ _ ht).2.2.2.2.2
  · intro n m t' f' hn he hne
    obtain ⟨q0, q1⟩ := htree.met n m t' f' hn he
    obtain ⟨_, _, _, _, q5, q6⟩ := hw.edge _ _ _ he.1
    have hfreq : w2.freqHz t' = |w2.eHz (w.tr t').upper - w2.eHz (w.tr t').lower| := by
      unfold freqHz
      rw [g3 t' hne]
      rcases q6 with ⟨x1, x2⟩ | ⟨x1, x2⟩
      · rw [x1, x2, abs_sub_comm]
      · rw [x1, x2]
    -- a set transition at the upper level
    have hat : ((w.tr t').lower = (w.tr t).upper ∨ (w.tr t').upper = (w.tr t).upper) →
        ∃ m, SetEdge w (w.lname (w.tr t).upper) m t' f' := by
      rintro (e | e)
      · rw [← e]
        rcases q5 with ⟨x1, x2⟩ | ⟨x1, x2⟩
        · exact ⟨m, by rw [← x1]; exact he⟩
        · exact ⟨n, by rw [← x2]; exact he.symm hw⟩
      · rw [← e]
        rcases q5 with ⟨x1, x2⟩ | ⟨x1, x2⟩
        · exact ⟨n, by rw [← x2]; exact he.symm hw⟩
        · exact ⟨m, by rw [← x1]; exact he⟩
    have hd : ∀ {d : ℚ}, d = f - f0 → (f = f0 ∨ 2 * f' ≠ |d|) → (|f' + d| = f' ↔ f = f0) ∧ (|f' - d| = f' ↔ f = f0) := by
      intro d hde hb0
      constructor
      · constructor
        · intro h
          by_contra hff
          apply hb0.resolve_left hff
          rcases abs_cases (f' + d) with ⟨q, q'⟩ | ⟨q, q'⟩
          · exact absurd (by linarith) hff
          · rw [abs_of_nonpos (by linarith)]; linarith
        · intro h
          rw [show d = 0 by rw [hde, h]; ring, add_zero, abs_of_nonneg q0]
      · constructor
        · intro h
          by_contra hff
          apply hb0.resolve_left hff
          rcases abs_cases (f' - d) with ⟨q, q'⟩ | ⟨q, q'⟩
          · exact absurd (by linarith) hff
          · rw [abs_of_nonneg (by linarith)]; linarith
        · intro h
          rw [show d = 0 by rw [hde, h]; ring, sub_zero, abs_of_nonneg q0]
    rw [hfreq]
    by_cases c1 : (w.tr t').lower = (w.tr t).upper
    · have c2 : (w.tr t').upper ≠ (w.tr t).upper := by
        intro c2
        have : n = m := by
          rcases q5 with ⟨x1, x2⟩ | ⟨x1, x2⟩ <;> rw [x1, x2, c1, c2]
        subst this
        exact htree.tree.2 n t' f' hn (by rw [withFreq_setEdge]; exact .inr ⟨hne, he⟩)
      obtain ⟨m', hm'⟩ := hat (.inl c1)
      have hb0 := hbad m' t' f' hne hm'
      rw [hothers _ c2, c1, hup, show w.eHz (w.tr t').upper - (w.eHz (w.tr t).lower + f) = f' - (f - f0) by
        rw [c1] at q1; linarith, (hd rfl hb0).2]
      simp
    · by_cases c2 : (w.tr t').upper = (w.tr t).upper
      · obtain ⟨m', hm'⟩ := hat (.inr c2)
        have hb0 := hbad m' t' f' hne hm'
        rw [hothers _ c1, c2, hup, show w.eHz (w.tr t).lower + f - w.eHz (w.tr t').lower = f' + (f - f0) by
          rw [c2] at q1; linarith, (hd rfl hb0).1]
        simp
      · rw [hothers _ c1, hothers _ c2, q1, abs_of_nonneg q0]
        simp [c1, c2]

/-- C37 for an enforced tree, second case: seen from the lowest level the transition goes down.  The new frequency has no
effect: no level moves, the transition keeps its old frequency, and there is exactly one warning. -/
theorem C37_down {w : World} (hr : Reachable w) {σ : Ord'} (hσ : Shuffles σ) {t : Nat} {f f0 : ℚ}
    (ht : InAtom w t) (h0 : (w.tr t).setFreq = some f0) (hf0 : 0 < f0) (htree : EnforcedTree w t f)
    (hlow : ∀ i, Lowest w (GroupOf w t f) i → ConnOff w t (w.lname i) (w.lname (w.tr t).upper)) (hne : f ≠ f0) :
    ∃ w', setFrequency σ t f w = (w', .ok ()) ∧ (∀ i, w'.eHz i = w.eHz i) ∧ w'.freqHz t = f0 ∧
      w'.warned = w.warned + 1 := by
  have hw := hr.wf
  obtain ⟨es, s, is, out, hwp, hes, hs, his, hlo, hsn, hgrow, hall, heq, hT, hT', hgl, hgu, hf, hrel, hoff⟩ :=
    retune_setup hr hσ ht h0 hf0 htree
  have hpt : (prep w t f).tr t = { w.tr t with setFreq := some f } := by rw [prep_tr, withFreq_tr_same]
  have hpl : ((prep w t f).tr t).lower = (w.tr t).lower := by rw [hpt]
  have hpu : ((prep w t f).tr t).upper = (w.tr t).upper := by rw [hpt]
  have hln : ∀ i, (prep w t f).lname i = w.lname i := fun i => (prep_frame w t f).lname i
  obtain ⟨_, _, hlL, hlU, _⟩ := hw.edge _ _ _ hT.1
  have hsu : s ≠ w.lname (w.tr t).upper := by
    intro e
    rw [e] at his
    have := Option.some.inj (his.symm.trans hlU)
    have h2 := hlo.2 _ ⟨_, hgl, hlL⟩
    rw [this] at h2
    linarith
  have hsl : s ≠ w.lname (w.tr t).lower := by
    intro e
    apply hoff
    have := hlow is hlo
    rw [← hsn, e] at this
    exact this
  have hfix : ∀ i, ((prep w t f).lv i).fixed = if i = (w.tr t).upper then false else (w.lv i).fixed := by
    intro i
    rw [prep_fixed]
    by_cases e : i = (w.tr t).upper
    · rw [if_pos ⟨hrel, e⟩, if_pos e]
    · rw [if_neg (fun h => e h.2), if_neg e]
  have hedge : ∀ n m t' f', t' ≠ t → (SetEdge (prep w t f) n m t' f' ↔ SetEdge w n m t' f') := by
    intro n m t' f' hne
    rw [prep_setEdge, withFreq_setEdge]
    exact ⟨fun h => h.elim (fun h => absurd h.1 hne) (·.2), fun h => .inr ⟨hne, h⟩⟩
  obtain ⟨w', e1, e2, e3⟩ := enfEdges_stuck hwp (GroupOf w t f) (t := t) (f := f) (s := s)
    (by rw [hpl, hpu, hln, hln]; exact hT'.symm hwp)
    (by rw [connOff_prep, hpu, hln, hsn]; exact hlow is hlo)
    (by rw [connOff_prep, hpl, hpu, hln, hln]; exact fun h => hoff (ConnOff.symm hw h))
    (by rw [hpl, hpu, prep_eHz, prep_eHz, abs_sub_comm, hf, abs_of_pos hf0]; exact hne)
    (by
      intro n m t' f' hn he hne
      rw [prep_tr, withFreq_tr_ne w hne, prep_eHz, prep_eHz]
      exact htree.met n m t' f' hn ((hedge n m t' f' hne).1 he))
    hgrow (prep w t f) (EFrame.refl _)
    (fun n m _ hm => (mem_subNbrs hwp hes n m).1 hm)
    (fun n m hn hm => by
      obtain ⟨t', f', he⟩ := (mem_subNbrs hwp hes n m).1 hm
      rw [prep_setEdge] at he
      exact hn.tail ⟨t', f', he⟩)
    (by intro n hn; rw [List.mem_singleton] at hn; rw [hn]; exact hs)
    (by rw [hpu, hpl, hln, hln]; exact Front.start hsl)
    (fun i _ => rfl)
    (by
      intro i hi hiu
      rw [hpu] at hiu
      rw [prep_inX] at hi
      rw [hfix, if_neg hiu]
      exact htree.pinned i hi)
    (by rw [hpu, hln, List.mem_singleton]; exact fun e => absurd e.symm hsu)
  obtain ⟨w2, g1, g2, g3, g4, g5⟩ := C39_only_group hr hσ f ht
  have hw2 : w2 = w' := by
    rw [heq, e1] at g1
    exact (Prod.mk.inj g1).1.symm
  subst hw2
  have hE : ∀ i, w2.eHz i = w.eHz i := by
    intro i
    by_cases hi : InX w (GroupOf w t f) i
    · rw [e2 i ((prep_inX ..).2 hi), prep_eHz]
    · exact g2 i hi
  refine ⟨w2, g1, hE, ?_, ?_⟩
  · refine freqHz_of (w := w) ?_ hf0.le (by rw [hE, hE]; exact hf)
    rw [g4]
    exact (hw.edge _ _ _ ht).2.2.2.2.2
  · rw [e3, hpl, hln, if_pos ((hall _ hgl).resolve_left (fun e => hsl e.symm)), prep_warned]

/-- Every level of the group lies on one of the two sides, so that for a group with a single lowest level one of the two
cases applies. -/
theorem C37_sides {w : World} (hr : Reachable w) {t : Nat} {f : ℚ} (ht : InAtom w t) (n : Str) (hn : GroupOf w t f n) :
    ConnOff w t n (w.lname (w.tr t).lower) ∨ ConnOff w t n (w.lname (w.tr t).upper) := by
  have hw := hr.wf
  obtain ⟨_, _, _, _, k5, k6⟩ := hw.edge _ _ _ ht
  induction hn with
  | refl =>
    rcases k6 with ⟨e, _⟩ | ⟨e, _⟩ <;> rw [e]
    · exact .inl .refl
    · exact .inr .refl
  | @tail a b _ hab ih =>
    obtain ⟨t', f', he⟩ := hab
    rw [withFreq_setEdge] at he
    rcases he with ⟨rfl, _, he⟩ | ⟨hne, he⟩
    · obtain ⟨_, _, _, _, q5, _⟩ := hw.edge _ _ _ he
      rcases q5 with ⟨_, e⟩ | ⟨_, e⟩ <;> rw [e]
      · exact .inr .refl
      · exact .inl .refl
    · rcases ih with h | h
      · exact .inl (.head ⟨t', f', hne, he.symm hw⟩ h)
      · exact .inr (.head ⟨t', f', hne, he.symm hw⟩ h)

/-- The case excluded in `C37_up_partial`: g-a-b at 0, 1, 2, with g-a set from 1 to 3.  `a` is moved to 3, a-b is found at
its distance 1 but upside down, and `a` is moved back: g-a stays at 1, without a warning. -/
theorem C37_mirror : (setFrequency idOrd 0 3 chainDone).1.freqHz 0 = 1 ∧
    (setFrequency idOrd 0 3 chainDone).1.warned = chainDone.warned := by decide +kernel

/-! ### The hypotheses are met -/

/-- The enforced chain g-a-b at 0, 1, 2. -/
theorem chain_tree : EnforcedTree chainDone 0 4 where
  tree := loopFree_of_parent chainPar chainRk (by decide +kernel) _
  pinned := fun i hi => forall_level (w := chainDone) (P := fun i => (chainDone.lv i).fixed = true) (by decide +kernel) hi
  met := fun n m t' f' _ he => forall_setEdge (w := chainDone) (P := fun _ _ t' f' =>
    0 ≤ f' ∧ chainDone.eHz (chainDone.tr t').upper - chainDone.eHz (chainDone.tr t').lower = f') (by decide +kernel) he

/-- g-a from 1 to 4: `a` goes to 4, `b` stays at 2, so that a-b, set to 1, is broken. -/
example : ∃ w', setFrequency idOrd 0 4 chainDone = (w', .ok ()) ∧ w'.freqHz 0 = 4 ∧ w'.eHz 2 = 2 ∧ w'.freqHz 1 ≠ 1 := by
  have hchain : ∀ i, InX chainDone (GroupOf chainDone 0 4) i → i ∈ [0, 1, 2] := fun i hi =>
    forall_level (w := chainDone) (P := fun i => i ∈ [0, 1, 2]) (by decide +kernel) hi
  obtain ⟨w', h1, h2, h3, h4, h5⟩ := C37_up_partial (w := chainDone) (t := 0) (f := 4) (f0 := 1)
    (demo_reachable (by decide +kernel)) idOrd_shuffles (by decide +kernel) (by decide +kernel) (by norm_num) chain_tree
    (by
      rintro i ⟨hi, hlo⟩
      have h0 := hlo 0 ⟨demoName 'g', by
        have : demoName 'g' = chainDone.lname (chainDone.tr 0).e1 := by decide +kernel
        rw [this]; exact .refl, by decide +kernel⟩
      have : i = 0 := by
        have hc := hchain i hi
        revert h0
        simp only [List.mem_cons, List.not_mem_nil, or_false] at hc
        rcases hc with rfl | rfl | rfl
        · intro _; rfl
        · intro h; exact absurd h (by decide +kernel)
        · intro h; exact absurd h (by decide +kernel)
      subst this
      have : chainDone.lname 0 = chainDone.lname (chainDone.tr 0).lower := by decide +kernel
      rw [this])
    (fun m t' f' hne he => .inr (forall_setEdge (w := chainDone) (P := fun _ _ _ f' => 2 * f' ≠ |4 - 1|)
      (by decide +kernel) he))
  refine ⟨w', h1, h4 (by norm_num), ?_, ?_⟩
  · rw [h3 2 (by decide +kernel)]; decide +kernel
  · rw [Ne, h5 (demoName 'a') (demoName 'b') 1 1 (by
      have : demoName 'a' = chainDone.lname (chainDone.tr 0).e2 := by decide +kernel
      rw [this]
      exact .single ⟨0, 4, by rw [withFreq_setEdge]; exact .inl ⟨rfl, rfl, by decide +kernel⟩⟩) (by decide +kernel) (by decide)]
    decide +kernel

/-- Parents in the Lambda system g-b, a-b. -/
def lambdaPar (n : Str) : Str := if n = demoName 'a' then demoName 'b' else demoName 'g'
/-- Ranks in the Lambda system g-b, a-b. -/
def lambdaRk (n : Str) : ℕ := if n = demoName 'a' then 2 else if n = demoName 'b' then 1 else 0

/-- The enforced Lambda system g-b, a-b at 0, 1, 10. -/
theorem lambda_tree : EnforcedTree lambdaAtom 1 5 where
  tree := loopFree_of_parent lambdaPar lambdaRk (by decide +kernel) _
  pinned := fun i hi => forall_level (w := lambdaAtom) (P := fun i => (lambdaAtom.lv i).fixed = true) (by decide +kernel) hi
  met := fun n m t' f' _ he => forall_setEdge (w := lambdaAtom) (P := fun _ _ t' f' =>
    0 ≤ f' ∧ lambdaAtom.eHz (lambdaAtom.tr t').upper - lambdaAtom.eHz (lambdaAtom.tr t').lower = f') (by decide +kernel) he

/-- a-b from 9 to 5: no effect but a warning. -/
example : ∃ w', setFrequency idOrd 1 5 lambdaAtom = (w', .ok ()) ∧ w'.freqHz 1 = 9 ∧ w'.warned = 1 := by
  have hmem : ∀ i, InX lambdaAtom (GroupOf lambdaAtom 1 5) i → i ∈ [0, 1, 2] := fun i hi =>
    forall_level (w := lambdaAtom) (P := fun i => i ∈ [0, 1, 2]) (by decide +kernel) hi
  have hgb : ConnOff lambdaAtom 1 (demoName 'g') (lambdaAtom.lname (lambdaAtom.tr 1).upper) :=
    .single ⟨0, 10, by decide, by decide +kernel⟩
  obtain ⟨w', h1, h2, h3, h4⟩ := C37_down (w := lambdaAtom) (t := 1) (f := 5) (f0 := 9)
    (demo_reachable (by decide +kernel)) idOrd_shuffles (by decide +kernel) (by decide +kernel) (by norm_num) lambda_tree
    (by
      rintro i ⟨hi, hlo⟩
      have h0 := hlo 0 ⟨demoName 'g', by
        refine .head (b := demoName 'b') ⟨1, 5, ?_⟩ (.single ⟨0, 10, ?_⟩) <;> decide +kernel, by decide +kernel⟩
      have : i = 0 := by
        have hc := hmem i hi
        revert h0
        simp only [List.mem_cons, List.not_mem_nil, or_false] at hc
        rcases hc with rfl | rfl | rfl
        · intro _; rfl
        · intro h; exact absurd h (by decide +kernel)
        · intro h; exact absurd h (by decide +kernel)
      subst this
      have e : lambdaAtom.lname 0 = demoName 'g' := by decide +kernel
      rw [e]
      exact hgb)
    (by norm_num)
  refine ⟨w', h1, h3, ?_⟩
  rw [h4]
  decide +kernel

end AtomTk
