import Verif.Props.Scan
import Verif.Props.Retune

/-!
# C156: scanning a transition inside a tree of set transitions

The upper level of the transition may have further set transitions.  Changing the frequency breaks them, as `C37_up_partial` says; setting it back
mends them.
-/

namespace AtomTk
open Util World

/-- The levels connected with the transition through set transitions. -/
def GroupAt (w : World) (t : Nat) : Str → Prop := SetConn w (w.lname (w.tr t).e1)

/-- A transition that can be scanned inside its tree: it lies above its lower level, which is on the side of the lowest level of the group; the
levels of the group are pinned; the set transitions that do not end at its upper level are met.  Those that do may be broken. -/
structure Retunable (w : World) (t : Nat) : Prop where
  inAtom : InAtom w t
  isSet : ∃ f0, (w.tr t).setFreq = some f0 ∧ f0 ≠ 0
  above : w.eHz (w.tr t).lower < w.eHz (w.tr t).upper
  tree : LoopFree w (GroupAt w t)
  pinned : ∀ i, InX w (GroupAt w t) i → (w.lv i).fixed = true
  met : ∀ n m t' f', GroupAt w t n → SetEdge w n m t' f' → t' ≠ t → (w.tr t').lower ≠ (w.tr t).upper → (w.tr t').upper ≠ (w.tr t).upper →
    0 ≤ f' ∧ w.eHz (w.tr t').upper - w.eHz (w.tr t').lower = f'
  low : ∀ i, Lowest w (GroupAt w t) i → ConnOff w t (w.lname i) (w.lname (w.tr t).lower)

/-- With the upper level of `t` at `e`, the transition `t'` at that level would have its frequency `f'`, but upside down. -/
def Mirrored (w : World) (t : Nat) (e : ℚ) (t' : Nat) (f' : ℚ) : Prop :=
  0 < f' ∧ ((w.tr t').lower = (w.tr t).upper ∧ e - w.eHz (w.tr t').upper = f' ∨
    (w.tr t').upper = (w.tr t).upper ∧ w.eHz (w.tr t').lower - e = f')

theorem setRel_withFreq {w : World} {t : Nat} {f f0 : ℚ} (h0 : (w.tr t).setFreq = some f0) :
    (fun a b => ∃ t' f', SetEdge (withFreq w t f) a b t' f') = (fun a b => ∃ t' f', SetEdge w a b t' f') := by
  funext a b
  apply propext
  constructor
  · rintro ⟨t', f', h⟩
    rw [withFreq_setEdge] at h
    rcases h with ⟨rfl, _, h⟩ | ⟨_, h⟩
    · exact ⟨t', f0, h, h0⟩
    · exact ⟨t', f', h⟩
  · rintro ⟨t', f', h⟩
    by_cases e : t' = t
    · subst e; exact ⟨t', f, by rw [withFreq_setEdge]; exact .inl ⟨rfl, rfl, h.1⟩⟩
    · exact ⟨t', f', by rw [withFreq_setEdge]; exact .inr ⟨e, h⟩⟩

theorem groupOf_set {w : World} {t : Nat} {f f0 : ℚ} (h0 : (w.tr t).setFreq = some f0) : GroupOf w t f = GroupAt w t := by
  unfold GroupOf GroupAt SetConn
  rw [setRel_withFreq h0]

theorem loopFree_congr {w v : World} {X : Str → Prop} (h : LoopFree w X)
    (he : (fun a b => ∃ t f, SetEdge v a b t f) = (fun a b => ∃ t f, SetEdge w a b t f)) : LoopFree v X := by
  have h' : ∀ a b, (∃ t f, SetEdge v a b t f) ↔ (∃ t f, SetEdge w a b t f) := fun a b => iff_of_eq (congrFun (congrFun he a) b)
  refine ⟨?_, fun n t f hn hs => ?_⟩
  · have := h.1
    simp only [h']
    exact this
  · obtain ⟨t', f', h2⟩ := (h' n n).1 ⟨t, f, hs⟩
    exact h.2 n t' f' hn h2

/-- The ends of a set transition at the upper level. -/
theorem SetEdge.at_end {w : World} (hw : WF w) {n m : Str} {t' : Nat} {f' : ℚ} (he : SetEdge w n m t' f') :
    SetEdge w (w.lname (w.tr t').lower) (w.lname (w.tr t').upper) t' f' := by
  obtain ⟨_, _, _, _, k, _⟩ := hw.edge _ _ _ he.1
  rcases k with ⟨e1, e2⟩ | ⟨e1, e2⟩
  · rw [← e1, ← e2]; exact he
  · rw [← e1, ← e2]; exact he.symm hw

theorem retune_step {w : World} (hr : Reachable w) {σ : Ord'} (hσ : Shuffles σ) {t : Nat} {f : ℚ} (hs : Retunable w t) (hf : 0 < f)
    (hmir : ∀ n m t' f', SetEdge w n m t' f' → t' ≠ t → ¬Mirrored w t (w.eHz (w.tr t).lower + f) t' f') :
    ∃ w', setFrequency σ t f w = (w', .ok ()) ∧ Retunable w' t ∧ (∀ i, i ≠ (w.tr t).upper → w'.eHz i = w.eHz i) ∧
      w'.eHz (w.tr t).upper = w.eHz (w.tr t).lower + f ∧ w'.tr t = { w.tr t with setFreq := some f } ∧
      (∀ t', t' ≠ t → w'.tr t' = w.tr t') ∧ w'.g = w.g ∧ ∀ i, w'.lname i = w.lname i := by
  have hw := hr.wf
  obtain ⟨ht, ⟨f0, h0, h00⟩, habove, htree, hpin, hmet, hlow⟩ := hs
  have hG : GroupOf w t f = GroupAt w t := groupOf_set h0
  obtain ⟨es, s, is, out, hwp, hes, hsx, his, hlo, hsn, hgrow, hall, heq, hT, hT', hgl, hgu, hrel, hoff⟩ :=
    retune_setup' hr hσ ht h0 h00 (f := f) (by rw [hG]; exact loopFree_congr htree (setRel_withFreq h0)) (by rw [hG]; exact hpin)
  rw [hG] at hsx hlo hall hgl hgu
  have hpt : (prep w t f).tr t = { w.tr t with setFreq := some f } := by rw [prep_tr, withFreq_tr_same]
  have hpl : ((prep w t f).tr t).lower = (w.tr t).lower := by rw [hpt]
  have hpu : ((prep w t f).tr t).upper = (w.tr t).upper := by rw [hpt]
  have hln : ∀ i, (prep w t f).lname i = w.lname i := fun i => (prep_frame w t f).lname i
  obtain ⟨_, hb, hlL, hlU, k5, k6⟩ := hw.edge _ _ _ hT.1
  have hlu : (w.tr t).lower ≠ (w.tr t).upper := fun e => by rw [e] at habove; exact lt_irrefl _ habove
  have hsu : s ≠ w.lname (w.tr t).upper := by
    intro e
    rw [e] at his
    have := Option.some.inj (his.symm.trans hlU)
    have h2 := hlo.2 _ ⟨_, hgl, hlL⟩
    rw [this] at h2
    linarith
  have hfix : ∀ i, ((prep w t f).lv i).fixed = if i = (w.tr t).upper then false else (w.lv i).fixed := by
    intro i
    rw [prep_fixed]
    by_cases e : i = (w.tr t).upper
    · rw [if_pos ⟨hrel, e⟩, if_pos e]
    · rw [if_neg (fun h => e h.2), if_neg e]
  have hedge : ∀ n m t' f', t' ≠ t → (SetEdge (prep w t f) n m t' f' ↔ SetEdge w n m t' f') := by
    intro n m t' f' hne
    rw [prep_setEdge, withFreq_setEdge]
    exact ⟨fun h => h.elim (fun h => absurd h.1 hne) (·.2), fun h => .inr ⟨hne, h⟩⟩
  obtain ⟨w', e1, e2, e3⟩ := enfEdges_moved' hwp (GroupAt w t) (t := t) (f := f) (s := s)
    (by rw [hpl, hpu, hln, hln]; exact hT')
    (by rw [connOff_prep, hpl, hln, hsn]; exact hlow is hlo)
    (by rw [connOff_prep, hpl, hpu, hln, hln]; exact hoff)
    (by
      intro n m t' f' hn he hne hl hu
      rw [prep_tr, withFreq_tr_ne w hne, withFreq_tr_same] at hl hu
      rw [prep_tr, withFreq_tr_ne w hne, prep_eHz, prep_eHz]
      exact hmet n m t' f' hn ((hedge n m t' f' hne).1 he) hne hl hu)
    (by
      intro n m t' f' hn he hne hl
      rw [prep_tr, withFreq_tr_ne w hne, withFreq_tr_same] at hl
      rw [hpl, prep_tr, withFreq_tr_ne w hne, prep_eHz, prep_eHz]
      have hm := hmir n m t' f' ((hedge n m t' f' hne).1 he) hne
      by_cases hc : |w.eHz (w.tr t').upper - (w.eHz (w.tr t).lower + f)| = f'
      · refine .inl ?_
        rcases abs_cases (w.eHz (w.tr t').upper - (w.eHz (w.tr t).lower + f)) with ⟨q, q'⟩ | ⟨q, q'⟩
        · exact ⟨by linarith, by linarith⟩
        · exact absurd ⟨by linarith, .inl ⟨hl, by linarith⟩⟩ hm
      · exact .inr hc)
    (by
      intro n m t' f' hn he hne hl
      rw [prep_tr, withFreq_tr_ne w hne, withFreq_tr_same] at hl
      rw [hpl, prep_tr, withFreq_tr_ne w hne, prep_eHz, prep_eHz]
      have hm := hmir n m t' f' ((hedge n m t' f' hne).1 he) hne
      by_cases hc : |w.eHz (w.tr t).lower + f - w.eHz (w.tr t').lower| = f'
      · refine .inl ?_
        rcases abs_cases (w.eHz (w.tr t).lower + f - w.eHz (w.tr t').lower) with ⟨q, q'⟩ | ⟨q, q'⟩
        · exact ⟨by linarith, by linarith⟩
        · exact absurd ⟨by linarith, .inr ⟨hl, by linarith⟩⟩ hm
      · exact .inr hc)
    hgrow (prep w t f) (EFrame.refl _)
    (fun n m _ hm => (mem_subNbrs hwp hes n m).1 hm)
    (fun n m hn hm => by
      obtain ⟨t', f', he⟩ := (mem_subNbrs hwp hes n m).1 hm
      rw [prep_setEdge] at he
      rw [← hG] at hn ⊢
      exact hn.tail ⟨t', f', he⟩)
    (by intro n hn; rw [List.mem_singleton] at hn; rw [hn]; exact hsx)
    (by rw [hpl, hpu, hln, hln]; exact Front.start hsu)
    (by
      intro i hi hiu
      rw [hpu] at hiu
      rw [prep_inX] at hi
      refine ⟨rfl, ?_⟩
      rw [hfix, if_neg hiu]
      exact hpin i hi)
    (by rw [hpu, hln, List.mem_singleton]; exact fun e => absurd e.symm hsu)
    (by rw [hpu, hfix, if_pos rfl]; exact fun _ => rfl)
  rw [hpu, hpl, hln, prep_eHz] at e3
  rw [hpu] at e2
  obtain ⟨hup, hupfix⟩ : w'.eHz (w.tr t).upper = w.eHz (w.tr t).lower + f ∧ (w'.lv (w.tr t).upper).fixed = true := by
    apply e3
    rcases hall _ hgu with h | h
    · exact absurd h.symm hsu
    · exact .inr h
  obtain ⟨w2, g1, g2, g3, g4, g5⟩ := C39_only_group hr hσ f ht
  have hw2 : w2 = w' := by
    rw [heq, e1] at g1
    exact (Prod.mk.inj g1).1.symm
  subst hw2
  have hothers : ∀ i, i ≠ (w.tr t).upper → w2.eHz i = w.eHz i := by
    intro i hiu
    by_cases hi : InX w (GroupOf w t f) i
    · rw [e2 i ((prep_inX ..).2 (by rw [← hG]; exact hi)) hiu, prep_eHz]
    · exact g2 i hi
  have ha : (w.lv (w.tr t).e1).inAtom = true := by
    rcases k6 with ⟨e, _⟩ | ⟨e, _⟩
    · rw [e]; exact (hw.node _ _ hlL).2.1
    · rw [e]; exact (hw.node _ _ hlU).2.1
  obtain ⟨w3, g6, g7, _⟩ := setFrequency_frame' hw hσ hb ha (f := f)
  rw [g1] at g6
  simp only [Prod.mk.injEq, and_true] at g6
  subst g6
  have hname : ∀ i, w2.lname i = w.lname i := by
    intro i
    have e1 := g7.frame.term i
    have e2 := (prep_frame w t f).term i
    unfold lname
    rw [e1, e2]
  have hnew : ∀ {n m t' f'}, SetEdge w2 n m t' f' ↔ SetEdge (withFreq w t f) n m t' f' := by
    intro n m t' f'
    unfold SetEdge
    rw [g5]
    by_cases e : t' = t
    · subst e; rw [g4, withFreq_tr_same]; rfl
    · rw [g3 t' e, withFreq_tr_ne w e]; rfl
  have hrel2 : (fun a b => ∃ t' f', SetEdge w2 a b t' f') = (fun a b => ∃ t' f', SetEdge w a b t' f') := by
    simp only [hnew]
    exact setRel_withFreq h0
  have hG2 : GroupAt w2 t = GroupAt w t := by
    unfold GroupAt SetConn
    rw [hrel2, hname, g4]
  have hInX : ∀ i, InX w2 (GroupAt w t) i ↔ InX w (GroupAt w t) i := by
    intro i
    unfold InX
    rw [g5]
  have hconn : ConnOff w2 t = ConnOff w t := by
    rw [← connOff_prep w t f]
    unfold ConnOff
    simp only [hnew, prep_setEdge]
  have hpl2 : (w2.tr t).lower = (w.tr t).lower := by rw [g4]
  have hpu2 : (w2.tr t).upper = (w.tr t).upper := by rw [g4]
  refine ⟨w2, g1, ⟨?_, ⟨f, by rw [g4], hf.ne'⟩, ?_, ?_, ?_, ?_, ?_⟩, hothers, hup, g4, g3, g5, hname⟩
  · unfold InAtom
    rw [hname, hname, g5, g4]
    exact ht
  · rw [hpl2, hpu2, hup, hothers _ hlu]
    linarith
  · rw [hG2]
    exact loopFree_congr htree hrel2
  · intro i hi
    rw [hG2, hInX] at hi
    have h1 := g1
    rw [setFrequency_eq hb ha] at h1
    by_cases hiu : i = (w.tr t).upper
    · rw [hiu]; exact hupfix
    · have := C99_stays_pinned (prep w t f) σ (some (w.lname (w.tr t).e1, w.lname (w.tr t).e2)) i
        (by rw [prep_fixed, if_neg (fun h => hiu h.2)]; exact hpin i hi)
      rw [h1] at this
      exact this
  · intro n m t' f' hn he hne hl hu
    rw [hG2] at hn
    rw [hnew, withFreq_setEdge] at he
    rw [g3 t' hne, hpu2] at hl hu
    rw [g3 t' hne, hothers _ hl, hothers _ hu]
    rcases he with ⟨e, _⟩ | ⟨_, he⟩
    · exact absurd e hne
    · exact hmet n m t' f' hn he hne hl hu
  · rintro i ⟨hi, hmin⟩
    rw [hG2] at hi hmin
    rw [hInX] at hi
    rw [hconn, hname, hname, hpl2]
    have hl : w2.eHz i ≤ w.eHz (w.tr t).lower := by
      have := hmin _ ((hInX _).2 ⟨_, hgl, hlL⟩)
      rwa [hothers _ hlu] at this
    have hiu : i ≠ (w.tr t).upper := by
      rintro rfl
      rw [hup] at hl
      linarith
    refine hlow i ⟨hi, fun j hj => ?_⟩
    rw [← hothers i hiu]
    by_cases hju : j = (w.tr t).upper
    · rw [hju]; linarith
    · rw [← hothers j hju]
      exact hmin j ((hInX _).2 hj)

/-- The frequency `f` turns no set transition at the upper level of `t` upside down. -/
def NoMirror (w : World) (t : Nat) (f : ℚ) : Prop :=
  ∀ n m t' f', SetEdge w n m t' f' → t' ≠ t → ¬Mirrored w t (w.eHz (w.tr t).lower + f) t' f'

theorem noMirror_met {w : World} {t : Nat} {f f0 : ℚ} (h0 : w.eHz (w.tr t).upper - w.eHz (w.tr t).lower = f0)
    (hmet : ∀ n m t' f', SetEdge w n m t' f' → w.eHz (w.tr t').upper - w.eHz (w.tr t').lower = f')
    (h : ∀ n m t' f', SetEdge w n m t' f' → t' ≠ t → (w.tr t').lower = (w.tr t).upper ∨ (w.tr t').upper = (w.tr t).upper → 2 * f' ≠ |f - f0|) :
    NoMirror w t f := by
  rintro n m t' f' he hne ⟨hp, ⟨e, hm⟩ | ⟨e, hm⟩⟩
  · have := hmet n m t' f' he
    rw [e] at this
    refine h n m t' f' he hne (.inl e) ?_
    rw [abs_of_nonneg (by linarith)]
    linarith
  · have := hmet n m t' f' he
    rw [e] at this
    refine h n m t' f' he hne (.inr e) ?_
    rw [abs_of_nonpos (by linarith)]
    linarith

/-- C156 inside a tree: however many positive frequencies are set one after another, in the end only the last one counts, although the set
transitions at the moved level are broken in between.  Missing: frequencies that turn one of these upside down (`C37_mirror`), groups with loops. -/
theorem C156_tree_partial {w : World} (hr : Reachable w) {t : Nat} (hs : Retunable w t) (l : List (Ord' × ℚ)) {σ : Ord'} {f : ℚ}
    (hl : ∀ p ∈ l, Shuffles p.1 ∧ 0 < p.2 ∧ NoMirror w t p.2) (hσ : Shuffles σ) (hf : 0 < f) (hm : NoMirror w t f) :
    let w' := runAll (scanOps t (l ++ [(σ, f)])) w
    (∀ i, i ≠ (w.tr t).upper → w'.eHz i = w.eHz i) ∧ w'.eHz (w.tr t).upper - w'.eHz (w.tr t).lower = f ∧
      w'.tr t = { w.tr t with setFreq := some f } ∧ (∀ t', t' ≠ t → w'.tr t' = w.tr t') ∧ Retunable w' t := by
  have hlu : (w.tr t).lower ≠ (w.tr t).upper := fun e => by have := hs.above; rw [e] at this; exact lt_irrefl _ this
  induction l generalizing w with
  | nil =>
    obtain ⟨w', h1, h2, h3, h4, h5, h6, _⟩ := retune_step hr hσ hs hf hm
    have : runAll (scanOps t ([] ++ [(σ, f)])) w = w' := by
      show (setFrequency σ t f w).1 = w'
      rw [h1]
    intro w''
    rw [show w'' = w' from this]
    exact ⟨h3, by rw [h4, h3 _ hlu]; ring, h5, h6, h2⟩
  | cons p l ih =>
    obtain ⟨p1, p2, p3⟩ := hl p List.mem_cons_self
    obtain ⟨w', h1, h2, h3, h4, h5, h6, h7, h8⟩ := retune_step hr p1 hs p2 p3
    have e : (Op.run (.setFrequency p.1 t p.2) w).1 = w' := by
      show (setFrequency p.1 t p.2 w).1 = w'
      rw [h1]
    have hr' : Reachable w' := e ▸ Reachable.step (.setFrequency p.1 t p.2) hr trivial
    have hNM : ∀ q, NoMirror w t q → NoMirror w' t q := by
      rintro q hq n m t' f' he hne hmir
      have he' : SetEdge w n m t' f' := ⟨by rw [← h7]; exact he.1, by rw [← h6 t' hne]; exact he.2⟩
      apply hq n m t' f' he' hne
      have hmm := hmir.2
      -- the transition has two different ends
      have hends : (w.tr t').lower = (w.tr t).upper → (w.tr t').upper ≠ (w.tr t).upper := by
        intro a b
        have hse := SetEdge.at_end hr.wf he'
        rw [a, b] at hse
        refine hs.tree.2 (w.lname (w.tr t).upper) t' f' ?_ hse
        obtain ⟨f0, h0, _⟩ := hs.isSet
        obtain ⟨_, _, _, _, _, k6⟩ := hr.wf.edge _ _ _ hs.inAtom
        unfold GroupAt
        rcases k6 with ⟨e1, e2⟩ | ⟨e1, e2⟩
        · rw [← e2]; exact .single ⟨t, f0, hs.inAtom, h0⟩
        · rw [← e1]
      refine ⟨hmir.1, ?_⟩
      rw [h6 t' hne, h5] at hmm
      rcases hmm with ⟨a, b⟩ | ⟨a, b⟩
      · refine .inl ⟨a, ?_⟩
        rw [h3 _ hlu, h3 _ (hends a)] at b
        exact b
      · refine .inr ⟨a, ?_⟩
        rw [h3 _ hlu, h3 _ (fun c => hends c a)] at b
        exact b
    have := ih hr' h2 (fun q hq => ⟨(hl q (List.mem_cons_of_mem _ hq)).1, (hl q (List.mem_cons_of_mem _ hq)).2.1,
      hNM _ (hl q (List.mem_cons_of_mem _ hq)).2.2⟩) (hNM _ hm) (by rw [h5]; exact hlu)
    intro w''
    have e2 : w'' = runAll (scanOps t (l ++ [(σ, f)])) w' := by
      show runAll (scanOps t (l ++ [(σ, f)])) (Op.run (.setFrequency p.1 t p.2) w).1 = _
      rw [e]
    rw [e2]
    obtain ⟨q1, q2, q3, q4, q5⟩ := this
    rw [h5] at q1 q2 q3
    exact ⟨fun i hi => (q1 i hi).trans (h3 i hi), q2, q3, fun t' hne => (q4 t' hne).trans (h6 t' hne), q5⟩

/-- C156 inside a tree: setting the frequency back after a scan restores every energy, whatever it broke in between. -/
theorem C156_tree_undo_partial {w : World} (hr : Reachable w) {t : Nat} (hs : Retunable w t) (l : List (Ord' × ℚ)) {σ : Ord'} {f0 : ℚ}
    (hl : ∀ p ∈ l, Shuffles p.1 ∧ 0 < p.2 ∧ NoMirror w t p.2) (hσ : Shuffles σ) (h0 : (w.tr t).setFreq = some f0)
    (hmet : ∀ n m t' f', SetEdge w n m t' f' → 0 ≤ f' ∧ w.eHz (w.tr t').upper - w.eHz (w.tr t').lower = f') :
    let w' := runAll (scanOps t (l ++ [(σ, f0)])) w
    (∀ i, w'.eHz i = w.eHz i) ∧ ∀ t', w'.tr t' = w.tr t' := by
  have hd := (hmet _ _ t f0 ⟨hs.inAtom, h0⟩).2
  have hf : 0 < f0 := by have := hs.above; linarith
  have hlu : (w.tr t).lower ≠ (w.tr t).upper := fun e => by have := hs.above; rw [e] at this; exact lt_irrefl _ this
  obtain ⟨h1, h2, h3, h4, _⟩ := C156_tree_partial hr hs l hl hσ hf (by
    rintro n m t' f' he hne ⟨hp, ⟨e, hm⟩ | ⟨e, hm⟩⟩
    · have := (hmet n m t' f' he).2
      rw [e] at this
      linarith
    · have := (hmet n m t' f' he).2
      rw [e] at this
      linarith)
  refine ⟨fun i => ?_, fun t' => ?_⟩
  · by_cases hi : i = (w.tr t).upper
    · have := h1 _ hlu
      rw [hi]
      linarith
    · exact h1 i hi
  · by_cases ht : t' = t
    · rw [ht, h3, ← h0]
    · exact h4 t' ht

/-! ### The hypotheses are met -/

/-- The transition g-a of the chain g-a-b at 0, 1, 2; its upper level has the other set transition. -/
theorem chain_retunable : Retunable chainDone 0 where
  inAtom := by decide +kernel
  isSet := ⟨1, by decide +kernel, by decide +kernel⟩
  above := by decide +kernel
  tree := loopFree_of_parent chainPar chainRk (by decide +kernel) _
  pinned := fun i hi => forall_level (w := chainDone) (P := fun i => (chainDone.lv i).fixed = true) (by decide +kernel) hi
  met := fun n m t' f' _ he _ _ _ => forall_setEdge (w := chainDone) (P := fun _ _ t' f' =>
    0 ≤ f' ∧ chainDone.eHz (chainDone.tr t').upper - chainDone.eHz (chainDone.tr t').lower = f') (by decide +kernel) he
  low := by
    rintro i ⟨hi, hlo⟩
    have h0 := hlo 0 ⟨demoName 'g', by
      have : demoName 'g' = chainDone.lname (chainDone.tr 0).e1 := by decide +kernel
      rw [this]; exact .refl, by decide +kernel⟩
    have : i = 0 := by
      have hc := forall_level (w := chainDone) (P := fun i => i ∈ [0, 1, 2]) (by decide +kernel) hi
      revert h0
      simp only [List.mem_cons, List.not_mem_nil, or_false] at hc
      rcases hc with rfl | rfl | rfl
      · intro _; rfl
      · intro h; exact absurd h (by decide +kernel)
      · intro h; exact absurd h (by decide +kernel)
    subst this
    have : chainDone.lname 0 = chainDone.lname (chainDone.tr 0).lower := by decide +kernel
    rw [this]

theorem chain_noMirror (f : ℚ) (hf : 2 ≠ |f - 1|) : NoMirror chainDone 0 f :=
  noMirror_met (f0 := 1) (by decide +kernel)
    (fun n m t' f' he => forall_setEdge (w := chainDone) (P := fun _ _ t' f' =>
      chainDone.eHz (chainDone.tr t').upper - chainDone.eHz (chainDone.tr t').lower = f') (by decide +kernel) he)
    (fun n m t' f' he _ _ => by
      have : f' = 1 := forall_setEdge (w := chainDone) (P := fun _ _ _ f' => f' = 1) (by decide +kernel) he
      rw [this, mul_one]; exact hf)

/-- Set to 4 the transition a-b is broken; set to 4, 7 and back to 1 everything is as before. -/
example : (∀ i, (runAll (scanOps 0 ([(idOrd, 4), (idOrd, 7)] ++ [(idOrd, 1)])) chainDone).eHz i = chainDone.eHz i) ∧
    (setFrequency idOrd 0 4 chainDone).1.freqHz 1 = 2 ∧ chainDone.freqHz 1 = 1 := by
  refine ⟨(C156_tree_undo_partial (demo_reachable (by decide +kernel)) chain_retunable _ (by
      intro p hp
      simp only [List.mem_cons, List.not_mem_nil, or_false] at hp
      rcases hp with rfl | rfl <;> exact ⟨idOrd_shuffles, by norm_num, chain_noMirror _ (by norm_num)⟩) idOrd_shuffles
      (by decide +kernel) (fun n m t' f' he => forall_setEdge (w := chainDone) (P := fun _ _ t' f' =>
        0 ≤ f' ∧ chainDone.eHz (chainDone.tr t').upper - chainDone.eHz (chainDone.tr t').lower = f') (by decide +kernel) he)).1, ?_, ?_⟩ <;>
    decide +kernel

end AtomTk
