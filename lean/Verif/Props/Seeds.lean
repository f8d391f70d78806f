import Verif.Props.Warnings

/-!
# C161: the same program gives the same atom in every run

Python's sets of strings are iterated in an order that changes from run to run (hash randomisation), and `enforce_consistency` iterates sets: the nodes of
a component when it looks for the lowest level, the components, and the neighbours in the search (networkx' subgraph views).  In the model these orders
are the argument `σ`.
-/

namespace AtomTk
open Util World

/-- The levels with a set transition to another level. -/
def HasPartner (w : World) (i : Nat) : Prop := ∃ n m t f, w.g.lev n = some i ∧ SetEdge w n m t f ∧ n ≠ m

/-- Some edge of the list ends at the level. -/
def Touched (w : World) (l : List (Str × Str)) (i : Nat) : Prop := ∃ e ∈ l, w.g.lev e.1 = some i ∨ w.g.lev e.2 = some i

theorem touched_cons (w : World) (e : Str × Str) (l : List (Str × Str)) (i : Nat) :
    Touched w (e :: l) i ↔ (w.g.lev e.1 = some i ∨ w.g.lev e.2 = some i) ∨ Touched w l i := by
  unfold Touched; simp

/-- What a list of edges does to the levels it does not touch, and to the pinning of those it does. -/
theorem enfEdges_touch {w0 : World} (hw : WF w0) (l : List (Str × Str)) : ∀ (w : World), EFrame w0 w →
    (∀ e ∈ l, ∃ t f, SetEdge w0 e.1 e.2 t f) →
    ∃ w', enfEdges l w = (w', .ok ()) ∧ EFrame w0 w' ∧ (∀ i, ¬Touched w0 l i → w'.lv i = w.lv i) ∧
      (∀ i, (w'.lv i).fixed = true ↔ (w.lv i).fixed = true ∨ Touched w0 l i) := by
  induction l with
  | nil => intro w hf _; exact ⟨w, rfl, hf, fun _ _ => rfl, fun i => by simp [Touched]⟩
  | cons e l ih =>
    intro w hf hl
    obtain ⟨u, v⟩ := e
    obtain ⟨t, f, he⟩ := hl _ (List.mem_cons_self ..)
    have he' : SetEdge w u v t f := (hf.setEdge _ _ _ _).2 he
    have hft : w.tr t = w0.tr t := by rw [hf.tr]
    obtain ⟨w', h1, h2, h3, h4⟩ := ih (enfStep w (w.tr t).lower (w.tr t).upper f) (hf.trans _ _ _ (enfStep_eframe w _ _ f))
      (fun e he => hl e (by simp [he]))
    obtain ⟨i0, j0, hi0, hj0, hij⟩ := he.levels hw
    have hends : ∀ i, (w0.g.lev u = some i ∨ w0.g.lev v = some i) ↔ (i = (w.tr t).lower ∨ i = (w.tr t).upper) := by
      intro i
      rw [hi0, hj0, hft]
      rcases hij with ⟨e1, e2⟩ | ⟨e1, e2⟩ <;> rw [← e1, ← e2] <;> simp only [Option.some.injEq] <;> constructor <;> rintro (h | h) <;> simp [h]
    refine ⟨w', ?_, h2, ?_, ?_⟩
    · unfold enfEdges
      rw [PyM.bind_ok (enfEdge_eq he')]
      exact h1
    · intro i hi
      rw [touched_cons, not_or, hends, not_or] at hi
      rw [h3 i hi.2, lv_enfStep_ne _ _ _ _ _ hi.1.1 hi.1.2]
    · intro i
      rw [h4 i, touched_cons, hends, fixed_enfStep]
      by_cases hc : i = (w.tr t).lower ∨ i = (w.tr t).upper
      · simp [hc]
      · simp [hc]

/-- In every atom, pinning does not depend on any order: after `enforce_consistency()` a level is pinned if it was before or has a set transition to
another level; and levels without set transitions are as before. -/
theorem C161_pinning {w : World} (hr : Reachable w) {σ : Ord'} (hσ : Shuffles σ) :
    ∃ w', enforce σ none w = (w', .ok ()) ∧ (∀ i, ¬HasPartner w i → w'.lv i = w.lv i) ∧
      ∀ i, (w'.lv i).fixed = true ↔ (w.lv i).fixed = true ∨ HasPartner w i := by
  have hw := hr.wf
  obtain ⟨l, h1, h2, hl, h3, h4⟩ := enforce_edges hw hσ none
  obtain ⟨w', k1, k2, k3, k4⟩ := enfEdges_touch hw l w (EFrame.refl w) h2
  have hT : ∀ i, Touched w l i ↔ HasPartner w i := by
    intro i
    constructor
    · rintro ⟨e, he, h⟩
      obtain ⟨t, f, hs⟩ := h2 e he
      rcases h with h | h
      · exact ⟨e.1, e.2, t, f, h, hs, hl e he⟩
      · exact ⟨e.2, e.1, t, f, h, hs.symm hw, (hl e he).symm⟩
    · rintro ⟨n, m, t, f, hn, hs, hne⟩
      have hc := h4 rfl n m t f hs
      rcases Relation.ReflTransGen.cases_head hc with rfl | ⟨x, hx, _⟩
      · exact absurd rfl hne
      · rcases hx with hx | hx
        · exact ⟨_, hx, .inl hn⟩
        · exact ⟨_, hx, .inr hn⟩
  exact ⟨w', h1.trans k1, fun i hi => k3 i (by rw [hT]; exact hi), fun i => by rw [k4 i, hT]⟩

/-- The set frequencies of the group of `v` decide where its levels go: they can be met with every transition the way round it was built, and either
nothing is pinned, no transition is upside down, and one level is lower than all others; or some levels are pinned, where they belong, among them the lowest
ones or one end of each transition. -/
def Decided (w : World) (v : Str) : Prop :=
  ∃ φ, Potential w (SetConn w v) φ ∧
    ((Unpinned w v ∧ Oriented w (SetConn w v) ∧
        ∃ i, InX w (SetConn w v) i ∧ ∀ j, InX w (SetConn w v) j → j ≠ i → w.eHz i < w.eHz j) ∨
      ((∃ i, InX w (SetConn w v) i ∧ (w.lv i).fixed = true) ∧
        (∀ i, InX w (SetConn w v) i → (w.lv i).fixed = true → w.eHz i = φ i) ∧
        ((∀ i, Lowest w (SetConn w v) i → (w.lv i).fixed = true) ∨
          ∀ n m t f, SetConn w v n → SetEdge w n m t f → (w.lv (w.tr t).lower).fixed = true ∨ (w.lv (w.tr t).upper).fixed = true)))

theorem Decided.conn {w : World} (hw : WF w) {u v : Str} (h : Decided w u) (huv : SetConn w u v) : Decided w v := by
  have : SetConn w u = SetConn w v := by
    funext n
    exact propext ⟨fun k => (SetConn.symm hw huv).trans k, fun k => huv.trans k⟩
  unfold Decided Unpinned at h ⊢
  rw [← this]
  exact h

theorem Decided.ready {w : World} (hw : WF w) {v : Str} (h : Decided w v) : Ready w (SetConn w v) := by
  obtain ⟨φ, h1, h2⟩ := h
  refine ⟨φ, h1, ?_⟩
  rcases h2 with ⟨hu, _⟩ | ⟨_, ha, hb⟩
  · exact .inl hu
  · refine .inr ⟨ha, ?_⟩
    rcases hb with hb | hb
    · exact .inl (fun i hi hlo => hb i ⟨hi, hlo⟩)
    · refine .inr ?_
      intro n m t f i j hn hm he _ hi hj
      obtain ⟨i', j', hi', hj', hij⟩ := he.levels hw
      rw [hi] at hi'; rw [hj] at hj'
      cases hi'; cases hj'
      rcases hij with ⟨e1, e2⟩ | ⟨e1, e2⟩ <;> rw [e1, e2]
      · exact hb n m t f hn he
      · exact (hb n m t f hn he).symm

/-- Two outcomes that meet the same frequencies and agree at one level agree on the group. -/
theorem agree_group {w a b : World} (hw : WF w) {v : Str} (ha : Done w a (SetConn w v)) (hb : Done w b (SetConn w v)) {i : Nat}
    (hi : InX w (SetConn w v) i) (he : a.eHz i = b.eHz i) : ∀ j, InX w (SetConn w v) j → a.eHz j = b.eHz j := by
  obtain ⟨n, hn, hni⟩ := hi
  rintro j ⟨m, hm, hmj⟩
  have hnm : SetConn w n m := (SetConn.symm hw hn).trans hm
  clear hm
  induction hnm generalizing j with
  | refl => rw [hni] at hmj; cases hmj; exact he
  | @tail x y hx hxy ih =>
    obtain ⟨t, f, hs⟩ := hxy
    obtain ⟨i', j', hi', hj', hij⟩ := hs.levels hw
    have h1 := ih i' hi'
    rw [hmj] at hj'
    cases hj'
    have r1 := (ha.real x y t f (hn.trans hx) hs).2
    have r2 := (hb.real x y t f (hn.trans hx) hs).2
    rcases hij with ⟨e1, e2⟩ | ⟨e1, e2⟩ <;> rw [e1] at h1 <;> rw [e2] <;> linarith

theorem enfEdge_counts (u v : Str) (w : World) : (enfEdge u v w).1.nhf = w.nhf ∧ (enfEdge u v w).1.nzl = w.nzl := by
  unfold enfEdge
  split
  · exact ⟨rfl, rfl⟩
  · split
    · exact ⟨rfl, rfl⟩
    · dsimp only
      split
      · exact ⟨rfl, rfl⟩
      · split <;> exact ⟨rfl, rfl⟩

theorem enfEdges_counts (l : List (Str × Str)) (w : World) : (enfEdges l w).1.nhf = w.nhf ∧ (enfEdges l w).1.nzl = w.nzl := by
  induction l generalizing w with
  | nil => exact ⟨rfl, rfl⟩
  | cons e l ih =>
    have h0 := enfEdge_counts e.1 e.2 w
    unfold enfEdges
    rcases h : enfEdge e.1 e.2 w with ⟨w1, _ | _⟩
    · rw [PyM.bind_err h]; rw [h] at h0; exact h0
    · rw [PyM.bind_ok h]; rw [h] at h0
      exact ⟨(ih w1).1.trans h0.1, (ih w1).2.trans h0.2⟩

/-- Levels without partner are not touched, whatever the trigger. -/
theorem enforce_lonely {w : World} (hw : WF w) {σ : Ord'} (hσ : Shuffles σ) (trig : Option (Str × Str)) :
    ∃ w', enforce σ trig w = (w', .ok ()) ∧ (∀ i, ¬HasPartner w i → w'.lv i = w.lv i) ∧ w'.nhf = w.nhf ∧ w'.nzl = w.nzl := by
  obtain ⟨l, h1, h2, hl, _, _⟩ := enforce_edges hw hσ trig
  obtain ⟨w', k1, _, k3, _⟩ := enfEdges_touch hw l w (EFrame.refl w) h2
  have hc := enfEdges_counts l w
  rw [k1] at hc
  refine ⟨w', h1.trans k1, fun i hi => k3 i ?_, hc.1, hc.2⟩
  rintro ⟨e, he, h⟩
  obtain ⟨t, f, hs⟩ := h2 e he
  rcases h with h | h
  · exact hi ⟨e.1, e.2, t, f, h, hs, hl e he⟩
  · exact hi ⟨e.2, e.1, t, f, h, hs.symm hw, (hl e he).symm⟩

/-- The enforcement from a well-formed state, with or without a triggering transition, when the groups concerned are decided. -/
theorem enforce_agree {w : World} (hw : WF w) {σ σ' : Ord'} (hσ : Shuffles σ) (hσ' : Shuffles σ') (trig : Option (Str × Str))
    (ht : ∀ p, trig = some p → ∃ t f, SetEdge w p.1 p.2 t f)
    (h : ∀ v, (∃ m t f, SetEdge w v m t f) → (∀ p, trig = some p → SetConn w v p.1) → Decided w v) :
    enforce σ trig w = enforce σ' trig w := by
  obtain ⟨a, a1, a2, a6, a7⟩ := enforce_lonely hw hσ trig
  obtain ⟨b, b1, b2, b6, b7⟩ := enforce_lonely hw hσ' trig
  obtain ⟨a', a4, a5⟩ := enforce_silent hw hσ trig (fun v hv hc => .inl ((h v hv hc).ready hw))
  obtain ⟨b', b4, b5⟩ := enforce_silent hw hσ' trig (fun v hv hc => .inl ((h v hv hc).ready hw))
  rw [a1] at a4
  rw [b1] at b4
  cases a4; cases b4
  obtain ⟨x, x1, x2, x4, _⟩ := enforce_group hw hσ trig []
  obtain ⟨y, y1, y2, y4, _⟩ := enforce_group hw hσ' trig []
  rw [a1] at x1
  rw [b1] at y1
  cases x1; cases y1
  have hlv : a.lv = b.lv := by
    funext i
    by_cases hin : ∀ p, trig = some p → InX w (SetConn w p.1) i
    · by_cases hp : HasPartner w i
      · obtain ⟨n, m, t, f, hn, hs, hne⟩ := hp
        have hc : ∀ p, trig = some p → SetConn w n p.1 := by
          intro p hp
          obtain ⟨n', hn', hni⟩ := hin p hp
          rw [lev_inj hw hn hni]
          exact SetConn.symm hw hn'
        obtain ⟨x, x1, _, _, x3⟩ := enforce_group hw hσ trig n
        obtain ⟨y, y1, _, _, y3⟩ := enforce_group hw hσ' trig n
        rw [a1] at x1
        rw [b1] at y1
        cases x1; cases y1
        have hd := h n ⟨m, t, f, hs⟩ hc
        have da := x3 (fun p hp => ⟨hc p hp, ht p hp⟩) ⟨m, t, f, hs⟩ (hd.ready hw)
        have db := y3 (fun p hp => ⟨hc p hp, ht p hp⟩) ⟨m, t, f, hs⟩ (hd.ready hw)
        have hE : a.eHz i = b.eHz i := by
          obtain ⟨φ, _, hc⟩ := hd
          rcases hc with ⟨hu, ho, i0, hi0, hlow⟩ | ⟨⟨i0, hi0, hf0⟩, _⟩
          · obtain ⟨p, p1, p2, p3⟩ := da.lowest hu ho
            obtain ⟨q, q1, q2, q3⟩ := db.lowest hu ho
            have hp0 : p = i0 := by
              by_contra hne; exact absurd (p2 i0 hi0) (not_le.2 (hlow p p1 hne))
            have hq0 : q = i0 := by
              by_contra hne; exact absurd (q2 i0 hi0) (not_le.2 (hlow q q1 hne))
            subst hp0; subst hq0
            exact agree_group hw da db p1 (p3.trans q3.symm) i ⟨n, .refl, hn⟩
          · exact agree_group hw da db hi0 ((da.kept i0 hi0 hf0).trans (db.kept i0 hi0 hf0).symm) i ⟨n, .refl, hn⟩
        obtain ⟨E, c, hEc⟩ := x2.lv i
        obtain ⟨E', c', hEc'⟩ := y2.lv i
        have hfa := da.pinned n m t f i .refl hs hne hn
        have hfb := db.pinned n m t f i .refl hs hne hn
        unfold World.eHz at hE
        rw [hEc] at hE hfa
        rw [hEc'] at hE hfb
        simp only at hE hfa hfb
        rw [hEc, hEc', hE, hfa, hfb]
      · rw [a2 i hp, b2 i hp]
    · push Not at hin
      obtain ⟨p, hp, hi⟩ := hin
      rw [x4 p hp i hi, y4 p hp i hi]
  rw [a1, b1]
  refine Prod.ext ?_ rfl
  obtain ⟨⟩ := a
  obtain ⟨⟩ := b
  have e1 := x2.I.trans y2.I.symm
  have e2 := x2.B.trans y2.B.symm
  have e3 := x2.nlv.trans y2.nlv.symm
  have e4 := a6.trans b6.symm
  have e5 := x2.hf.trans y2.hf.symm
  have e6 := a7.trans b7.symm
  have e7 := x2.zl.trans y2.zl.symm
  have e8 := x2.ntr.trans y2.ntr.symm
  have e9 := x2.tr.trans y2.tr.symm
  have e10 := x2.g.trans y2.g.symm
  have e11 := x2.lalias.trans y2.lalias.symm
  have e12 := x2.talias.trans y2.talias.symm
  have e13 := a5.trans b5.symm
  simp only at hlv e1 e2 e3 e4 e5 e6 e7 e8 e9 e10 e11 e12 e13
  simp only [World.mk.injEq]
  exact ⟨e1, e2, e3, hlv, e4, e5, e6, e7, e8, e9, e10, e11, e12, e13⟩

/-- C161 (what holds): when the set frequencies of every group decide where its levels go, `enforce_consistency()` has the same outcome in every run: the
same energies, the same pinning, no warnings, everything.  Missing: groups with two lowest levels, loops that cannot be met, pinned levels in the wrong
place; see `C161_fails` and `C161_loop`. -/
theorem C161_same_partial {w : World} (hr : Reachable w) {σ σ' : Ord'} (hσ : Shuffles σ) (hσ' : Shuffles σ')
    (h : ∀ v, (∃ m t f, SetEdge w v m t f) → Decided w v) : enforce σ none w = enforce σ' none w :=
  enforce_agree hr.wf hσ hσ' none (by simp) (fun v hv _ => h v hv)

/-! ## Whole programs -/

/-- The call without the order in which it meets the elements of sets. -/
def orderless : Op → Op
  | .addTransition _ t => .addTransition (fun _ l => l) t
  | .setFrequency _ t f => .setFrequency (fun _ l => l) t f
  | .enforce _ => .enforce (fun _ l => l)
  | op => op

/-- The orders of a call are orders. -/
def OrdersOk : Op → Prop
  | .addTransition σ _ => Shuffles σ
  | .setFrequency σ _ _ => Shuffles σ
  | .enforce σ => Shuffles σ
  | _ => True

/-- The state in which `add_transition` calls `enforce_consistency`, if it does. -/
def listed (w : World) (t : Nat) : World := ((do trAddToAtom t; regTAlias t : PyM Unit) w).1

/-- When the call enforces, the groups it enforces are decided. -/
def Clear (w : World) : Op → Prop
  | .addTransition _ t => (w.tr t).setFreq ≠ none → ∀ v, (∃ m t' f, SetEdge (listed w t) v m t' f) → Decided (listed w t) v
  | .setFrequency _ t f => InAtom w t ∧ Decided (prep w t f) (w.lname (w.tr t).e1)
  | .enforce _ => ∀ v, (∃ m t f, SetEdge w v m t f) → Decided w v
  | _ => True

/-- Every call of a program is made in a state in which it is clear. -/
def ClearAll : List Op → World → Prop
  | [], _ => True
  | op :: ops, w => Clear w op ∧ ClearAll ops (op.run w).1

theorem addTransition_split (σ : Ord') (t : Nat) (w : World) :
    World.addTransition σ t w = ((do trAddToAtom t; regTAlias t : PyM Unit) >>= fun _ => enforceIfSet σ t) w := by
  unfold World.addTransition
  rcases h1 : trAddToAtom t w with ⟨w1, _ | _⟩
  · rw [PyM.bind_err h1, PyM.bind_err (PyM.bind_err h1)]
  · rw [PyM.bind_ok h1]
    rcases h2 : regTAlias t w1 with ⟨w2, _ | _⟩
    · rw [PyM.bind_err h2, PyM.bind_err ((PyM.bind_ok h1).trans h2)]
    · rw [PyM.bind_ok h2, PyM.bind_ok ((PyM.bind_ok h1).trans h2)]

theorem listed_wf {w : World} (hr : Reachable w) {t : Nat} (hs : (Op.addTransition (fun _ l => l) t).Sane w) : WF (listed w t) := by
  obtain ⟨h1, h2, h3, h4⟩ := hs
  have h := hr.wf.trAddToAtom t h1 h2 h3 h4 (hr.inv.2 t h1)
  unfold listed
  rcases k : trAddToAtom t w with ⟨w1, _ | _⟩
  · rw [PyM.bind_err k]; rw [k] at h; exact h
  · rw [PyM.bind_ok k]; rw [k] at h; exact h.frame (regTAlias_frame t w1)

theorem listed_tr (w : World) (t : Nat) : (listed w t).tr = w.tr := by
  unfold listed
  have h0 : (trAddToAtom t w).1.tr = w.tr := by rw [trAddToAtom_fst]
  rcases k : trAddToAtom t w with ⟨w1, _ | _⟩
  · rw [PyM.bind_err k]; rw [k] at h0; exact h0
  · rw [PyM.bind_ok k]; rw [k] at h0
    rw [← h0]
    unfold regTAlias
    split <;> rfl

/-- One call. -/
theorem call_same {w : World} (hr : Reachable w) {a b : Op} (hab : orderless a = orderless b) (ha : OrdersOk a) (hb : OrdersOk b) (hs : a.Sane w)
    (hc : Clear w a) : a.run w = b.run w := by
  cases a
  case addTransition σ t =>
    cases b <;> simp only [orderless, Op.addTransition.injEq, true_and, reduceCtorEq] at hab
    subst hab
    rename_i σ'
    show World.addTransition σ t w = World.addTransition σ' t w
    rw [addTransition_split, addTransition_split]
    rcases h1 : (do trAddToAtom t; regTAlias t : PyM Unit) w with ⟨w1, _ | _⟩
    · rw [PyM.bind_err h1, PyM.bind_err h1]
    · rw [PyM.bind_ok h1, PyM.bind_ok h1]
      have hl : w1 = listed w t := by unfold listed; rw [h1]
      subst hl
      unfold enforceIfSet
      rw [listed_tr]
      split
      · rcases hq : (w.tr t).setFreq with _ | q
        · rfl
        · exact enforce_agree (listed_wf hr hs) ha hb none (by simp) (fun v hv _ => hc (by rw [hq]; simp) v hv)
      · rfl
  case setFrequency σ t f =>
    cases b <;> simp only [orderless, Op.setFrequency.injEq, true_and, reduceCtorEq] at hab
    obtain ⟨rfl, rfl⟩ := hab
    rename_i σ'
    show World.setFrequency σ t f w = World.setFrequency σ' t f w
    have hw := hr.wf
    obtain ⟨hA, hd⟩ := hc
    obtain ⟨k1, hb', k3, k4, k5, k6⟩ := hw.edge _ _ _ hA
    have ha' : (w.lv (w.tr t).e1).inAtom = true := by
      rcases k6 with ⟨e, _⟩ | ⟨e, _⟩
      · rw [e]; exact (hw.node _ _ k3).2.1
      · rw [e]; exact (hw.node _ _ k4).2.1
    rw [setFrequency_eq hb' ha', setFrequency_eq hb' ha']
    have hwp := hw.frame (prep_frame w t f)
    refine enforce_agree hwp ha hb _ ?_ ?_
    · intro p hp
      cases hp
      refine ⟨t, f, ?_, ?_⟩
      · rw [prep_g]; exact hA
      · rw [prep_tr, withFreq_tr_same]
    · intro v hv hcn
      have := hcn _ rfl
      exact hd.conn hwp (SetConn.symm hwp this)
  case enforce σ =>
    cases b <;> simp only [orderless, reduceCtorEq] at hab
    rename_i σ'
    exact C161_same_partial hr ha hb hc
  all_goals
    cases b <;> first
      | (simp only [orderless, reduceCtorEq] at hab; done)
      | (simp only [orderless] at hab; rw [hab])

/-- C161 for programs: two runs of the same program, which meet the elements of sets in different orders, leave the same atom. -/
theorem C161_program_partial {a b : List Op} {w : World} (hr : Reachable w) (hab : a.map orderless = b.map orderless) (ha : ∀ op ∈ a, OrdersOk op)
    (hb : ∀ op ∈ b, OrdersOk op) (hs : SaneAll a w) (hc : ClearAll a w) : runAll a w = runAll b w := by
  induction a generalizing b w with
  | nil =>
    cases b with
    | nil => rfl
    | cons _ _ => simp at hab
  | cons x a ih =>
    cases b with
    | nil => simp at hab
    | cons y b =>
      simp only [List.map_cons, List.cons.injEq] at hab
      have h1 := call_same hr hab.1 (ha x (by simp)) (hb y (by simp)) hs.1 hc.1
      show runAll a (x.run w).1 = runAll b (y.run w).1
      rw [← h1]
      exact ih (.step x hr hs.1) hab.2 (fun op h => ha op (by simp [h])) (fun op h => hb op (by simp [h])) hs.2 hc.2

/-- The hypothesis is met by the chain g-a-b at 0, 1, 2 with g-a set to 4 and a-b set to 1; a and b then move. -/
theorem chain_decided (v : Str) (h : ∃ m t f, SetEdge (chain 4 1) v m t f) : Decided (chain 4 1) v := by
  obtain ⟨m, t, f, he⟩ := h
  have hv : v = demoName 'g' ∨ v = demoName 'a' ∨ v = demoName 'b' :=
    forall_setEdge (w := chain 4 1) (P := fun n _ _ _ => n = demoName 'g' ∨ n = demoName 'a' ∨ n = demoName 'b') (by decide +kernel) he
  have hag : SetEdge (chain 4 1) (demoName 'a') (demoName 'g') 0 4 := by decide +kernel
  have hba : SetEdge (chain 4 1) (demoName 'b') (demoName 'a') 1 1 := by decide +kernel
  have hc : SetConn (chain 4 1) v (demoName 'g') := by
    rcases hv with rfl | rfl | rfl
    · exact .refl
    · exact .single ⟨_, _, hag⟩
    · exact (Relation.ReflTransGen.single ⟨_, _, hba⟩).tail ⟨_, _, hag⟩
  refine ⟨fun i => if i = 0 then 0 else if i = 1 then 4 else 5, ?_, .inl ⟨?_, ?_, 0, ⟨_, hc, by decide +kernel⟩, ?_⟩⟩
  · intro n m t f _ he
    exact forall_setEdge (w := chain 4 1) (P := fun _ _ t f => 0 ≤ f ∧ (if ((chain 4 1).tr t).upper = 0 then (0 : ℚ) else
      if ((chain 4 1).tr t).upper = 1 then 4 else 5) - (if ((chain 4 1).tr t).lower = 0 then 0 else if ((chain 4 1).tr t).lower = 1 then 4 else 5) = f)
      (by decide +kernel) he
  · intro i hi
    exact forall_level (w := chain 4 1) (P := fun i => ((chain 4 1).lv i).fixed = false) (by decide +kernel) hi
  · intro n m t f _ he
    exact forall_setEdge (w := chain 4 1) (P := fun _ _ t _ => (chain 4 1).eHz ((chain 4 1).tr t).lower ≤ (chain 4 1).eHz ((chain 4 1).tr t).upper)
      (by decide +kernel) he
  · intro j hj
    exact forall_level (w := chain 4 1) (P := fun j => j ≠ 0 → (chain 4 1).eHz 0 < (chain 4 1).eHz j) (by decide +kernel) hj

example : enforce idOrd none (chain 4 1) = enforce (fun _ l => l.reverse) none (chain 4 1) ∧ (enforce idOrd none (chain 4 1)).1.eHz 2 = 5 :=
  ⟨C161_same_partial (demo_reachable (by decide +kernel)) idOrd_shuffles (fun _ l => l.reverse_perm) chain_decided, by decide +kernel⟩

/-- A program: build the chain, enforce, name a level, change a constant. -/
def chainProgram (σ : Ord') : List Op := chainOps 4 1 ++ [.enforce σ, .setAlias (.fine 2) ['x'], .setConsts 1 2 3 0 0]

example (σ : Ord') (hσ : Shuffles σ) : runAll (chainProgram σ) (emptyAtom 0 0) = runAll (chainProgram idOrd) (emptyAtom 0 0) := by
  symm
  refine C161_program_partial (.empty 0 0) rfl ?_ ?_ (by decide +kernel) ?_
  · simp [chainProgram, chainOps, threeLevels, OrdersOk, idOrd_shuffles]
  · simp [chainProgram, chainOps, threeLevels, OrdersOk, hσ]
  · exact ⟨trivial, trivial, trivial, trivial, trivial, trivial, trivial, trivial, chain_decided, trivial, trivial, trivial⟩

/-! ## Where it fails -/

/-- The full claim. -/
def C161_full : Prop := ∀ (w : World) (σ σ' : Ord'), Reachable w → Shuffles σ → Shuffles σ' →
  ∀ i, (enforce σ none w).1.eHz i = (enforce σ' none w).1.eHz i

/-- Every set is iterated backwards. -/
def revOrd : Ord' := fun _ l => l.reverse

theorem revOrd_shuffles : Shuffles revOrd := fun _ l => l.reverse_perm

/-- The nodes of a component are looked through backwards. -/
def lowOrd : Ord'
  | .low _, l => l.reverse
  | _, l => l

theorem lowOrd_shuffles : Shuffles lowOrd := by
  intro t l
  cases t
  · exact .refl _
  · exact l.reverse_perm
  · exact .refl _

/-- g and b at 0, a at 1; g-a set to 1 and b-a set to 3. -/
def twoLowest : World := demoAtom 0 1 0 [(0, 1, 1), (2, 1, 3)]

/-- C161 fails: with two lowest levels the one that is met first stays; in one order a goes to 1 and b to -2, in the other a goes to 3 and g to 2. -/
theorem C161_fails : ¬C161_full := by
  intro h
  have := h twoLowest idOrd lowOrd (demo_reachable (by decide +kernel)) idOrd_shuffles lowOrd_shuffles 1
  revert this
  decide +kernel

example : ((enforce idOrd none twoLowest).1.eHz 0, (enforce idOrd none twoLowest).1.eHz 1, (enforce idOrd none twoLowest).1.eHz 2) = (0, 1, -2) ∧
    ((enforce lowOrd none twoLowest).1.eHz 0, (enforce lowOrd none twoLowest).1.eHz 1, (enforce lowOrd none twoLowest).1.eHz 2) = (2, 3, 0) := by
  decide +kernel

/-- A loop that cannot be met, with one lowest level: the order of the neighbours decides. -/
theorem C161_loop : (enforce idOrd none (triangle 5)).1.eHz 2 = 2 ∧ (enforce revOrd none (triangle 5)).1.eHz 2 = 5 := by decide +kernel

end AtomTk
