import Verif.Model.BadFreq
import Verif.Props.Warnings
import Verif.Props.Seeds

/-!
# C170: frequencies that cannot be converted
-/

namespace AtomTk
open Util World

/-! ## The walk with frequencies that raise -/

theorem enfEdgesB_app (bad : Bad) (l l' : List (Str × Str)) (w : World) :
    enfEdgesB bad (l ++ l') w = (enfEdgesB bad l >>= fun _ => enfEdgesB bad l') w := by
  induction l generalizing w with
  | nil => rfl
  | cons e l ih =>
    obtain ⟨u, v⟩ := e
    simp only [List.cons_append, enfEdgesB]
    rcases h : enfEdgeB bad u v w with ⟨w1, x | x⟩
    · rw [PyM.bind_err h, PyM.bind_err (PyM.bind_err h)]
    · rw [PyM.bind_ok h, ih w1]
      rcases h2 : enfEdgesB bad l w1 with ⟨w2, y | y⟩
      · rw [PyM.bind_err h2, PyM.bind_err (by rw [PyM.bind_ok h]; exact h2)]
      · rw [PyM.bind_ok h2, PyM.bind_ok (by rw [PyM.bind_ok h]; exact h2)]

/-- A walk over set transitions between levels of `X` returns and changes nothing else. -/
theorem enfEdges_state {w : World} (hw : WF w) {X : Str → Prop} {l : List (Str × Str)}
    (hl : ∀ e ∈ l, (∃ t f, SetEdge w e.1 e.2 t f) ∧ X e.1 ∧ X e.2) :
    ∃ w', enfEdges l w = (w', .ok ()) ∧ EFrame w w' ∧ ∀ i, ¬InX w X i → w'.lv i = w.lv i := by
  induction l generalizing w with
  | nil => exact ⟨w, rfl, .refl w, fun _ _ => rfl⟩
  | cons e l ih =>
    obtain ⟨u, v⟩ := e
    obtain ⟨⟨t, f, he⟩, hu, hv⟩ := hl (u, v) (by simp)
    have hf := enfStep_eframe w (w.tr t).lower (w.tr t).upper f
    obtain ⟨w', h1, h2, h3⟩ := ih (w := enfStep w (w.tr t).lower (w.tr t).upper f) (hw.frame hf.frame) (fun e h => by
      obtain ⟨⟨t', f', q⟩, q2⟩ := hl e (by simp [h])
      exact ⟨⟨t', f', (hf.setEdge _ _ _ _).2 q⟩, q2⟩)
    refine ⟨w', ?_, hf.trans _ _ _ h2, ?_⟩
    · simp only [enfEdges]
      rw [PyM.bind_ok (enfEdge_eq he)]
      exact h1
    · intro i hi
      obtain ⟨x1, x2⟩ := he.inX hw (X := X) hu hv
      rw [h3 i (by rintro ⟨n, hn, k⟩; exact hi ⟨n, hn, by rw [hf.g] at k; exact k⟩)]
      exact lv_enfStep_ne _ _ _ _ _ (by rintro rfl; exact hi x1) (by rintro rfl; exact hi x2)

/-- With frequencies that raise, the walk is the same up to the first of them. -/
theorem enfEdgesB_cases (bad : Bad) {w : World} {l : List (Str × Str)} (hl : ∀ e ∈ l, ∃ t f, SetEdge w e.1 e.2 t f) :
    ((∀ e ∈ l, bad (trAt w e) = none) ∧ enfEdgesB bad l w = enfEdges l w) ∨
    ∃ l1 e l2 x, l = l1 ++ e :: l2 ∧ (∀ e ∈ l1, bad (trAt w e) = none) ∧ bad (trAt w e) = some x ∧
      enfEdgesB bad l w = ((enfEdges l1 w).1, .error x) := by
  induction l generalizing w with
  | nil => exact .inl ⟨by simp, rfl⟩
  | cons e l ih =>
    obtain ⟨u, v⟩ := e
    obtain ⟨t, f, he⟩ := hl (u, v) (by simp)
    have hat : trAt w (u, v) = t := trAt_eq he
    cases hb : bad t with
    | some x =>
      refine .inr ⟨[], (u, v), l, x, rfl, by simp, by rw [hat]; exact hb, ?_⟩
      have : enfEdgeB bad u v w = (w, .error x) := by
        unfold enfEdgeB
        rw [he.1]; simp only [he.2, hb]
      simp only [enfEdgesB]
      rw [PyM.bind_err this]
      rfl
    | none =>
      have hf := enfStep_eframe w (w.tr t).lower (w.tr t).upper f
      have hs : enfEdgeB bad u v w = (enfStep w (w.tr t).lower (w.tr t).upper f, .ok ()) := by
        rw [← enfEdge_eq he]
        unfold enfEdgeB
        rw [he.1]; simp only [he.2, hb]
      have htr : ∀ e, trAt (enfStep w (w.tr t).lower (w.tr t).upper f) e = trAt w e := by
        intro e; unfold trAt; rw [hf.g]
      rcases ih (w := enfStep w (w.tr t).lower (w.tr t).upper f) (fun e h => by
          obtain ⟨t', f', q⟩ := hl e (by simp [h])
          exact ⟨t', f', (hf.setEdge _ _ _ _).2 q⟩) with ⟨k1, k2⟩ | ⟨l1, e, l2, x, k1, k2, k3, k4⟩
      · refine .inl ⟨?_, ?_⟩
        · intro e h
          rcases List.mem_cons.1 h with rfl | h
          · rw [hat]; exact hb
          · rw [← htr]; exact k1 e h
        · simp only [enfEdgesB, enfEdges]
          rw [PyM.bind_ok hs, PyM.bind_ok (enfEdge_eq he)]
          exact k2
      · refine .inr ⟨(u, v) :: l1, e, l2, x, by rw [k1]; rfl, ?_, by rw [← htr]; exact k3, ?_⟩
        · intro e h
          rcases List.mem_cons.1 h with rfl | h
          · rw [hat]; exact hb
          · rw [← htr]; exact k2 e h
        · simp only [enfEdgesB, enfEdges]
          rw [PyM.bind_ok hs, PyM.bind_ok (enfEdge_eq he)]
          exact k4

/-- The edges that the components of the list visit, with and without frequencies that raise. -/
theorem enfCompsB_edges (bad : Bad) {σ : Ord'} (hσ : Shuffles σ) {es : List (Str × Str)} (trig : Option (Str × Str)) :
    ∀ (cs : List (List Str)) (w : World), WF w → EsOk w es → (∀ c ∈ cs, IsComp w c) →
      ∃ l, enfComps σ es trig cs w = enfEdges l w ∧ enfCompsB bad σ es trig cs w = enfEdgesB bad l w ∧
        (∀ e ∈ l, (∃ t f, SetEdge w e.1 e.2 t f) ∧ ∃ c ∈ cs, triggered w.g es c trig = true ∧ e.1 ∈ c ∧ e.2 ∈ c) ∧
        ∀ c ∈ cs, triggered w.g es c trig = true → ∀ a ∈ c, ∀ b ∈ c, Relation.ReflTransGen (Joined l) a b := by
  intro cs
  induction cs with
  | nil => intro w _ _ _; exact ⟨[], rfl, rfl, by simp, by simp⟩
  | cons c cs ih =>
    intro w hw hes hcomp
    by_cases ht : triggered w.g es c trig = true
    · have hcc := hcomp c (by simp)
      obtain ⟨s, is, out, h1, h2, h3, h4, h5, h6, h7⟩ := comp_search hw hes hσ hcc
      obtain ⟨w1, k1, k2, k3⟩ := enfComp_frame' hw hes hσ hcc
      have e1 : enfComp σ es c w = enfEdges out w := by unfold enfComp; rw [h6, h7]
      have e2 : enfCompB bad σ es c w = enfEdgesB bad out w := by unfold enfCompB; rw [h6, h7]
      obtain ⟨l, i1, i2, i3, i4⟩ := ih w1 (hw.frame k2.frame) (k2.esOk hes) (fun d hd => (k2.isComp d).2 (hcomp d (by simp [hd])))
      have hin := h4.inside (· ∈ c) (fun n m hn hm => by
        obtain ⟨t, f, h⟩ := (mem_subNbrs hw hes n m).1 hm
        exact hcc.closed hn h) (by intro n hn; simp only [List.mem_singleton] at hn; rw [hn]; exact h1)
      have hjoin : ∀ a ∈ c, Relation.ReflTransGen (Joined out) s a := by
        intro a ha
        rcases h5 a ha with rfl | h
        · exact .refl
        · obtain ⟨u, hu, hr⟩ := h4.joined a h
          simp only [List.mem_singleton] at hu
          rw [← hu]; exact hr
      refine ⟨out ++ l, ?_, ?_, ?_, ?_⟩
      · unfold enfComps
        rw [if_pos ht, PyM.bind_ok k1, i1]
        rw [e1] at k1
        exact (enfEdges_app out l w w1 k1).symm
      · unfold enfCompsB
        rw [if_pos ht, enfEdgesB_app]
        rcases enfEdgesB_cases bad (w := w) (l := out) (fun e he => (mem_subNbrs hw hes _ _).1 (hin e he).2.2.1) with
          ⟨_, q⟩ | ⟨l1, e, l2, x, _, _, _, q⟩
        · rw [← e1, k1] at q
          rw [PyM.bind_ok (e2.trans q), PyM.bind_ok q]
          exact i2
        · rw [PyM.bind_err (e2.trans q), PyM.bind_err q]
      · intro e he
        rcases List.mem_append.1 he with he | he
        · obtain ⟨q1, q2, q3, q4⟩ := hin e he
          exact ⟨(mem_subNbrs hw hes _ _).1 q3, c, by simp, ht, q1, q2⟩
        · obtain ⟨⟨t, f, q⟩, d, hd, q0, q1, q2⟩ := i3 e he
          exact ⟨⟨t, f, (k2.setEdge _ _ _ _).1 q⟩, d, by simp [hd], by rw [k2.g] at q0; exact q0, q1, q2⟩
      · intro d hd htd a ha b hb
        rcases List.mem_cons.1 hd with rfl | hd
        · exact Joined.conn_mono (fun e he => List.mem_append.2 (.inl he)) ((Joined.conn_symm (hjoin a ha)).trans (hjoin b hb))
        · exact Joined.conn_mono (fun e he => List.mem_append.2 (.inr he)) (i4 d hd (by rw [k2.g]; exact htd) a ha b hb)
    · obtain ⟨l, i1, i2, i3, i4⟩ := ih w hw hes (fun d hd => hcomp d (by simp [hd]))
      refine ⟨l, ?_, ?_, ?_, ?_⟩
      · unfold enfComps
        rw [if_neg ht, i1]
      · unfold enfCompsB
        rw [if_neg ht, i2]
      · intro e he
        obtain ⟨q, d, hd, q1⟩ := i3 e he
        exact ⟨q, d, by simp [hd], q1⟩
      · intro d hd htd
        rcases List.mem_cons.1 hd with rfl | hd
        · exact absurd htd ht
        · exact i4 d hd htd

/-- Does the call reach the group of the level? -/
def Concerns (w : World) (trig : Option (Str × Str)) (n : Str) : Prop :=
  ∀ p, trig = some p → SetConn w p.1 n ∧ ∃ t f, SetEdge w p.1 p.2 t f

/-- One call of `enforce_consistency`, with and without frequencies that raise: the same list of set transitions, which connects the levels of every group
reached, and of no other. -/
theorem enforceB_edges (bad : Bad) {w : World} (hw : WF w) {σ : Ord'} (hσ : Shuffles σ) (trig : Option (Str × Str)) :
    ∃ l, enforce σ trig w = enfEdges l w ∧ enforceB bad σ trig w = enfEdgesB bad l w ∧
      (∀ e ∈ l, (∃ t f, SetEdge w e.1 e.2 t f) ∧ Concerns w trig e.1 ∧ Concerns w trig e.2) ∧
      ∀ n m t f, SetEdge w n m t f → Concerns w trig n → Relation.ReflTransGen (Joined l) n m := by
  obtain ⟨es, k1, hes, cs, hcs, h2, h3, h4⟩ := set_comps hw hσ
  obtain ⟨l, i1, i2, i3, i4⟩ := enfCompsB_edges bad hσ trig cs w hw hes h2
  refine ⟨l, ?_, ?_, ?_, ?_⟩
  · rw [← i1]; unfold enforce; rw [k1]; simp only; rw [hcs]
  · rw [← i2]; unfold enforceB; rw [k1]; simp only; rw [hcs]
  · intro e he
    obtain ⟨q, c, hc, ht, q1, q2⟩ := i3 e he
    refine ⟨q, ?_, ?_⟩
    · rintro p rfl
      obtain ⟨hp, hs⟩ := (triggered_some hw hes c p).1 ht
      exact ⟨(h2 c hc).conn hw hp q1, hs⟩
    · rintro p rfl
      obtain ⟨hp, hs⟩ := (triggered_some hw hes c p).1 ht
      exact ⟨(h2 c hc).conn hw hp q2, hs⟩
  · intro n m t f he hre
    obtain ⟨c, hc, hn⟩ := h4 n m t f he
    refine i4 c hc ?_ n hn m ((h2 c hc).closed hn he)
    cases trig with
    | none => rfl
    | some p =>
      obtain ⟨q1, q2⟩ := hre p rfl
      refine (triggered_some hw hes c p).2 ⟨?_, q2⟩
      rw [show (p.1 ∈ c) = (fun x => x ∈ c) p.1 from rfl, (h2 c hc).eq_conn hw hn]
      exact SetConn.symm hw q1

/-- Where no frequency raises, the call is the one of Model/World. -/
theorem enforceB_good (bad : Bad) {w : World} (hw : WF w) {σ : Ord'} (hσ : Shuffles σ) (trig : Option (Str × Str))
    (hg : ∀ n m t f, SetEdge w n m t f → Concerns w trig n → bad t = none) : enforceB bad σ trig w = enforce σ trig w := by
  obtain ⟨l, h1, h2, h3, _⟩ := enforceB_edges bad hw hσ trig
  rw [h1, h2]
  rcases enfEdgesB_cases bad (w := w) (l := l) (fun e he => (h3 e he).1) with ⟨_, q⟩ | ⟨l1, e, l2, x, k1, _, k3, _⟩
  · exact q
  · have he : e ∈ l := by rw [k1]; simp
    obtain ⟨⟨t, f, hs⟩, hre, _⟩ := h3 e he
    have : trAt w e = t := trAt_eq (a := e.1) (b := e.2) hs
    rw [this, hg _ _ _ _ hs hre] at k3
    cases k3

/-- A set transition of a group without loops is visited. -/
theorem visited {w : World} (hw : WF w) {trig : Option (Str × Str)} {l : List (Str × Str)}
    (h1 : ∀ e ∈ l, (∃ t f, SetEdge w e.1 e.2 t f) ∧ Concerns w trig e.1 ∧ Concerns w trig e.2) {n m : Str} {t : Nat} {f : ℚ}
    (he : SetEdge w n m t f) (hloop : LoopFree w (SetConn w n)) (hj : Relation.ReflTransGen (Joined l) n m) : t ∈ l.map (trAt w) := by
  by_contra hno
  refine hloop.connOff hw (fun a b t f ha hab => Relation.ReflTransGen.tail ha ⟨t, f, hab⟩) he .refl ?_
  refine Relation.ReflTransGen.mono ?_ _ _ hj
  rintro x y (hxy | hxy)
  · obtain ⟨⟨t', f', k⟩, _⟩ := h1 _ hxy
    refine ⟨t', f', ?_, k⟩
    rintro rfl
    exact hno (List.mem_map.2 ⟨(x, y), hxy, trAt_eq k⟩)
  · obtain ⟨⟨t', f', k⟩, _⟩ := h1 _ hxy
    refine ⟨t', f', ?_, k.symm hw⟩
    rintro rfl
    exact hno (List.mem_map.2 ⟨(y, x), hxy, trAt_eq k⟩)

/-- A call that reaches a frequency that raises, in a group without loops, raises, and moves levels of the groups reached only. -/
theorem enforceB_raises (bad : Bad) {w : World} (hw : WF w) {σ : Ord'} (hσ : Shuffles σ) (trig : Option (Str × Str)) {n m : Str} {t : Nat}
    {f : ℚ} (he : SetEdge w n m t f) (hre : Concerns w trig n) (hloop : LoopFree w (SetConn w n)) (hb : bad t ≠ none) :
    ∃ w' e t' n' m' f', enforceB bad σ trig w = (w', .error e) ∧ bad t' = some e ∧ SetEdge w n' m' t' f' ∧ Concerns w trig n' ∧ EFrame w w' ∧
      ∀ i, ¬InX w (Concerns w trig) i → w'.lv i = w.lv i := by
  obtain ⟨l, h1, h2, h3, h4⟩ := enforceB_edges bad hw hσ trig
  have hv := visited hw h3 he hloop (h4 n m t f he hre)
  rw [h2]
  rcases enfEdgesB_cases bad (w := w) (l := l) (fun e he => (h3 e he).1) with ⟨q, _⟩ | ⟨l1, e, l2, x, k1, k2, k3, k4⟩
  · obtain ⟨e, he', rfl⟩ := List.mem_map.1 hv
    exact absurd (q e he') hb
  · have hel : e ∈ l := by rw [k1]; simp
    obtain ⟨⟨t', f', hs⟩, hre', _⟩ := h3 e hel
    have hat : trAt w e = t' := trAt_eq (a := e.1) (b := e.2) hs
    obtain ⟨w', j1, j2, j3⟩ := enfEdges_state hw (X := Concerns w trig) (l := l1) (fun e he => h3 e (by rw [k1]; simp [he]))
    rw [j1] at k4
    exact ⟨w', x, t', e.1, e.2, f', k4, by rw [← hat]; exact k3, hs, hre', j2, j3⟩

/-- `set_frequency` with any argument: the preparation and the enforcement. -/
theorem setFrequencyQ_eq {w : World} {t : Nat} (hb : (w.tr t).built = true) (ha : (w.lv (w.tr t).e1).inAtom = true)
    (σ : Ord') (q : FreqArg) (bad : Bad) :
    setFrequencyQ σ t q (w, bad) =
      (((enforceB (upd bad t q.err) σ (some (w.lname (w.tr t).e1, w.lname (w.tr t).e2)) (prep w t q.held)).1, upd bad t q.err),
        (enforceB (upd bad t q.err) σ (some (w.lname (w.tr t).e1, w.lname (w.tr t).e2)) (prep w t q.held)).2) := by
  unfold setFrequencyQ
  simp only
  rw [if_pos hb]
  by_cases hr : releases w t
  · have hr' := hr
    unfold releases at hr'
    unfold prep
    rw [if_pos hr]
    simp only [if_pos hr']
    have e1 : ((w.setFixed (w.tr t).upper false).setTr t
      { (w.setFixed (w.tr t).upper false).tr t with setFreq := some q.held }).tr t = { w.tr t with setFreq := some q.held } := by
      simp [setTr, setFixed, setLv]
    have e2 : ∀ i, ((upd w.lv (w.tr t).upper { w.lv (w.tr t).upper with fixed := false }) i).inAtom = (w.lv i).inAtom := by
      intro i
      by_cases h : i = (w.tr t).upper
      · subst h; simp
      · simp [upd_ne _ _ _ h]
    have e3 : ∀ i, ((upd w.lv (w.tr t).upper { w.lv (w.tr t).upper with fixed := false }) i).term = (w.lv i).term := by
      intro i
      by_cases h : i = (w.tr t).upper
      · subst h; simp
      · simp [upd_ne _ _ _ h]
    rw [e1]
    simp only [setTr, setFixed, setLv, withFreq, lname, e2, e3, ha, if_true]
  · have hr' := hr
    unfold releases at hr'
    unfold prep
    rw [if_neg hr]
    simp only [if_neg hr']
    have e1 : (w.setTr t { w.tr t with setFreq := some q.held }).tr t = { w.tr t with setFreq := some q.held } := by
      simp [setTr]
    rw [e1]
    simp only [setTr, withFreq, lname, ha, if_true]

/-- Calls on an atom some of whose frequencies cannot be converted. -/
inductive OpQ
  | set (σ : Ord') (t : Nat) (q : FreqArg)
  | enforce (σ : Ord') (trig : Option (Str × Str))

namespace OpQ

/-- The orders the call meets are orders of the same sets. -/
def Fair : OpQ → Prop
  | .set σ _ _ => Shuffles σ
  | .enforce σ _ => Shuffles σ

/-- The state after the call, which may have raised. -/
def run : OpQ → World × Bad → World × Bad
  | .set σ t q, s => (setFrequencyQ σ t q s).1
  | .enforce σ trig, s => ((enforceB s.2 σ trig s.1).1, s.2)

end OpQ

/-- The states that a program reaches from any reachable atom by such calls. -/
inductive ReachableQ : World × Bad → Prop
  | start {w : World} (hr : Reachable w) : ReachableQ (w, fun _ => none)
  | step {s : World × Bad} (h : ReachableQ s) (o : OpQ) (hf : o.Fair) : ReachableQ (o.run s)
  | new {s : World × Bad} (h : ReachableQ s) {a b : Nat} (q : Option FreqArg) {A : AArg} {ali : Option Str} (hs : (Op.newTrans a b none A ali).Sane s.1) :
      ReachableQ (newTransQ a b q A ali s).1
  | add {s : World × Bad} (h : ReachableQ s) {σ : Ord'} (hσ : Shuffles σ) {a b : Nat} (q : Option FreqArg) {A : AArg} {ali : Option Str}
      (hs : (Op.newTrans a b none A ali).Sane s.1) : ReachableQ (addPairQ σ a b q A ali s).1

/-- The call keeps the links between levels and transitions. -/
theorem enforceB_eframe (bad : Bad) {w : World} (hw : WF w) {σ : Ord'} (hσ : Shuffles σ) (trig : Option (Str × Str)) :
    EFrame w (enforceB bad σ trig w).1 := by
  obtain ⟨l, h1, h2, h3, h4⟩ := enforceB_edges bad hw hσ trig
  rw [h2]
  rcases enfEdgesB_cases bad (w := w) (l := l) (fun e he => (h3 e he).1) with ⟨_, q⟩ | ⟨l1, e, l2, x, k1, k2, k3, k4⟩
  · obtain ⟨w', j1, j2, _⟩ := enfEdges_state hw (X := Concerns w trig) (l := l) h3
    rw [q, j1]; exact j2
  · obtain ⟨w', j1, j2, _⟩ := enfEdges_state hw (X := Concerns w trig) (l := l1) (fun e he => h3 e (by rw [k1]; simp [he]))
    rw [k4, j1]; exact j2

/-- The constructor keeps the links too. -/
theorem newTransQ_wf {w : World} (hw : WF w) (bad : Bad) {a b : Nat} (q : Option FreqArg) {A : AArg} {ali : Option Str}
    (hs : (Op.newTrans a b none A ali).Sane w) : WF (newTransQ a b q A ali (w, bad)).1.1 := by
  obtain ⟨ha, hb, hJ0, hJ1, hA⟩ := hs
  obtain ⟨J0, hJ0⟩ := Option.ne_none_iff_exists'.1 hJ0
  obtain ⟨J1, hJ1⟩ := Option.ne_none_iff_exists'.1 hJ1
  exact hw.newTrans a b _ A ali J0 J1 ha hb hJ0 hJ1 hA

/-- Adding the transition just made does nothing but enforce. -/
theorem addPairQ_eq {w : World} (hw : WF w) (bad : Bad) (σ : Ord') {a b : Nat} (q : Option FreqArg) {A : AArg} {ali : Option Str}
    (hs : (Op.newTrans a b none A ali).Sane w) :
    let s := (newTransQ a b q A ali (w, bad)).1
    (newTransQ a b q A ali (w, bad)).2 = .ok w.ntr ∧ s.1.g.adj (w.lname a) (w.lname b) = some w.ntr ∧ (s.1.tr w.ntr).setFreq = q.map FreqArg.held ∧
    s.2 = upd bad w.ntr (q.bind FreqArg.err) ∧ (∀ t < w.ntr, s.1.tr t = w.tr t) ∧ (∀ i, s.1.lv i = w.lv i) ∧ (∀ n, s.1.g.lev n = w.g.lev n) ∧
    (∀ u v, ¬(u = w.lname a ∧ v = w.lname b ∨ u = w.lname b ∧ v = w.lname a) → s.1.g.adj u v = w.g.adj u v) ∧
    (s.1.tr w.ntr).e1 = a ∧ (s.1.tr w.ntr).e2 = b ∧ s.1.ntr = w.ntr + 1 ∧
    addPairQ σ a b q A ali (w, bad) = match q with
      | none => (s, .ok w.ntr)
      | some _ => match enforceB s.2 σ none s.1 with
        | (w', .ok ()) => ((w', s.2), .ok w.ntr)
        | (w', .error e) => ((w', s.2), .error e) := by
  intro s
  have hwf : WF s.1 := newTransQ_wf hw bad q hs
  obtain ⟨ha, hb, hJ0, hJ1, hA⟩ := hs
  obtain ⟨J0, hJ0⟩ := Option.ne_none_iff_exists'.1 hJ0
  obtain ⟨J1, hJ1⟩ := Option.ne_none_iff_exists'.1 hJ1
  have e := newTrans_ok w a b (q.map FreqArg.held) A ali J0 J1 (hw.node _ _ ha).2.1 hJ0 hJ1 hA
  set lo := (if w.eHz b > w.eHz a then a else b) with hlo
  set up := (if w.eHz b > w.eHz a then b else a) with hup
  have hends : (lo = a ∧ up = b) ∨ (lo = b ∧ up = a) := by rw [hlo, hup]; by_cases h : w.eHz b > w.eHz a <;> simp [h]
  set w1 : World := { w with
          ntr := w.ntr + 1
          tr := upd w.tr w.ntr (finished w a b (q.map FreqArg.held) A ali J0 J1)
          g := w.g.addEdge (w.lname lo) (w.lname up) w.ntr
          talias := withAlias w.talias w.ntr ali } with hw1
  have hq : newTransQ a b q A ali (w, bad) = ((w1, upd bad w.ntr (q.bind FreqArg.err)), .ok w.ntr) := by
    unfold newTransQ; simp only [e]
  have hs' : s = (w1, upd bad w.ntr (q.bind FreqArg.err)) := by show (newTransQ a b q A ali (w, bad)).1 = _; rw [hq]
  rw [hs'] at hwf
  have htr : w1.tr w.ntr = finished w a b (q.map FreqArg.held) A ali J0 J1 := upd_same ..
  have hadj : w1.g.adj (w.lname lo) (w.lname up) = some w.ntr := by
    show (w.g.addEdge _ _ _).adj _ _ = _
    rw [Graph.adj_addEdge]; simp
  have hadj' : w1.g.adj (w.lname a) (w.lname b) = some w.ntr := by
    rcases hends with ⟨h1, h2⟩ | ⟨h1, h2⟩
    · rw [h1, h2] at hadj; exact hadj
    · rw [h1, h2] at hadj; rw [hwf.gok.symm]; exact hadj
  have h1 : trAddToAtom w.ntr w1 = (w1, .ok ()) := by
    unfold trAddToAtom
    have k1 : w1.lname (w1.tr w.ntr).lower = w.lname lo := by rw [htr]; rfl
    have k2 : w1.lname (w1.tr w.ntr).upper = w.lname up := by rw [htr]; rfl
    rw [k1, k2, Graph.addEdge_same _ hwf.gok _ _ _ hadj]
    have k3 : (w1.tr w.ntr).subKeys = [] := by rw [htr]; rfl
    simp [k3]
  have h2 : regTAlias w.ntr w1 = (w1, .ok ()) := by
    unfold regTAlias
    have k1 : (w1.tr w.ntr).ali = ali := by rw [htr]; rfl
    rw [k1]
    cases ali with
    | none => rfl
    | some al =>
      have : w1.talias.get? al = some w.ntr := by show (w.talias.set al w.ntr).get? al = _; rw [Dict.get?_set]; simp
      simp only
      rw [Dict.set_same _ _ _ this]
  have hbuilt : (w1.tr w.ntr).built = true := by rw [htr]; rfl
  have hset : (w1.tr w.ntr).setFreq = q.map FreqArg.held := by rw [htr]; rfl
  rw [hs', hq]
  refine ⟨rfl, hadj', hset, rfl, fun t ht => upd_ne _ _ _ (Nat.ne_of_lt ht), fun _ => rfl, fun n => Graph.lev_addEdge .., fun u v huv => ?_, by rw [htr]; rfl,
    by rw [htr]; rfl, rfl, ?_⟩
  · show (w.g.addEdge _ _ _).adj _ _ = _
    rw [Graph.adj_addEdge, if_neg]
    rintro (⟨k1, k2⟩ | ⟨k1, k2⟩)
    · rcases hends with ⟨j1, j2⟩ | ⟨j1, j2⟩ <;> rw [j1] at k1 <;> rw [j2] at k2
      · exact huv (.inl ⟨k1.symm, k2.symm⟩)
      · exact huv (.inr ⟨k1.symm, k2.symm⟩)
    · rcases hends with ⟨j1, j2⟩ | ⟨j1, j2⟩ <;> rw [j1] at k1 <;> rw [j2] at k2
      · exact huv (.inr ⟨k2.symm, k1.symm⟩)
      · exact huv (.inl ⟨k2.symm, k1.symm⟩)
  · cases q with
    | none => simp only [addPairQ, hq, addTransitionQ, h1, h2, hbuilt, if_true, hset, Option.map_none]
    | some q =>
      simp only [addPairQ, hq, addTransitionQ, h1, h2, hbuilt, if_true, hset, Option.map_some]
      rcases enforceB (upd bad w.ntr ((some q).bind FreqArg.err)) σ none w1 with ⟨w', r⟩
      cases r <;> rfl

theorem addPairQ_wf {w : World} (hw : WF w) (bad : Bad) {σ : Ord'} (hσ : Shuffles σ) {a b : Nat} (q : Option FreqArg) {A : AArg} {ali : Option Str}
    (hs : (Op.newTrans a b none A ali).Sane w) : WF (addPairQ σ a b q A ali (w, bad)).1.1 := by
  have h := newTransQ_wf hw bad q hs
  obtain ⟨-, -, -, -, -, -, -, -, -, -, -, e⟩ := addPairQ_eq hw bad σ q hs
  rw [e]
  cases q with
  | none => exact h
  | some q =>
    have hf := h.frame (enforceB_eframe (newTransQ a b (some q) A ali (w, bad)).1.2 h hσ none).frame
    rcases he : enforceB (newTransQ a b (some q) A ali (w, bad)).1.2 σ none (newTransQ a b (some q) A ali (w, bad)).1.1 with ⟨w', r⟩
    rw [he] at hf
    simp only
    cases r <;> exact hf

theorem ReachableQ.wf {s : World × Bad} (h : ReachableQ s) : WF s.1 := by
  induction h with
  | start hr => exact hr.wf
  | @new s h a b q A ali hs ih => exact newTransQ_wf ih s.2 q hs
  | @add s h σ hσ a b q A ali hs ih => exact addPairQ_wf ih s.2 hσ q hs
  | @step s h o hf ih =>
    cases o with
    | enforce σ trig => exact ih.frame (enforceB_eframe s.2 ih hf trig).frame
    | set σ t q =>
      obtain ⟨w, bad⟩ := s
      show WF (setFrequencyQ σ t q (w, bad)).1.1
      by_cases hb : (w.tr t).built = true
      · by_cases ha : (w.lv (w.tr t).e1).inAtom = true
        · rw [setFrequencyQ_eq hb ha]
          have hp := ih.frame (prep_frame w t q.held)
          exact hp.frame (enforceB_eframe _ hp hf _).frame
        · have : (setFrequencyQ σ t q (w, bad)).1.1 = prep w t q.held := by
            unfold setFrequencyQ
            simp only
            rw [if_pos hb]
            by_cases hr : releases w t
            · have hr' := hr
              unfold releases at hr'
              unfold prep
              rw [if_pos hr]
              simp only [if_pos hr']
              split <;> rename_i hc
              · exfalso
                apply ha
                have e1 : ((w.setFixed (w.tr t).upper false).setTr t
                  { (w.setFixed (w.tr t).upper false).tr t with setFreq := some q.held }).tr t = { w.tr t with setFreq := some q.held } := by
                  simp [setTr, setFixed, setLv]
                rw [e1] at hc
                simp only [setTr, setFixed, setLv] at hc
                by_cases h : (w.tr t).e1 = (w.tr t).upper
                · rw [h] at hc ⊢
                  simpa using hc
                · rw [upd_ne _ _ _ h] at hc
                  exact hc
              · rfl
            · have hr' := hr
              unfold releases at hr'
              unfold prep
              rw [if_neg hr]
              simp only [if_neg hr']
              split <;> rename_i hc
              · exfalso
                apply ha
                simpa [setTr] using hc
              · rfl
          rw [this]
          exact ih.frame (prep_frame w t q.held)
      · have : setFrequencyQ σ t q (w, bad) = ((w, bad), .error .AttributeError) := by
          unfold setFrequencyQ
          simp only
          rw [if_neg hb]
        rw [this]
        exact ih

/-! ## The claims -/

/-- The groups reached by `set_frequency` are that of the transition. -/
theorem reaches_prep {w : World} {t : Nat} {f : ℚ} (ht : InAtom w t) (n : Str) :
    Concerns (prep w t f) (some (w.lname (w.tr t).e1, w.lname (w.tr t).e2)) n ↔ GroupOf w t f n := by
  constructor
  · intro h
    have := (h _ rfl).1
    rw [prep_conn] at this
    exact this
  · rintro h p hp
    cases hp
    refine ⟨by rw [prep_conn]; exact h, t, f, ?_⟩
    rw [prep_setEdge, withFreq_setEdge]
    exact .inl ⟨rfl, rfl, ht⟩

/-- A transition of the atom is built, between levels of the atom. -/
theorem inAtom_built {w : World} (hw : WF w) {t : Nat} (ht : InAtom w t) : (w.tr t).built = true ∧ (w.lv (w.tr t).e1).inAtom = true := by
  obtain ⟨k1, hb, k3, k4, k5, k6⟩ := hw.edge _ _ _ ht
  refine ⟨hb, ?_⟩
  rcases k6 with ⟨e, _⟩ | ⟨e, _⟩
  · rw [e]; exact (hw.node _ _ k3).2.1
  · rw [e]; exact (hw.node _ _ k4).2.1

/-- C170: what cannot be converted: numbers without unit, quantities of another dimension than frequency, length, wavenumber or energy, and wavelengths and
wavenumbers of zero; and nothing else. -/
theorem C170_what :
    (∀ x, (FreqArg.num x).err = some .AttributeError) ∧
    (∀ x, (FreqArg.qty ⟨x, .other⟩).err = some .DimensionalityError) ∧ (∀ x k, (FreqArg.qty ⟨x, .field k⟩).err = some .DimensionalityError) ∧
    (∀ x k, 0 < k → (FreqArg.qty ⟨x, .length k⟩).err = if x = 0 then some .ZeroDivisionError else none) ∧
    (∀ x k, 0 < k → (FreqArg.qty ⟨x, .wnum k⟩).err = if x = 0 then some .ZeroDivisionError else none) ∧
    (∀ x k, (FreqArg.qty ⟨x, .freq k⟩).err = none) ∧ ∀ x k, (FreqArg.qty ⟨x, .energy k⟩).err = none := by
  refine ⟨fun _ => rfl, fun _ => rfl, fun _ _ => rfl, fun x k hk => ?_, fun x k hk => ?_, fun _ _ => rfl, fun _ _ => rfl⟩
  · by_cases hx : x = 0
    · simp [FreqArg.err, Qty.toHz, pyDiv, hx]
    · simp [FreqArg.err, Qty.toHz, pyDiv, hx, hk.ne']
  · by_cases hx : x = 0
    · simp [FreqArg.err, Qty.toHz, pyDiv, hx, bind, Except.bind]
    · simp [FreqArg.err, Qty.toHz, pyDiv, hx, hk.ne', bind, Except.bind]

/-- C170: while every frequency of the group can be converted, the others do not matter: `set_frequency` and `enforce_consistency` do what they do in
C36-C38. In particular a frequency that raised is repaired by setting one that does not. -/
theorem C170_elsewhere {w : World} {bad : Bad} (hr : ReachableQ (w, bad)) {σ : Ord'} (hσ : Shuffles σ) {t : Nat} {q : Qty} {f : ℚ} (ht : InAtom w t)
    (hq : q.toHz = .ok f) (hg : ∀ n m t' f', SetEdge w n m t' f' → t' ≠ t → GroupOf w t f n → bad t' = none) :
    setFrequencyQ σ t (.qty q) (w, bad) = (((setFrequency σ t f w).1, upd bad t none), (setFrequency σ t f w).2) := by
  have hw : WF w := hr.wf
  obtain ⟨hb, ha⟩ := inAtom_built hw ht
  have e1 : (FreqArg.qty q).err = none := by unfold FreqArg.err; simp only [hq]
  have e2 : (FreqArg.qty q).held = f := by unfold FreqArg.held; simp only [hq]
  rw [setFrequencyQ_eq hb ha, setFrequency_eq hb ha, e1, e2]
  rw [enforceB_good (upd bad t none) (hw.frame (prep_frame w t f)) hσ]
  intro n m t' f' he hre
  by_cases htt : t' = t
  · subst htt; simp
  · rw [upd_ne _ _ _ htt]
    rw [prep_setEdge, withFreq_setEdge] at he
    rcases he with ⟨h, _⟩ | ⟨_, he⟩
    · exact absurd h htt
    · exact hg n m t' f' he htt ((reaches_prep ht n).1 hre)

/-- C170: so does `enforce_consistency`, if no frequency of the groups it is called for raises. -/
theorem C170_good {w : World} {bad : Bad} (hr : ReachableQ (w, bad)) {σ : Ord'} (hσ : Shuffles σ) (trig : Option (Str × Str))
    (hg : ∀ n m t f, SetEdge w n m t f → Concerns w trig n → bad t = none) : enforceB bad σ trig w = enforce σ trig w :=
  enforceB_good bad hr.wf hσ trig hg

/-- C170: a frequency that cannot be converted raises as soon as it is set, in a group without loops that has no other; levels outside the group keep
their energies, and the frequency stays. -/
theorem C170_raises_partial {w : World} {bad : Bad} (hr : ReachableQ (w, bad)) {σ : Ord'} (hσ : Shuffles σ) {t : Nat} {q : FreqArg} {e : PyErr}
    (ht : InAtom w t) (hq : q.err = some e) (hg : ∀ n m t' f', SetEdge w n m t' f' → t' ≠ t → GroupOf w t q.held n → bad t' = none)
    (hlf : LoopFree (withFreq w t q.held) (GroupOf w t q.held)) :
    ∃ w', setFrequencyQ σ t q (w, bad) = ((w', upd bad t (some e)), .error e) ∧ w'.tr = (withFreq w t q.held).tr ∧ w'.g = w.g ∧
      ∀ i, ¬InX w (GroupOf w t q.held) i → w'.eHz i = w.eHz i := by
  have hw : WF w := hr.wf
  obtain ⟨hb, ha⟩ := inAtom_built hw ht
  have hwp := hw.frame (prep_frame w t q.held)
  have hset : SetEdge (prep w t q.held) (w.lname (w.tr t).e1) (w.lname (w.tr t).e2) t q.held := by
    rw [prep_setEdge, withFreq_setEdge]
    exact .inl ⟨rfl, rfl, ht⟩
  have hlf' : LoopFree (prep w t q.held) (SetConn (prep w t q.held) (w.lname (w.tr t).e1)) := by
    unfold LoopFree
    rw [prep_conn]
    simp only [prep_setEdge]
    exact hlf
  obtain ⟨w', x, t', n', m', f', k1, k2, k3, k4, k5, k6⟩ := enforceB_raises (upd bad t q.err) hwp hσ
    (some (w.lname (w.tr t).e1, w.lname (w.tr t).e2)) hset ((reaches_prep ht _).2 .refl) hlf' (by simp [hq])
  have htt : t' = t := by
    by_contra htt
    rw [upd_ne _ _ _ htt] at k2
    rw [prep_setEdge, withFreq_setEdge] at k3
    rcases k3 with ⟨h, _⟩ | ⟨_, he⟩
    · exact htt h
    · rw [hg n' m' t' f' he htt ((reaches_prep ht n').1 k4)] at k2
      cases k2
  subst htt
  have hx : x = e := by
    rw [hq] at k2
    simp at k2
    exact k2.symm
  subst hx
  refine ⟨w', ?_, ?_, ?_, ?_⟩
  · rw [setFrequencyQ_eq hb ha, k1, hq]
  · rw [k5.tr, prep_tr]
  · rw [k5.g, prep_g]
  · intro i hi
    have := k6 i (by
      rintro ⟨n, hn, hl⟩
      exact hi ⟨n, (reaches_prep ht n).1 hn, by rw [prep_g] at hl; exact hl⟩)
    unfold eHz
    rw [this]
    exact prep_eHz w t' q.held i

/-- C170: after that the group is poisoned: `enforce_consistency` called for the atom, or for any set transition of the group, raises. -/
theorem C170_poisoned {w : World} {bad : Bad} (hr : ReachableQ (w, bad)) {σ : Ord'} (hσ : Shuffles σ) {n m : Str} {t : Nat} {f : ℚ}
    (he : SetEdge w n m t f) (hb : bad t ≠ none) (hlf : LoopFree w (SetConn w n)) :
    (∃ w' e, enforceB bad σ none w = (w', .error e)) ∧
    ∀ u v t' f', SetEdge w u v t' f' → SetConn w u n → ∃ w' e, enforceB bad σ (some (u, v)) w = (w', .error e) ∧ ∀ i, ¬InX w (SetConn w n) i → w'.lv i = w.lv i := by
  have hw : WF w := hr.wf
  constructor
  · obtain ⟨w', e, _, _, _, _, k, _⟩ := enforceB_raises bad hw hσ none he (fun p hp => by cases hp) hlf hb
    exact ⟨w', e, k⟩
  · intro u v t' f' hu hc
    obtain ⟨w', e, _, _, _, _, k, _, _, _, _, k2⟩ := enforceB_raises bad hw hσ (some (u, v)) he (fun p hp => by cases hp; exact ⟨hc, t', f', hu⟩) hlf hb
    refine ⟨w', e, k, fun i hi => k2 i ?_⟩
    rintro ⟨a, ha, hl⟩
    exact hi ⟨a, (SetConn.symm hw hc).trans (ha _ rfl).1, hl⟩

/-- C170: and so does `set_frequency` of any other transition of the group, whatever it is given. -/
theorem C170_poisoned_set {w : World} {bad : Bad} (hr : ReachableQ (w, bad)) {σ : Ord'} (hσ : Shuffles σ) {n m : Str} {t t' : Nat} {f : ℚ}
    (he : SetEdge w n m t f) (hb : bad t ≠ none) (ht : InAtom w t') (hne : t ≠ t') (q : FreqArg) (hn : GroupOf w t' q.held n)
    (hlf : LoopFree (withFreq w t' q.held) (GroupOf w t' q.held)) :
    ∃ w' e, setFrequencyQ σ t' q (w, bad) = ((w', upd bad t' q.err), .error e) := by
  have hw : WF w := hr.wf
  obtain ⟨hbu, ha⟩ := inAtom_built hw ht
  have hwp := hw.frame (prep_frame w t' q.held)
  have hlf' : LoopFree (prep w t' q.held) (SetConn (prep w t' q.held) n) := by
    have hG : SetConn (withFreq w t' q.held) n = GroupOf w t' q.held := by
      have hww : WF (withFreq w t' q.held) := hw.frame (setTr_frame w t' _ ⟨rfl, rfl, rfl, rfl, rfl⟩)
      funext k
      exact propext ⟨fun h => hn.trans h, fun h => (SetConn.symm hww hn).trans h⟩
    unfold LoopFree
    rw [prep_conn, hG]
    simp only [prep_setEdge]
    exact hlf
  obtain ⟨w', e, _, _, _, _, k, _⟩ := enforceB_raises (upd bad t' q.err) hwp hσ (some (w.lname (w.tr t').e1, w.lname (w.tr t').e2))
    (n := n) (m := m) (t := t) (f := f) (by rw [prep_setEdge, withFreq_setEdge]; exact .inr ⟨hne, he⟩) ((reaches_prep ht _).2 hn) hlf'
    (by rw [upd_ne _ _ _ hne]; exact hb)
  exact ⟨w', e, by rw [setFrequencyQ_eq hbu ha, k]⟩

/-! ## A case: the chain g-a-b, with a number, a zero wavelength and an energy in joule -/

/-- A number without unit. -/
def plainNumber : FreqArg := .num 5

/-- A wavelength of 0 nm. -/
def zeroLength : FreqArg := .qty ⟨0, .length (1 / 1000000000)⟩

/-- A quantity of another dimension. -/
def otherDim : FreqArg := .qty ⟨5, .other⟩

example : plainNumber.err = some .AttributeError ∧ zeroLength.err = some .ZeroDivisionError ∧ otherDim.err = some .DimensionalityError := by decide +kernel

example : ∃ w', setFrequencyQ idOrd 0 otherDim (chain 1 1, fun _ => none) = ((w', upd (fun _ => none) 0 (some .DimensionalityError)), .error .DimensionalityError) ∧
    w'.tr = (withFreq (chain 1 1) 0 otherDim.held).tr ∧ w'.g = (chain 1 1).g ∧
      ∀ i, ¬InX (chain 1 1) (GroupOf (chain 1 1) 0 otherDim.held) i → w'.eHz i = (chain 1 1).eHz i :=
  C170_raises_partial (.start (demo_reachable (by decide +kernel))) idOrd_shuffles (by decide +kernel) (by decide +kernel) (fun _ _ _ _ _ _ _ => rfl)
    (loopFree_of_parent chainPar chainRk (by decide +kernel) _)

/-- The chain after the call. -/
def poisoned : World × Bad := (setFrequencyQ idOrd 0 plainNumber (chain 1 1, fun _ => none)).1

theorem poisoned_reachable : ReachableQ poisoned := .step (.start (demo_reachable (by decide +kernel))) (.set idOrd 0 plainNumber) idOrd_shuffles

example : (∃ w' e, enforceB poisoned.2 idOrd none poisoned.1 = (w', .error e)) ∧
    ∀ u v t' f', SetEdge poisoned.1 u v t' f' → SetConn poisoned.1 u (demoName 'g') →
      ∃ w' e, enforceB poisoned.2 idOrd (some (u, v)) poisoned.1 = (w', .error e) ∧
        ∀ i, ¬InX poisoned.1 (SetConn poisoned.1 (demoName 'g')) i → w'.lv i = poisoned.1.lv i :=
  C170_poisoned poisoned_reachable idOrd_shuffles (n := demoName 'g') (m := demoName 'a') (t := 0) (f := 5) (by decide +kernel) (by decide +kernel)
    (loopFree_of_parent chainPar chainRk (by decide +kernel) _)

/-- Setting the good frequency 3 Hz of a-b raises: the walk comes to g-a first. -/
example : ∃ w' e, setFrequencyQ idOrd 1 (.qty ⟨3, .freq 1⟩) poisoned = ((w', upd poisoned.2 1 (FreqArg.qty ⟨3, .freq 1⟩).err), .error e) :=
  C170_poisoned_set (w := poisoned.1) (bad := poisoned.2) poisoned_reachable idOrd_shuffles (n := demoName 'a') (m := demoName 'g') (t := 0) (f := 5)
    (by decide +kernel) (by decide +kernel) (by decide +kernel) (by decide) (.qty ⟨3, .freq 1⟩)
    (show SetConn _ _ _ from by
      rw [show poisoned.1.lname (poisoned.1.tr 1).e1 = demoName 'a' by decide +kernel])
    (loopFree_of_parent chainPar chainRk (by decide +kernel) _)

/-- A frequency of 2 Hz for g-a repairs it. -/
example : setFrequencyQ idOrd 0 (.qty ⟨2, .freq 1⟩) poisoned =
    (((setFrequency idOrd 0 2 poisoned.1).1, upd poisoned.2 0 none), (setFrequency idOrd 0 2 poisoned.1).2) :=
  C170_elsewhere (w := poisoned.1) (bad := poisoned.2) poisoned_reachable idOrd_shuffles (by decide +kernel) (by decide +kernel)
    (fun _ _ t' _ _ h _ => by
      show upd _ 0 _ t' = none
      rw [upd_ne _ _ _ h])

example : enforceB (fun t => if t = 9 then some .AttributeError else none) idOrd none (chain 1 1) = enforce idOrd none (chain 1 1) :=
  enforceB_good _ (show Reachable (chain 1 1) from demo_reachable (by decide +kernel)).wf idOrd_shuffles none (fun _ _ t f he _ => by
    have := forall_setEdge (w := chain 1 1) (P := fun _ _ t _ => t ≠ 9) (by decide +kernel) he
    simp [this])

example : enforceB poisoned.2 idOrd (some (demoName 'g', demoName 'b')) poisoned.1 = enforce idOrd (some (demoName 'g', demoName 'b')) poisoned.1 :=
  C170_good (w := poisoned.1) (bad := poisoned.2) poisoned_reachable idOrd_shuffles _ (fun _ _ _ _ _ h => by
    obtain ⟨_, t, f, h⟩ := h _ rfl
    have hn : poisoned.1.g.adj (demoName 'g') (demoName 'b') = none := by decide +kernel
    exact absurd (hn.symm.trans h.1) (by simp))

/-! ## Where it fails -/

/-- The full claim: a frequency that cannot be converted is refused. -/
def C170_full : Prop := ∀ (w : World) (bad : Bad) (σ : Ord') (t : Nat) (q : FreqArg), ReachableQ (w, bad) → Shuffles σ → InAtom w t → q.err ≠ none →
  (setFrequencyQ σ t q (w, bad)).2 ≠ .ok ()

/-- C170 fails in a loop: in the triangle g-a, a-b, g-b the search from g comes to b by way of a, and never looks at the frequency of g-b, the number 5. -/
theorem C170_fails : ¬C170_full := by
  intro h
  refine h (triangle 2) (fun _ => none) idOrd 2 plainNumber (.start (demo_reachable (by decide +kernel))) idOrd_shuffles (by decide +kernel) (by decide) ?_
  decide +kernel

/-- C170: with the neighbours in the opposite order the same call raises. -/
theorem C170_order : (setFrequencyQ idOrd 2 plainNumber (triangle 2, fun _ => none)).2 = .ok () ∧
    (setFrequencyQ revOrd 2 plainNumber (triangle 2, fun _ => none)).2 = .error .AttributeError := by
  decide +kernel

/-- The claim that a call that raises leaves the atom as it was. -/
def C170_undone_full : Prop := ∀ (w : World) (bad : Bad) (σ : Ord') (t : Nat) (q : FreqArg) (s : World × Bad) (e : PyErr), ReachableQ (w, bad) → Shuffles σ →
  InAtom w t → setFrequencyQ σ t q (w, bad) = (s, .error e) → (enforceB s.2 σ none s.1).2 = (enforceB bad σ none w).2

/-- C170: it does not: after the refused call `enforce_consistency()` raises, where it returned before. -/
theorem C170_undone_fails : ¬C170_undone_full := by
  intro h
  have := h (chain 1 1) (fun _ => none) idOrd 0 plainNumber poisoned .AttributeError (.start (demo_reachable (by decide +kernel))) idOrd_shuffles
    (by decide +kernel) (Prod.ext rfl (by decide +kernel))
  revert this
  decide +kernel

end AtomTk
