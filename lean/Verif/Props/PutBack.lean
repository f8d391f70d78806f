import Verif.Props.TransList
import Verif.Props.Warnings
import Verif.Props.Present

/-!
# C176: deleting a level and putting it back
-/

namespace AtomTk
open Util World

/-- `del atom.levels[n]; atom.add_level(level)`. -/
def delAdd (n : Str) (i : Nat) : PyM Unit := do
  levelsDel n
  addLevel i false none

/-- `atom.add_transition(t)` for a list of transitions, whatever the calls raise. -/
def addAll (σ : Ord') : List Nat → World → World × List (Py Unit)
  | [], w => (w, [])
  | t :: ts, w =>
    let r := World.addTransition σ t w
    let s := addAll σ ts r.1
    (s.1, r.2 :: s.2)

/-- The transitions of a level, in any order. -/
def AllOf (w : World) (n : Str) (ts : List Nat) : Prop := ∀ t, t ∈ ts ↔ ∃ v, w.g.adj n v = some t

/-- The full claim C176: a level deleted and added again is back, and so are its transitions. -/
def C176_full : Prop := ∀ (w : World) (n : Str) (i : Nat), Reachable w → w.g.lev n = some i →
  (delAdd n i w).2 = .ok () ∧ (∀ u, (delAdd n i w).1.g.lev u = w.g.lev u) ∧ ∀ u v, (delAdd n i w).1.g.adj u v = w.g.adj u v

theorem addLevel_again {w : World} {i : Nat} (ha : (w.lv i).inAtom = true) :
    (addLevel i false none w).2 = .ok () ∧ (addLevel i false none w).1.lv = w.lv ∧ (addLevel i false none w).1.tr = w.tr ∧
      (addLevel i false none w).1.ntr = w.ntr ∧ (addLevel i false none w).1.nlv = w.nlv ∧
      (addLevel i false none w).1.hf = w.hf ∧ (addLevel i false none w).1.zl = w.zl ∧ (addLevel i false none w).1.talias = w.talias ∧
      (addLevel i false none w).1.g = w.g.addNode (w.lname i) i ∧
      (addLevel i false none w).1.lalias = (match (w.lv i).ali with | some al => w.lalias.set al (.fine i) | none => w.lalias) := by
  have hu : upd w.lv i { w.lv i with inAtom := true } = w.lv := upd_id _ _ (by rw [← ha])
  have h1 : lvAddToAtom i w = ({ w with g := w.g.addNode (w.lname i) i }, .ok ()) := by
    show (({ w with lv := upd w.lv i { w.lv i with inAtom := true }, g := w.g.addNode (w.lname i) i } : World), (Except.ok () : Py Unit)) = _
    rw [hu]
  unfold World.addLevel
  rw [PyM.bind_ok h1]
  have h2 : setAliasOpt i none { w with g := w.g.addNode (w.lname i) i } = ({ w with g := w.g.addNode (w.lname i) i }, .ok ()) := rfl
  rw [PyM.bind_ok h2]
  cases hal : (w.lv i).ali with
  | none =>
    have h3 : regAlias i { w with g := w.g.addNode (w.lname i) i } = ({ w with g := w.g.addNode (w.lname i) i }, .ok ()) := by
      unfold regAlias
      simp only [hal]
    rw [PyM.bind_ok h3]
    exact ⟨rfl, rfl, rfl, rfl, rfl, rfl, rfl, rfl, rfl, rfl⟩
  | some al =>
    have h3 : regAlias i { w with g := w.g.addNode (w.lname i) i } =
        ({ w with g := w.g.addNode (w.lname i) i, lalias := w.lalias.set al (.fine i) }, .ok ()) := by
      unfold regAlias
      simp only [hal]
    rw [PyM.bind_ok h3]
    exact ⟨rfl, rfl, rfl, rfl, rfl, rfl, rfl, rfl, rfl, rfl⟩

/-- Deleting: the level and its transitions are gone, nothing else is. -/
theorem C176_deleted {w : World} {n : Str} {i : Nat} (h : w.g.lev n = some i) :
    ∃ g', levelsDel n w = ({ w with g := g' }, .ok ()) ∧ (∀ u, g'.lev u = if u = n then none else w.g.lev u) ∧
      (∀ u v, g'.adj u v = if u = n ∨ v = n then none else w.g.adj u v) ∧ g'.keys = w.g.keys.filter (fun x => x ≠ n) := by
  have hm : n ∈ w.g.keys := Graph.mem_of_lev h
  have hk : ∃ g', w.g.removeNode n = .ok g' := by
    unfold Graph.removeNode
    rw [if_pos ((Dict.has_iff _ _).2 hm)]
    exact ⟨_, rfl⟩
  obtain ⟨g', hg⟩ := hk
  refine ⟨g', ?_, Graph.lev_removeNode hg, Graph.adj_removeNode hg, Graph.keys_removeNode hg⟩
  unfold levelsDel
  rw [hg]

/-- C176, the part that holds of the level alone: it is back under its name, with its energy, constants and sublevels, and comes last in the listing; no other
level and no transition of other levels is affected.  Missing: the transitions of the level. -/
theorem C176_level_partial {w : World} (hr : Reachable w) {n : Str} {i : Nat} (h : w.g.lev n = some i) :
    (delAdd n i w).2 = .ok () ∧ (∀ u, (delAdd n i w).1.g.lev u = w.g.lev u) ∧
      (delAdd n i w).1.g.keys = w.g.keys.filter (fun x => x ≠ n) ++ [n] ∧
      (∀ u v, (delAdd n i w).1.g.adj u v = if u = n ∨ v = n then none else w.g.adj u v) ∧
      (delAdd n i w).1.lv = w.lv ∧ (delAdd n i w).1.hf = w.hf ∧ (delAdd n i w).1.zl = w.zl ∧ (delAdd n i w).1.tr = w.tr ∧
      (delAdd n i w).1.ntr = w.ntr ∧ (delAdd n i w).1.nlv = w.nlv ∧ (delAdd n i w).1.talias = w.talias ∧
      (∀ al, (w.lv i).ali ≠ some al → (delAdd n i w).1.lalias.get? al = w.lalias.get? al) ∧
      ∀ al, (w.lv i).ali = some al → (delAdd n i w).1.lalias.get? al = some (.fine i) := by
  obtain ⟨hn, ha, hi⟩ := hr.wf.node _ _ h
  obtain ⟨g', h1, h2, h3, h4⟩ := C176_deleted h
  have e : delAdd n i w = addLevel i false none { w with g := g' } := PyM.bind_ok h1
  obtain ⟨k1, k2, k3, k4, k5, k6, k7, k8, k9, k10⟩ := addLevel_again (w := { w with g := g' }) (i := i) ha
  have hn' : World.lname { w with g := g' } i = n := hn
  rw [hn'] at k9
  rw [e]
  refine ⟨k1, fun u => ?_, ?_, fun u v => ?_, k2, k6, k7, k3, k4, k5, k8, fun al hne => ?_, fun al he => ?_⟩
  · rw [k9, Graph.lev_addNode]
    show (if n = u then some i else g'.lev u) = _
    by_cases hu : n = u
    · rw [if_pos hu, ← hu, h]
    · rw [if_neg hu, h2, if_neg (Ne.symm hu)]
  · rw [k9, Graph.keys_addNode]
    show (if n ∈ g'.keys then g'.keys else g'.keys ++ [n]) = _
    rw [h4, if_neg (by simp)]
  · rw [k9, Graph.adj_addNode]
    exact h3 u v
  · rw [k10]
    show Dict.get? (match (w.lv i).ali with | some al => w.lalias.set al (.fine i) | none => w.lalias) al = _
    cases hal : (w.lv i).ali with
    | none => rfl
    | some al' =>
      simp only
      rw [Dict.get?_set, if_neg]
      intro hh
      exact hne (by rw [hal, hh])
  · rw [k10]
    show Dict.get? (match (w.lv i).ali with | some al => w.lalias.set al (.fine i) | none => w.lalias) al = _
    rw [he]
    simp only
    rw [Dict.get?_set, if_pos rfl]

/-- Between deleting and putting back: the graph has the transitions of other levels and, of the transitions of the level, those in `P`. -/
structure Parts (w0 w : World) (n : Str) (P : Nat → Prop) : Prop where
  adj : ∀ u v t, w.g.adj u v = some t ↔ w0.g.adj u v = some t ∧ ((u ≠ n ∧ v ≠ n) ∨ P t)
  name : ∀ i, w.lname i = w0.lname i
  inAtom : ∀ i, (w.lv i).inAtom = (w0.lv i).inAtom
  tr : w.tr = w0.tr
  ntr : w.ntr = w0.ntr
  eHz : AllRight w0 → ∀ i, w.eHz i = w0.eHz i

theorem addTransition_shape (σ : Ord') (t : Nat) (w : World) : ∃ w1 : World, w1.tr = w.tr ∧ w1.lv = w.lv ∧ w1.ntr = w.ntr ∧
    w1.g = w.g.addEdge (w.lname (w.tr t).lower) (w.lname (w.tr t).upper) t ∧
    ((World.addTransition σ t w).1 = w1 ∨ (World.addTransition σ t w).1 = (enforce σ none w1).1) := by
  have h0 := trAddToAtom_fst t w
  unfold World.addTransition
  rcases k : trAddToAtom t w with ⟨w1, _ | _⟩
  · rw [k] at h0
    simp only at h0
    refine ⟨w1, by rw [h0], by rw [h0], by rw [h0], by rw [h0], .inl ?_⟩
    rw [PyM.bind_err k]
  · rw [k] at h0
    simp only at h0
    rw [PyM.bind_ok k]
    have h2 : regTAlias t w1 = ((regTAlias t w1).1, .ok ()) := by unfold regTAlias; split <;> rfl
    have h3 : (regTAlias t w1).1.tr = w1.tr ∧ (regTAlias t w1).1.lv = w1.lv ∧ (regTAlias t w1).1.g = w1.g ∧ (regTAlias t w1).1.ntr = w1.ntr := by
      unfold regTAlias; split <;> exact ⟨rfl, rfl, rfl, rfl⟩
    rw [PyM.bind_ok h2]
    refine ⟨(regTAlias t w1).1, by rw [h3.1, h0], by rw [h3.2.1, h0], by rw [h3.2.2.2, h0], by rw [h3.2.2.1, h0], ?_⟩
    unfold enforceIfSet
    split
    · split
      · exact .inr rfl
      · exact .inl rfl
    · exact .inl rfl

theorem Parts.right {w0 w : World} {n : Str} {P : Nat → Prop} (h : Parts w0 w n P) (hr : AllRight w0) : AllRight w := by
  intro a b t f he
  have := hr a b t f ⟨((h.adj _ _ _).1 he.1).1, by rw [← h.tr]; exact he.2⟩
  rw [h.tr, h.eHz hr, h.eHz hr]
  exact this

theorem Parts.step {w0 w : World} (hw : WF w0) {n : Str} {P : Nat → Prop} (h : Parts w0 w n P) (σ : Ord') {t : Nat} {v : Str} (ht : w0.g.adj n v = some t) :
    Parts w0 (World.addTransition σ t w).1 n (fun s => P s ∨ s = t) := by
  obtain ⟨w1, a1, a2, a0, a3, a4⟩ := addTransition_shape σ t w
  have hedge : ∀ u v', w0.g.adj u v' = some t ↔
      (w0.lname (w0.tr t).lower = u ∧ w0.lname (w0.tr t).upper = v') ∨ (w0.lname (w0.tr t).lower = v' ∧ w0.lname (w0.tr t).upper = u) := by
    intro u v'
    constructor
    · intro he
      rcases (hw.edge _ _ _ he).2.2.2.2.1 with ⟨e1, e2⟩ | ⟨e1, e2⟩
      · exact .inl ⟨e1.symm, e2.symm⟩
      · exact .inr ⟨e2.symm, e1.symm⟩
    · have hs := hw.gok.symm
      intro hh
      rcases (hw.edge _ _ _ ht).2.2.2.2.1 with ⟨e1, e2⟩ | ⟨e1, e2⟩ <;> rcases hh with ⟨f1, f2⟩ | ⟨f1, f2⟩
      · rw [← f1, ← f2, ← e1, ← e2]; exact ht
      · rw [← f1, ← f2, ← e1, ← e2, hs]; exact ht
      · rw [← f1, ← f2, ← e1, ← e2, hs]; exact ht
      · rw [← f1, ← f2, ← e1, ← e2]; exact ht
  have base : Parts w0 w1 n (fun s => P s ∨ s = t) := by
    refine ⟨fun u v' s => ?_, fun i => ?_, fun i => ?_, a1.trans h.tr, ?_, fun hr i => ?_⟩
    · rw [a3, Graph.adj_addEdge, h.tr, h.name, h.name]
      split
      · rename_i hc
        have := (hedge u v').2 hc
        rw [this]
        simp only [Option.some.injEq]
        constructor
        · intro e; exact ⟨e, .inr (.inr e.symm)⟩
        · intro e; exact e.1
      · rename_i hc
        rw [h.adj]
        constructor
        · rintro ⟨e, hh⟩
          exact ⟨e, hh.imp id .inl⟩
        · rintro ⟨e, hh | hh | hh⟩
          · exact ⟨e, .inl hh⟩
          · exact ⟨e, .inr hh⟩
          · exact absurd ((hedge u v').1 (hh ▸ e)) hc
    · show (w1.lv i).term.name = _
      rw [a2]; exact h.name i
    · rw [a2]; exact h.inAtom i
    · exact a0.trans h.ntr
    · show (w1.lv i).levelHz = _
      rw [a2]; exact h.eHz hr i
  rcases a4 with a4 | a4
  · rw [a4]; exact base
  · rw [a4]
    have hf := enforce_frame σ none w1
    have htr : (enforce σ none w1).1.tr = w1.tr := enforce_tr σ none w1
    refine ⟨fun u v' s => ?_, fun i => ?_, fun i => ?_, htr.trans base.tr, ?_, fun hr i => ?_⟩
    · rw [hf.g]; exact base.adj u v' s
    · rw [hf.lname]; exact base.name i
    · rw [hf.inAtom]; exact base.inAtom i
    · rw [hf.ntr]; exact base.ntr
    · rw [(enforce_same σ none w1 (base.right hr)).2]
      exact base.eHz hr i

theorem Parts.all {w0 : World} (hw : WF w0) {n : Str} (σ : Ord') : ∀ (ts : List Nat) {w : World} {P : Nat → Prop}, Parts w0 w n P →
    (∀ t ∈ ts, ∃ v, w0.g.adj n v = some t) → Parts w0 (addAll σ ts w).1 n (fun s => P s ∨ s ∈ ts)
  | [], w, P, h, _ => by
    have : (fun s => P s ∨ s ∈ ([] : List Nat)) = P := by funext s; simp
    rw [this]; exact h
  | t :: ts, w, P, h, ht => by
    obtain ⟨v, hv⟩ := ht t (by simp)
    have := Parts.all hw σ ts (h.step hw σ hv) (fun s hs => ht s (by simp [hs]))
    have e : (fun s => P s ∨ s ∈ t :: ts) = fun s => (P s ∨ s = t) ∨ s ∈ ts := by
      funext s
      simp only [List.mem_cons, or_assoc]
    rw [e]
    exact this

theorem addAll_lev (σ : Ord') : ∀ (ts : List Nat) (w : World) (u : Str), (addAll σ ts w).1.g.lev u = w.g.lev u
  | [], _, _ => rfl
  | t :: ts, w, u => (addAll_lev σ ts _ u).trans ((C46_levels_unchanged_partial w σ t).1 u)

theorem parts_deleted {w : World} {n : Str} {g' : Graph} (h : ∀ u v, g'.adj u v = if u = n ∨ v = n then none else w.g.adj u v) :
    Parts w { w with g := g' } n (fun _ => False) := by
  refine ⟨fun u v t => ?_, fun _ => rfl, fun _ => rfl, rfl, rfl, fun _ _ => rfl⟩
  show g'.adj u v = some t ↔ _
  rw [h, or_false]
  by_cases hc : u = n ∨ v = n
  · rw [if_pos hc]
    constructor
    · intro e; cases e
    · rintro ⟨-, h1, h2⟩
      exact (hc.elim h1 h2).elim
  · rw [if_neg hc]
    exact ⟨fun e => ⟨e, fun e' => hc (.inl e'), fun e' => hc (.inr e')⟩, fun e => e.1⟩

theorem Parts.whole {w0 w : World} (hw : WF w0) {n : Str} {P : Nat → Prop} (h : Parts w0 w n P) (hP : ∀ v t, w0.g.adj n v = some t → P t) (u v : Str) :
    w.g.adj u v = w0.g.adj u v := by
  apply Option.ext
  intro t
  rw [h.adj]
  refine ⟨fun e => e.1, fun e => ⟨e, ?_⟩⟩
  by_cases hu : u = n
  · exact .inr (hP v t (hu ▸ e))
  · by_cases hv : v = n
    · exact .inr (hP u t (by rw [hw.gok.symm, ← hv]; exact e))
    · exact .inl ⟨hu, hv⟩

theorem parts_delAdd {w : World} (hr : Reachable w) {n : Str} {i : Nat} (h : w.g.lev n = some i) : Parts w (delAdd n i w).1 n (fun _ => False) := by
  obtain ⟨h1, h2, h3, h4, h5, h6, h7, h8, h9, h10, h11, h12, h13⟩ := C176_level_partial hr h
  refine ⟨fun u v t => ?_, fun i => ?_, fun i => by rw [h5], h8, h9, fun _ i => ?_⟩
  · have := (parts_deleted (w := w) (n := n) (g' := (delAdd n i w).1.g) h4).adj u v t
    exact this
  · show ((delAdd n _ w).1.lv i).term.name = _
    rw [h5]; rfl
  · show ((delAdd n _ w).1.lv i).levelHz = _
    rw [h5]; rfl

/-- Adding the transitions of the level again, in any order, brings all of them back, whatever the calls raise; if every set frequency was met, no energy
changes. -/
theorem C176_transitions {w : World} (hr : Reachable w) {n : Str} {i : Nat} (h : w.g.lev n = some i) (σ : Ord') {ts : List Nat} (hts : AllOf w n ts) :
    let w' := (addAll σ ts (delAdd n i w).1).1
    (∀ u, w'.g.lev u = w.g.lev u) ∧ (∀ u v, w'.g.adj u v = w.g.adj u v) ∧ w'.tr = w.tr ∧ (AllRight w → ∀ k, w'.eHz k = w.eHz k) := by
  have hp := Parts.all hr.wf σ ts (parts_delAdd hr h) (fun t ht => (hts t).1 ht)
  refine ⟨fun u => (addAll_lev σ ts _ u).trans ((C176_level_partial hr h).2.1 u), ?_, hp.tr, hp.eHz⟩
  exact hp.whole hr.wf fun v t e => .inr ((hts t).2 ⟨v, e⟩)

/-- So does adding the transitions first and the level afterwards. -/
theorem C176_level_last {w : World} (hr : Reachable w) {n : Str} {i : Nat} (h : w.g.lev n = some i) (σ : Ord') {ts : List Nat} (hts : AllOf w n ts) :
    let w1 := (addAll σ ts (levelsDel n w).1).1
    let w' := (addLevel i false none w1).1
    (w1.g.lev n = none ∧ ∀ u v, w1.g.adj u v = w.g.adj u v) ∧
      (∀ u, w'.g.lev u = w.g.lev u) ∧ (∀ u v, w'.g.adj u v = w.g.adj u v) ∧ w'.tr = w.tr ∧ (AllRight w → ∀ k, w'.eHz k = w.eHz k) := by
  obtain ⟨hn, ha, hi⟩ := hr.wf.node _ _ h
  obtain ⟨g', h1, h2, h3, h4⟩ := C176_deleted h
  intro w1 w'
  have hp : Parts w w1 n (fun s => False ∨ s ∈ ts) := by
    show Parts w (addAll σ ts (levelsDel n w).1).1 n _
    rw [h1]
    exact Parts.all hr.wf σ ts (parts_deleted h3) (fun t ht => (hts t).1 ht)
  have hl : ∀ u, w1.g.lev u = if u = n then none else w.g.lev u := by
    intro u
    show (addAll σ ts (levelsDel n w).1).1.g.lev u = _
    rw [addAll_lev, h1]
    exact h2 u
  have hadj := hp.whole hr.wf fun v t e => .inr ((hts t).2 ⟨v, e⟩)
  obtain ⟨k1, k2, k3, k4, k5, k6, k7, k8, k9, k10⟩ := addLevel_again (w := w1) (i := i) (by rw [hp.inAtom]; exact ha)
  rw [hp.name, hn] at k9
  refine ⟨⟨by rw [hl, if_pos rfl], hadj⟩, fun u => ?_, fun u v => ?_, k3.trans hp.tr, fun hA k => ?_⟩
  · show (addLevel i false none w1).1.g.lev u = _
    rw [k9, Graph.lev_addNode]
    by_cases hu : n = u
    · rw [if_pos hu, ← hu, h]
    · rw [if_neg hu, hl, if_neg (Ne.symm hu)]
  · show (addLevel i false none w1).1.g.adj u v = _
    rw [k9, Graph.adj_addNode]
    exact hadj u v
  · show ((addLevel i false none w1).1.lv k).levelHz = _
    rw [k2]
    exact hp.eHz hA k

/-- A level without transitions is back as it was. -/
theorem C176_alone_partial {w : World} (hr : Reachable w) {n : Str} {i : Nat} (h : w.g.lev n = some i) (h0 : ∀ v, w.g.adj n v = none) :
    (delAdd n i w).2 = .ok () ∧ (∀ u, (delAdd n i w).1.g.lev u = w.g.lev u) ∧ ∀ u v, (delAdd n i w).1.g.adj u v = w.g.adj u v :=
  ⟨(C176_level_partial hr h).1, (C176_level_partial hr h).2.1, (parts_delAdd hr h).whole hr.wf fun v t e => by rw [h0] at e; cases e⟩

theorem accepted_aux {w0 : World} (hw0 : WF w0) {n : Str} {σ : Ord'} (hσ : Shuffles σ) : ∀ (ts : List Nat) {w : World} {P : Nat → Prop}, Parts w0 w n P → WF w →
    (∀ u, w.g.lev u = w0.g.lev u) → (∀ t ∈ ts, ∃ v, w0.g.adj n v = some t) →
    (addAll σ ts w).2 = ts.map fun t => if (w0.tr t).subKeys = [] then .ok () else .error .AttributeError
  | [], _, _, _, _, _, _ => rfl
  | t :: ts, w, P, hp, hw, hl, ht => by
    obtain ⟨v, hv⟩ := ht t (by simp)
    obtain ⟨e1, e2, e3, e4, e5, e6⟩ := hw0.edge _ _ _ hv
    have hW : WF (trAddToAtom t w).1 := by
      refine hw.trAddToAtom t (by rw [hp.ntr]; exact e1) (by rw [hp.tr]; exact e2) ?_ ?_ (by rw [hp.tr]; exact e6)
      · unfold Registered
        rw [hp.tr, hl, hp.name]; exact e3
      · unfold Registered
        rw [hp.tr, hl, hp.name]; exact e4
    have ih := accepted_aux hw0 hσ ts (hp.step hw0 σ hv) (hW.frame (addTransition_frame σ t w))
      (fun u => ((C46_levels_unchanged_partial w σ t).1 u).trans (hl u)) (fun s hs => ht s (by simp [hs]))
    show (World.addTransition σ t w).2 :: (addAll σ ts (World.addTransition σ t w).1).2 = _
    rw [ih, List.map_cons]
    congr 1
    by_cases hk : (w0.tr t).subKeys = []
    · rw [if_pos hk]
      exact (addTransition_ok hσ hW (by rw [hp.tr]; exact e2) (by rw [hp.tr]; exact hk)).1
    · rw [if_neg hk]
      have k : trAddToAtom t w = ((trAddToAtom t w).1, .error .AttributeError) := by
        unfold trAddToAtom
        simp only
        have : ¬(w.tr t).subKeys.length = 0 := by rw [hp.tr, List.length_eq_zero_iff]; exact hk
        rw [if_neg this]
      unfold World.addTransition
      rw [PyM.bind_err k]

/-- Which of these calls raise: those for transitions whose subtransitions have been looked at. -/
theorem C176_accepted {w : World} (hr : Reachable w) {n : Str} {i : Nat} (h : w.g.lev n = some i) {σ : Ord'} (hσ : Shuffles σ) {ts : List Nat} (hts : AllOf w n ts) :
    (addAll σ ts (delAdd n i w).1).2 = ts.map fun t => if (w.tr t).subKeys = [] then .ok () else .error .AttributeError := by
  obtain ⟨hn, ha, hi⟩ := hr.wf.node _ _ h
  refine accepted_aux hr.wf hσ ts (parts_delAdd hr h) ?_ (C176_level_partial hr h).2.1 (fun t ht => (hts t).1 ht)
  obtain ⟨g', h1, h2, h3, h4⟩ := C176_deleted h
  have hw1 : WF (levelsDel n w).1 := hr.wf.levelsDel n
  have e : delAdd n i w = addLevel i false none { w with g := g' } := PyM.bind_ok h1
  rw [h1] at hw1
  have hn' : World.lname { w with g := g' } i = n := hn
  have hw2 := hw1.lvAddToAtom i hi (.inl (by rw [hn']; show g'.lev n = none; rw [h2, if_pos rfl]))
  rw [e]
  refine hw2.frame ?_
  obtain ⟨k1, k2, k3, k4, k5, k6, k7, k8, k9, k10⟩ := addLevel_again (w := { w with g := g' }) (i := i) ha
  have hu : upd w.lv i { w.lv i with inAtom := true } = w.lv := upd_id _ _ (by rw [← ha])
  have hv : (lvAddToAtom i { w with g := g' }).1.lv = w.lv := hu
  refine ⟨k5, k4, k9, fun j => by rw [k2, hv], fun j => by rw [k2, hv], fun t => ?_⟩
  rw [k3]
  exact ⟨rfl, rfl, rfl, rfl, rfl⟩

/-! ## A case: g-a at 5 Hz and a-b, with a deleted -/

/-- The calls. -/
def putOps : List Op := [.newLevel (demoTerm 'g') 0 0 0 0 0 none, .addLevel 0 false none, .newLevel (demoTerm 'a') 5 0 0 0 0 (some ['x']), .addLevel 1 false none,
  .newLevel (demoTerm 'b') 9 0 0 0 0 none, .addLevel 2 false none, .newTrans 0 1 (some 5) .none none, .newTrans 1 2 none .none none,
  .fillSub 1 [("F=1/2".toList, "F=1/2".toList)], .setAlias (.fine 2) ['x']]

/-- The atom. -/
def putAtom : World := runAll putOps (emptyAtom 0 0)

theorem putAtom_reachable : Reachable putAtom := demo_reachable (by decide +kernel)

theorem putAtom_allOf : AllOf putAtom (demoName 'a') [1, 0] := by
  intro t
  constructor
  · intro h
    have : t = 1 ∨ t = 0 := by simpa using h
    rcases this with rfl | rfl
    · exact ⟨demoName 'b', by decide +kernel⟩
    · exact ⟨demoName 'g', by decide +kernel⟩
  · rintro ⟨v, h⟩
    unfold Graph.adj at h
    have e : putAtom.g.get? (demoName 'a') = some ⟨some 1, [(demoName 'g', 0), (demoName 'b', 1)]⟩ := by decide +kernel
    rw [e] at h
    have := Dict.mem_of_get? h
    simp only [List.mem_cons, Prod.mk.injEq, List.not_mem_nil, or_false] at this
    rcases this with ⟨-, rfl⟩ | ⟨-, rfl⟩ <;> simp

theorem putAtom_right : AllRight putAtom := fun _ _ _ _ he =>
  forall_setEdge (w := putAtom) (P := fun _ _ t f => 0 ≤ f ∧ putAtom.eHz (putAtom.tr t).upper - putAtom.eHz (putAtom.tr t).lower = f) (by decide +kernel) he

/-- C176 is false: the level comes back without its transitions. -/
theorem C176_fails : ¬C176_full := by
  intro h
  have := (h putAtom (demoName 'a') 1 putAtom_reachable (by decide +kernel)).2.2 (demoName 'g') (demoName 'a')
  revert this
  decide +kernel

/-- Adding b-a and a-g again: the first call raises, for its subtransitions have been looked at, and both are back; no energy changes. -/
example : (addAll idOrd [1, 0] (delAdd (demoName 'a') 1 putAtom).1).2 = [.error .AttributeError, .ok ()] ∧
    (∀ u v, (addAll idOrd [1, 0] (delAdd (demoName 'a') 1 putAtom).1).1.g.adj u v = putAtom.g.adj u v) ∧
    ∀ k, (addAll idOrd [1, 0] (delAdd (demoName 'a') 1 putAtom).1).1.eHz k = putAtom.eHz k := by
  have h := C176_transitions putAtom_reachable (n := demoName 'a') (i := 1) (by decide +kernel) idOrd putAtom_allOf
  refine ⟨?_, h.2.1, h.2.2.2 putAtom_right⟩
  rw [C176_accepted putAtom_reachable (by decide +kernel) idOrd_shuffles putAtom_allOf]
  decide +kernel

/-- With the transitions first the level is not there, and its transitions are. -/
example : (addAll idOrd [1, 0] (levelsDel (demoName 'a') putAtom).1).1.g.lev (demoName 'a') = none ∧
    (addAll idOrd [1, 0] (levelsDel (demoName 'a') putAtom).1).1.g.adj (demoName 'a') (demoName 'g') = some 0 :=
  let h := (C176_level_last putAtom_reachable (n := demoName 'a') (i := 1) (by decide +kernel) idOrd putAtom_allOf).1
  ⟨h.1, (h.2 _ _).trans (by decide +kernel)⟩

/-- The alias x belonged to a and now to b; putting a back takes it. -/
theorem C176_alias : putAtom.lalias.get? ['x'] = some (.fine 2) ∧ (delAdd (demoName 'a') 1 putAtom).1.lalias.get? ['x'] = some (.fine 1) := by decide +kernel

/-- A level without transitions. -/
example : ∀ u v, (delAdd (demoName 'g') 0 (runAll (threeLevels 0 5 9) (emptyAtom 0 0))).1.g.adj u v = (runAll (threeLevels 0 5 9) (emptyAtom 0 0)).g.adj u v :=
  (C176_alone_partial (w := runAll (threeLevels 0 5 9) (emptyAtom 0 0)) (demo_reachable (by decide +kernel)) (n := demoName 'g') (i := 0) (by decide +kernel)
    (fun v => by
      unfold Graph.adj
      have e : (runAll (threeLevels 0 5 9) (emptyAtom 0 0)).g.get? (demoName 'g') = some ⟨some 0, []⟩ := by decide +kernel
      rw [e]; rfl)).2.2

end AtomTk
