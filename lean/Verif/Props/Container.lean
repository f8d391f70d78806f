import Verif.Proofs.History
import Verif.Proofs.Sort
import Verif.Proofs.Alias
import Verif.Props.Enforce

/-!
# C16, C17, C45: the level container

Specifications are finite maps updated event by event (`applyEv`), written without the graph.
-/

namespace AtomTk
open Util World

/-! ## C45 -/

/-- What the user did to the container. -/
inductive Ev
  | add (name : Str) (level : Nat)
  | del (name : Str)

/-- The effect on a finite map from names to levels. -/
def applyEv (m : Str → Option Nat) : Ev → Str → Option Nat
  | .add n i => fun x => if x = n then some i else m x
  | .del n => fun x => if x = n then none else m x

/-- The map after a sequence of events. -/
def tracked (evs : List Ev) : Str → Option Nat := evs.foldl applyEv (fun _ => none)

/-- The event of a call: `add_level` and item assignment add a level under its own name, `del` deletes. -/
def eventOf (w : World) : Op → List Ev
  | .addLevel i _ _ => [.add (w.lname i) i]
  | .setItem _ i => [.add (w.lname i) i]
  | .delItem key => [.del key]
  | _ => []

/-- The events of a history. -/
def eventsOf : List Op → World → List Ev
  | [], _ => []
  | op :: ops, w => eventOf w op ++ eventsOf ops (op.run w).1

theorem lev_of_graph {w w' : World} (h : w'.g = w.g) : ∀ n, w'.g.lev n = w.g.lev n := fun n => by rw [h]

theorem newTransObj_lev (a b : Nat) (ali : Option Str) (w : World) (n : Str) :
    (newTransObj a b ali w).1.g.lev n = w.g.lev n := by
  unfold newTransObj
  simp only
  split
  · unfold World.trAddToAtom
    simp only [upd_same]
    exact Graph.lev_addEdge ..
  · rfl

theorem newTransAttrs_g (t : Nat) (f : Option ℚ) (A : AArg) (w : World) : (newTransAttrs t f A w).1.g = w.g := by
  unfold newTransAttrs
  split
  · rfl
  · split
    · rfl
    · simp only
      split
      · rfl
      · split <;> rfl

theorem newTrans_lev (a b : Nat) (f : Option ℚ) (A : AArg) (ali : Option Str) (w : World) (n : Str) :
    (World.newTrans a b f A ali w).1.g.lev n = w.g.lev n := by
  unfold World.newTrans
  refine PyM.bind_rel (fun a b => b.g.lev n = a.g.lev n) (fun _ _ _ h1 h2 => h2.trans h1)
    (fun w => newTransObj_lev _ _ _ w n) (fun t => ?_) w
  refine PyM.bind_rel (fun a b => b.g.lev n = a.g.lev n) (fun _ _ _ h1 h2 => h2.trans h1)
    (fun w => by rw [newTransAttrs_g]) (fun _ _ => rfl)

theorem addLevel_lev (i : Nat) (p : Bool) (ali : Option Str) (w : World) (n : Str) :
    (World.addLevel i p ali w).1.g.lev n = if n = w.lname i then some i else w.g.lev n := by
  obtain ⟨w', h1, h2⟩ := addLevel_def i p ali w
  rw [h1, h2.g]
  show (w.g.addNode (w.lname i) i).lev n = _
  rw [Graph.lev_addNode]
  by_cases h : n = w.lname i
  · rw [if_pos h, if_pos h.symm]
  · rw [if_neg h, if_neg (Ne.symm h)]

theorem step_lev (op : Op) (w : World) (n : Str) :
    (op.run w).1.g.lev n = (eventOf w op).foldl applyEv w.g.lev n := by
  cases op with
  | newLevel t E l A B C ali =>
    show (Op.void _ w).1.g.lev n = _
    rw [Op.void_fst]; rfl
  | addLevel i p ali => exact addLevel_lev i p ali w n
  | setItem key i => exact addLevel_lev i false (some key) w n
  | delItem key =>
    show (World.levelsDel key w).1.g.lev n = if n = key then none else w.g.lev n
    unfold World.levelsDel
    split
    · rename_i g hg
      exact Graph.lev_removeNode hg n
    · rename_i e he
      split
      · rename_i hn
        subst hn
        by_contra hc
        obtain ⟨i, hi⟩ := Option.ne_none_iff_exists'.mp hc
        have := (Dict.has_iff w.g n).2 (Graph.mem_of_lev hi)
        simp [Graph.removeNode, this] at he
      · rfl
  | getLevel key =>
    show (Op.void _ w).1.g.lev n = _
    rw [Op.void_fst, (levelsGet_frame key w).g]; rfl
  | getSub r key =>
    show (Op.void _ w).1.g.lev n = _
    rw [Op.void_fst, (refItem_frame r key w).g]; rfl
  | setAlias r al => exact lev_of_graph (setAlias_frame r al w).g n
  | setEnergy i v => rfl
  | setHEnergy j v => exact lev_of_graph (setHLevel_frame j v w).g n
  | setZEnergy k v => exact lev_of_graph (setZLevel_frame k v w).g n
  | setConsts i l A B C => rfl
  | setQuad k q => rfl
  | setB b => rfl
  | newTrans a b f A ali =>
    show (Op.void _ w).1.g.lev n = _
    rw [Op.void_fst]; exact newTrans_lev ..
  | addTransition σ t =>
    show (World.addTransition σ t w).1.g.lev n = _
    rw [(addTransition_frame σ t w).g, trAddToAtom_fst]
    exact Graph.lev_addEdge ..
  | setFrequency σ t f => exact lev_of_graph (setFrequency_frame σ t f w).g n
  | enforce σ => exact lev_of_graph (enforce_frame σ none w).g n
  | fillSub t keys => rfl

theorem run_lev (ops : List Op) (w : World) (n : Str) :
    (runAll ops w).g.lev n = (eventsOf ops w).foldl applyEv w.g.lev n := by
  induction ops generalizing w with
  | nil => rfl
  | cons op ops ih =>
    show (runAll ops (op.run w).1).g.lev n = (eventOf w op ++ eventsOf ops (op.run w).1).foldl applyEv w.g.lev n
    rw [List.foldl_append, ih]
    have e : (op.run w).1.g.lev = (eventOf w op).foldl applyEv w.g.lev := funext fun x => step_lev op w x
    rw [e]

theorem step_ok (op : Op) {w : World} (h : w.g.Ok) : (op.run w).1.g.Ok := by
  cases op with
  | newLevel t E l A B C ali =>
    show (Op.void _ w).1.g.Ok
    rw [Op.void_fst]; exact h
  | addLevel i p ali =>
    obtain ⟨w', h1, h2⟩ := addLevel_def i p ali w
    show (World.addLevel i p ali w).1.g.Ok
    rw [h1, h2.g]; exact h.addNode _ _
  | setItem key i =>
    obtain ⟨w', h1, h2⟩ := addLevel_def i false (some key) w
    show (World.addLevel i false (some key) w).1.g.Ok
    rw [h1, h2.g]; exact h.addNode _ _
  | delItem key =>
    show (World.levelsDel key w).1.g.Ok
    unfold World.levelsDel
    split
    · rename_i g hg; exact h.removeNode hg
    · exact h
  | getLevel key =>
    show (Op.void _ w).1.g.Ok
    rw [Op.void_fst, (levelsGet_frame key w).g]; exact h
  | getSub r key =>
    show (Op.void _ w).1.g.Ok
    rw [Op.void_fst, (refItem_frame r key w).g]; exact h
  | setAlias r al => show (World.setAlias r al w).1.g.Ok; rw [(setAlias_frame r al w).g]; exact h
  | setEnergy i v => exact h
  | setHEnergy j v => show (World.setHLevel j v w).1.g.Ok; rw [(setHLevel_frame j v w).g]; exact h
  | setZEnergy k v => show (World.setZLevel k v w).1.g.Ok; rw [(setZLevel_frame k v w).g]; exact h
  | setConsts i l A B C => exact h
  | setQuad k q => exact h
  | setB b => exact h
  | newTrans a b f A ali =>
    show (Op.void _ w).1.g.Ok
    rw [Op.void_fst]
    unfold World.newTrans
    refine PyM.bind_rel (fun a b => a.g.Ok → b.g.Ok) (fun _ _ _ h1 h2 => h2 ∘ h1) (fun w h => ?_) (fun t => ?_) w h
    · unfold newTransObj
      simp only
      split
      · have hok : (w.g.addEdge (w.lname (if w.eHz b > w.eHz a then a else b))
            (w.lname (if w.eHz b > w.eHz a then b else a)) w.ntr).Ok := h.addEdge _ _ _
        unfold World.trAddToAtom
        simp only [upd_same]
        exact hok
      · exact h
    · refine PyM.bind_rel (fun a b => a.g.Ok → b.g.Ok) (fun _ _ _ h1 h2 => h2 ∘ h1) (fun w h => ?_) (fun _ _ h => h)
      rw [newTransAttrs_g]; exact h
  | addTransition σ t =>
    show (World.addTransition σ t w).1.g.Ok
    rw [(addTransition_frame σ t w).g, trAddToAtom_fst]
    exact h.addEdge _ _ _
  | setFrequency σ t f => show (World.setFrequency σ t f w).1.g.Ok; rw [(setFrequency_frame σ t f w).g]; exact h
  | enforce σ => show (World.enforce σ none w).1.g.Ok; rw [(enforce_frame σ none w).g]; exact h
  | fillSub t keys => exact h

theorem run_ok (ops : List Op) {w : World} (h : w.g.Ok) : (runAll ops w).g.Ok := by
  induction ops generalizing w with
  | nil => exact h
  | cons op ops ih => exact ih (step_ok op h)

/-- C45: after any history the container lists, each once, exactly the names added and not deleted since, with the
level added last under the name (whatever else happened in between). -/
theorem C45_container (ops : List Op) (I B : ℚ) :
    (∀ n i, (n, i) ∈ (runAll ops (emptyAtom I B)).g.levelAttrs ↔ tracked (eventsOf ops (emptyAtom I B)) n = some i) ∧
    (runAll ops (emptyAtom I B)).levelNames.Nodup := by
  have hok : (runAll ops (emptyAtom I B)).g.Ok := run_ok ops Graph.Ok.empty
  refine ⟨fun n i => ?_, Graph.nodup_levelAttrs _ hok.nodup⟩
  rw [Dict.mem_iff (Graph.nodup_levelAttrs _ hok.nodup), Graph.get?_levelAttrs _ hok.nodup, run_lev]
  rfl

/-- Nodes of the graph are levels: no transition has put a name without a level into the graph. -/
def Solid (w : World) : Prop := ∀ n ∈ w.g.keys, ∃ i, w.g.lev n = some i

theorem solid_frame {w w' : World} (h : Solid w) (hg : w'.g = w.g) : Solid w' := by
  unfold Solid; rw [hg]; exact h

theorem solid_addNode {w w' : World} (h : Solid w) (n : Str) (i : Nat) (hg : w'.g = w.g.addNode n i) : Solid w' := by
  intro m hm
  rw [hg] at hm ⊢
  rw [Graph.lev_addNode]
  split
  · exact ⟨_, rfl⟩
  · rename_i hne
    rw [Graph.keys_addNode] at hm
    split at hm
    · exact h m hm
    · simp only [List.mem_append, List.mem_singleton] at hm
      rcases hm with hm | hm
      · exact h m hm
      · exact absurd hm.symm hne

theorem solid_addEdge {w w' : World} (h : Solid w) (a b : Nat) (t : Nat) (ha : w.Registered a) (hb : w.Registered b)
    (hg : w'.g = w.g.addEdge (w.lname a) (w.lname b) t) : Solid w' := by
  intro m hm
  rw [hg] at hm ⊢
  rw [Graph.lev_addEdge]
  rw [Graph.keys_addEdge_of_mem _ _ _ _ (Graph.mem_of_lev ha) (Graph.mem_of_lev hb)] at hm
  exact h m hm

theorem Reachable.solid {w : World} (hr : Reachable w) : Solid w := by
  induction hr with
  | empty I B => intro n hn; simp [emptyAtom, Dict.keys] at hn
  | @step w op hr hs ih =>
    cases op with
    | newLevel t E l A B C ali => exact solid_frame ih (by show (Op.void _ w).1.g = _; rw [Op.void_fst]; rfl)
    | addLevel i p ali =>
      obtain ⟨w', h1, h2⟩ := addLevel_def i p ali w
      exact solid_addNode ih (w.lname i) i (by show (World.addLevel i p ali w).1.g = _; rw [h1, h2.g]; rfl)
    | setItem key i =>
      obtain ⟨w', h1, h2⟩ := addLevel_def i false (some key) w
      exact solid_addNode ih (w.lname i) i (by show (World.addLevel i false (some key) w).1.g = _; rw [h1, h2.g]; rfl)
    | delItem key =>
      show Solid (World.levelsDel key w).1
      unfold World.levelsDel
      split
      · rename_i g hg
        intro m hm
        have hm' : m ∈ g.keys := hm
        rw [Graph.keys_removeNode hg] at hm'
        simp only [List.mem_filter, decide_eq_true_eq] at hm'
        show ∃ i, g.lev m = some i
        rw [Graph.lev_removeNode hg, if_neg hm'.2]
        exact ih m hm'.1
      · exact ih
    | getLevel key => exact solid_frame ih (by show (Op.void _ w).1.g = _; rw [Op.void_fst]; exact (levelsGet_frame key w).g)
    | getSub r key => exact solid_frame ih (by show (Op.void _ w).1.g = _; rw [Op.void_fst]; exact (refItem_frame r key w).g)
    | setAlias r al => exact solid_frame ih (setAlias_frame r al w).g
    | setEnergy i v => exact ih
    | setHEnergy j v => exact solid_frame ih (setHLevel_frame j v w).g
    | setZEnergy k v => exact solid_frame ih (setZLevel_frame k v w).g
    | setConsts i l A B C => exact ih
    | setQuad k q => exact ih
    | setB b => exact ih
    | newTrans a b f A ali =>
      obtain ⟨ha, hb, hJ0, hJ1, hA⟩ := hs
      obtain ⟨J0, hJ0⟩ := Option.ne_none_iff_exists'.mp hJ0
      obtain ⟨J1, hJ1⟩ := Option.ne_none_iff_exists'.mp hJ1
      refine solid_addEdge (a := if w.eHz b > w.eHz a then a else b) (b := if w.eHz b > w.eHz a then b else a)
        (t := w.ntr) ih (by split <;> assumption) (by split <;> assumption) ?_
      show (Op.void _ w).1.g = _
      rw [Op.void_fst, newTrans_ok w a b f A ali J0 J1 (hr.wf.node _ _ ha).2.1 hJ0 hJ1 hA]
    | addTransition σ t =>
      refine solid_addEdge (a := (w.tr t).lower) (b := (w.tr t).upper) (t := t) ih hs.2.2.1 hs.2.2.2 ?_
      show (World.addTransition σ t w).1.g = _
      rw [(addTransition_frame σ t w).g, trAddToAtom_fst]
    | setFrequency σ t f => exact solid_frame ih (setFrequency_frame σ t f w).g
    | enforce σ => exact solid_frame ih (enforce_frame σ none w).g
    | fillSub t keys => exact ih

/-- C45: deleting a name that is not listed raises and changes nothing; deleting a listed one succeeds. -/
theorem C45_delete {w : World} (hr : Reachable w) (key : Str) :
    (key ∉ w.levelNames → levelsDel key w = (w, .error .NetworkXError)) ∧
    (key ∈ w.levelNames → ∃ w', levelsDel key w = (w', .ok ()) ∧ w'.levelNames = w.levelNames.filter (fun n => n ≠ key)) := by
  have hk : ∀ {g : Graph}, g.Ok → (∀ n ∈ g.keys, ∃ i, g.lev n = some i) → g.levelAttrs.keys = g.keys := by
    intro g hg hs
    rw [Graph.keys_levelAttrs g hg.nodup, List.filter_eq_self]
    intro n hn
    obtain ⟨i, hi⟩ := hs n hn
    simp [hi]
  have hkeys : w.levelNames = w.g.keys := hk hr.wf.gok hr.solid
  constructor
  · intro h
    rw [hkeys] at h
    unfold levelsDel
    rw [Graph.removeNode_err h]
  · intro h
    rw [hkeys] at h
    have hrm : ∃ g, w.g.removeNode key = .ok g := by
      unfold Graph.removeNode
      rw [if_pos ((Dict.has_iff w.g key).2 h)]
      exact ⟨_, rfl⟩
    obtain ⟨g, hg⟩ := hrm
    refine ⟨{ w with g := g }, by unfold levelsDel; rw [hg], ?_⟩
    show g.levelAttrs.keys = _
    rw [hkeys, hk (hr.wf.gok.removeNode hg), Graph.keys_removeNode hg]
    intro n hn
    rw [Graph.keys_removeNode hg] at hn
    simp only [List.mem_filter, decide_eq_true_eq] at hn
    rw [Graph.lev_removeNode hg, if_neg hn.2]
    exact hr.solid n hn.1

/-- A history with overwriting, deletion and re-adding. -/
def bookOps : List Op :=
  threeLevels 0 1 2 ++ [.delItem (demoName 'a'), .newLevel (demoTerm 'b') 7 0 0 0 0 none, .addLevel 3 true none]

example : (runAll bookOps (emptyAtom 0 0)).g.levelAttrs = [(demoName 'g', 0), (demoName 'b', 3)] := by decide +kernel

example : Reachable (runAll (threeLevels 0 1 2) (emptyAtom 0 0)) ∧
    demoName 'a' ∈ (runAll (threeLevels 0 1 2) (emptyAtom 0 0)).levelNames ∧
    demoName 'z' ∉ (runAll (threeLevels 0 1 2) (emptyAtom 0 0)).levelNames :=
  ⟨demo_reachable (by decide +kernel), by decide +kernel, by decide +kernel⟩

/-! ## C16 -/

/-- The aliases a call assigns. -/
def assigns (w : World) : Op → Str → Prop
  | .addLevel _ _ (some a), al => a = al
  | .addLevel i _ none, al => (w.lv i).ali = some al
  | .setItem key _, al => key = al
  | .setAlias _ a, al => a = al
  | _, _ => False

theorem levelsGet_alias {w : World} {al : Str} {r : Ref} (h : w.lalias.get? al = some r) :
    levelsGet al w = (w, .ok r) := by
  unfold levelsGet
  rw [PyM.bind_ok (show PyM.get w = (w, .ok w) from rfl)]
  simp only [h]
  rfl

theorem popTail_lalias (i : Nat) (p : Bool) (w : World) :
    ((if p then populateHF i else pure () : PyM Unit) w).1.lalias = w.lalias := by
  cases p
  · rfl
  · exact (populateHF_frame i w).lalias

theorem addLevel_lalias (i : Nat) (p : Bool) (ali : Option Str) (w : World) (al : Str) :
    (World.addLevel i p ali w).1.lalias.get? al =
      if (match ali with | some a => some a | none => (w.lv i).ali) = some al then some (.fine i)
      else w.lalias.get? al := by
  unfold World.addLevel
  have hl : World.lvAddToAtom i w = ((World.lvAddToAtom i w).1, .ok ()) := rfl
  rw [PyM.bind_ok hl]
  set w1 := (World.lvAddToAtom i w).1 with hw1
  have h1 : (w1.lv i).ali = (w.lv i).ali := by simp [hw1, World.lvAddToAtom, PyM.modify]
  have h1' : (w1.lv i).inAtom = true := by simp [hw1, World.lvAddToAtom, PyM.modify]
  have h1a : w1.lalias = w.lalias := rfl
  cases ali with
  | none =>
    have e : setAliasOpt i none w1 = (w1, .ok ()) := rfl
    rw [PyM.bind_ok e]
    cases hp : (w1.lv i).ali with
    | none =>
      have e2 : regAlias i w1 = (w1, .ok ()) := by unfold regAlias; rw [hp]
      rw [PyM.bind_ok e2, popTail_lalias, h1a, ← h1, hp]
      simp
    | some a =>
      have e2 : regAlias i w1 = ({ w1 with lalias := w1.lalias.set a (.fine i) }, .ok ()) := by unfold regAlias; rw [hp]
      rw [PyM.bind_ok e2, popTail_lalias, ← h1, hp]
      simp only [Dict.get?_set, h1a, Option.some.injEq]
  | some a =>
    have e : ∃ w2, setAliasOpt i (some a) w1 = (w2, .ok ()) ∧ (w2.lv i).ali = some a ∧
        w2.lalias = w.lalias.set a (.fine i) := by
      refine ⟨{ w1.setLv i { w1.lv i with ali := some a } with lalias := w1.lalias.set a (.fine i) }, ?_, ?_, rfl⟩
      · simp [setAliasOpt, World.setAlias, setLv, h1']
      · simp [setLv]
    obtain ⟨w2, e, h2, h3⟩ := e
    rw [PyM.bind_ok e]
    have e2 : regAlias i w2 = ({ w2 with lalias := w2.lalias.set a (.fine i) }, .ok ()) := by unfold regAlias; rw [h2]
    rw [PyM.bind_ok e2, popTail_lalias]
    simp only [Dict.get?_set, h3, Option.some.injEq]
    split <;> rfl

/-- The aliases only change by assignment. -/
theorem lalias_kept (op : Op) (w : World) (al : Str) (h : ¬assigns w op al) :
    (op.run w).1.lalias.get? al = w.lalias.get? al := by
  cases op with
  | newLevel t E l A B C ali =>
    show (Op.void _ w).1.lalias.get? al = _
    rw [Op.void_fst]; rfl
  | addLevel i p ali =>
    show (World.addLevel i p ali w).1.lalias.get? al = _
    rw [addLevel_lalias, if_neg]
    cases ali with
    | none => exact h
    | some a => simpa [assigns] using h
  | setItem key i =>
    show (World.addLevel i false (some key) w).1.lalias.get? al = _
    rw [addLevel_lalias, if_neg (by simpa [assigns] using h)]
  | delItem key =>
    show (World.levelsDel key w).1.lalias.get? al = _
    unfold World.levelsDel
    split <;> rfl
  | getLevel key =>
    show (Op.void _ w).1.lalias.get? al = _
    rw [Op.void_fst, (levelsGet_frame key w).lalias]
  | getSub r key =>
    show (Op.void _ w).1.lalias.get? al = _
    rw [Op.void_fst, (refItem_frame r key w).lalias]
  | setAlias r a =>
    have hne : a ≠ al := h
    show (World.setAlias r a w).1.lalias.get? al = _
    unfold World.setAlias
    split
    · simp only
      split
      · show (w.lalias.set a _).get? al = _
        rw [Dict.get?_set, if_neg hne]
      · rfl
    · show (w.lalias.set a _).get? al = _
      rw [Dict.get?_set, if_neg hne]
  | setEnergy i v => rfl
  | setHEnergy j v =>
    show (World.setHLevel j v w).1.lalias.get? al = _
    unfold World.setHLevel; split <;> rfl
  | setZEnergy k v =>
    show (World.setZLevel k v w).1.lalias.get? al = _
    unfold World.setZLevel; split
    · unfold World.setHLevel; split <;> rfl
    · rfl
    · rfl
  | setConsts i l A B C => rfl
  | setQuad k q => rfl
  | setB b => rfl
  | newTrans a b f A ali =>
    show (Op.void _ w).1.lalias.get? al = _
    rw [Op.void_fst, newTrans_lalias]
  | addTransition σ t =>
    show (World.addTransition σ t w).1.lalias.get? al = _
    rw [addTransition_lalias]
  | setFrequency σ t f =>
    show (World.setFrequency σ t f w).1.lalias.get? al = _
    rw [setFrequency_lalias]
  | enforce σ =>
    show (World.enforce σ none w).1.lalias.get? al = _
    rw [enforce_lalias]
  | fillSub t keys => rfl

/-- A history in which no call assigns the alias `al`. -/
def NeverAssigns (al : Str) : List Op → World → Prop
  | [], _ => True
  | op :: ops, w => ¬assigns w op al ∧ NeverAssigns al ops (op.run w).1

/-- C16: looking up an alias just assigned gives the level, for each of the ways to assign: with `add_level`, by item
assignment, by the alias given to the constructor, through `.alias` (also of a sublevel). -/
theorem C16_assigned (w : World) (al : Str) :
    (∀ i p, let w' := (World.addLevel i p (some al) w).1; levelsGet al w' = (w', .ok (.fine i))) ∧
    (∀ i, let w' := (World.levelsSet al i w).1; levelsGet al w' = (w', .ok (.fine i))) ∧
    (∀ i p, (w.lv i).ali = some al → let w' := (World.addLevel i p none w).1; levelsGet al w' = (w', .ok (.fine i))) ∧
    (∀ r, (∀ i, r = .fine i → (w.lv i).inAtom = true) →
      let w' := (World.setAlias r al w).1; levelsGet al w' = (w', .ok r)) := by
  refine ⟨fun i p => levelsGet_alias ?_, fun i => levelsGet_alias ?_, fun i p h => levelsGet_alias ?_,
    fun r h => levelsGet_alias ?_⟩
  · rw [addLevel_lalias, if_pos rfl]
  · show (World.addLevel i false (some al) w).1.lalias.get? al = _
    rw [addLevel_lalias, if_pos rfl]
  · rw [addLevel_lalias, if_pos h]
  · cases r with
    | fine i =>
      have := h i rfl
      simp [World.setAlias, setLv, this, Dict.get?_set]
    | hyp j => simp [World.setAlias, Dict.get?_set]
    | zee k => simp [World.setAlias, Dict.get?_set]

/-- C16: an alias keeps resolving to its level through any history that does not assign it again. -/
theorem C16_kept (al : Str) (r : Ref) (ops : List Op) (w : World) (h : w.lalias.get? al = some r)
    (hn : NeverAssigns al ops w) : levelsGet al (runAll ops w) = (runAll ops w, .ok r) := by
  induction ops generalizing w with
  | nil => exact levelsGet_alias h
  | cons op ops ih => exact ih (op.run w).1 (by rw [lalias_kept op w al hn.1]; exact h) hn.2

/-- C16, last part: deleting a level makes its alias stop resolving. -/
def C16_full : Prop :=
  ∀ (w : World) (n al : Str) (i : Nat), Reachable w → w.g.lev n = some i → w.lalias.get? al = some (.fine i) →
    ∀ w', levelsDel n w = (w', .ok ()) → ∀ r, (levelsGet al w').2 ≠ .ok r

/-- Levels with an alias `x` for the first one. -/
def aliasOps : List Op := [.newLevel (demoTerm 'g') 0 0 0 0 0 (some ['x']), .addLevel 0 true none]

/-- The deleted level is still found through its alias (atom_helpers.py:61-62 only removes the node). -/
theorem C16_fails : ¬C16_full := by
  intro h
  have hr : Reachable (runAll aliasOps (emptyAtom 0 0)) := demo_reachable (by decide +kernel)
  refine h (runAll aliasOps (emptyAtom 0 0)) (demoName 'g') ['x'] 0 hr (by decide +kernel) (by decide +kernel)
    (levelsDel (demoName 'g') (runAll aliasOps (emptyAtom 0 0))).1 ?_ (.fine 0) (by decide +kernel)
  have : (levelsDel (demoName 'g') (runAll aliasOps (emptyAtom 0 0))).2 = .ok () := by decide +kernel
  rw [← this]

/-- In fact the alias of a deleted level always keeps resolving to the deleted object. -/
theorem C16_stale_partial (w : World) (n al : Str) (r : Ref) (h : w.lalias.get? al = some r) :
    (levelsGet al (levelsDel n w).1).2 = .ok r := by
  have := C16_kept al r [.delItem n] w h ⟨id, trivial⟩
  exact congrArg Prod.snd this

example : (levelsGet ['x'] (runAll aliasOps (emptyAtom 0 0))).2 = .ok (.fine 0) := by decide +kernel
example : NeverAssigns ['x'] (threeLevels 0 1 2) (emptyAtom 0 0) := by
  simp [NeverAssigns, threeLevels, assigns, Op.run, Op.void, World.newLevel, upd, World.addLevel, World.lvAddToAtom,
    PyM.modify, bind, PyM.bind', setAliasOpt, regAlias, pure, emptyAtom, demoTerm]

/-! ## C17 -/

theorem pyIndex_ok {α : Type} (l : List α) (i : Int) (j : Nat) (hj : j < l.length)
    (h : (if i < 0 then i + l.length else i) = (j : Int)) : pyIndex l i = .ok l[j] := by
  unfold pyIndex
  simp only [h]
  rw [if_neg (by omega)]
  simp [hj]

theorem pyIndex_err {α : Type} (l : List α) (i : Int) (h : i < -(l.length : Int) ∨ (l.length : Int) ≤ i) :
    pyIndex l i = .error .IndexError := by
  unfold pyIndex
  simp only
  split
  · rw [if_pos (by omega)]
  · rw [List.getElem?_eq_none (by omega)]

/-- C17: `levels[0], ..., levels[len - 1]` are all the levels, in non-decreasing order of the current energies;
negative numbers count from the highest; other numbers raise. -/
theorem C17_rank (w : World) :
    ∃ l : List Nat, l.Perm w.g.levelAttrs.vals ∧ l.Pairwise (fun a b => w.eHz a ≤ w.eHz b) ∧
      (∀ k (h : k < l.length), levelsGetInt (k : Int) w = .ok l[k]) ∧
      (∀ k (h : k < l.length), levelsGetInt (-(k : Int) - 1) w = .ok l[l.length - 1 - k]) ∧
      (∀ n : Int, (n < -(l.length : Int) ∨ (l.length : Int) ≤ n) → levelsGetInt n w = .error .IndexError) := by
  refine ⟨w.sortedLevels, pySorted_perm _ _, ?_, ?_, ?_, ?_⟩
  · have := pySorted_pairwise (fun a b => decide (w.eHz a ≤ w.eHz b)) (by
      intro a b; simp only [decide_eq_true_eq]; exact le_total _ _) (by
      intro a b c h1 h2; simp only [decide_eq_true_eq] at *; exact h1.trans h2) w.g.levelAttrs.vals
    unfold sortedLevels
    simpa using this
  · intro k h
    exact pyIndex_ok _ _ _ h (by rw [if_neg (by omega)])
  · intro k h
    exact pyIndex_ok _ _ _ (by omega) (by rw [if_pos (by omega)]; omega)
  · intro n h
    exact pyIndex_err _ _ h

/-- C17: the highest level is `levels[-1]`, the lowest `levels[0]`. -/
theorem C17_extremes (w : World) (i : Nat) (hi : i ∈ w.g.levelAttrs.vals) :
    (∃ lo, levelsGetInt 0 w = .ok lo ∧ w.eHz lo ≤ w.eHz i) ∧ ∃ hi, levelsGetInt (-1) w = .ok hi ∧ w.eHz i ≤ w.eHz hi := by
  obtain ⟨l, hp, hs, h1, h2, _⟩ := C17_rank w
  have hl : i ∈ l := hp.mem_iff.2 hi
  obtain ⟨k, hk, rfl⟩ := List.getElem_of_mem hl
  refine ⟨⟨l[0], h1 0 (by omega), ?_⟩, ⟨l[l.length - 1], h2 0 (by omega), ?_⟩⟩
  · rcases Nat.eq_zero_or_pos k with h | h
    · simp [h]
    · exact List.pairwise_iff_getElem.1 hs 0 k (by omega) hk h
  · rcases Nat.lt_or_ge k (l.length - 1) with h | h
    · exact List.pairwise_iff_getElem.1 hs k (l.length - 1) hk (by omega) h
    · have : k = l.length - 1 := by omega
      simp [this]

/-- C17: in an atom every level is listed once. -/
theorem C17_once {w : World} (hr : Reachable w) : w.g.levelAttrs.vals.Nodup := by
  have hn := Graph.nodup_levelAttrs w.g hr.wf.gok.nodup
  have hget : ∀ p ∈ w.g.levelAttrs, p.1 = w.lname p.2 := by
    intro p hp
    have := (Dict.mem_iff hn p.1 p.2).1 hp
    rw [Graph.get?_levelAttrs _ hr.wf.gok.nodup] at this
    exact (hr.wf.node _ _ this).1.symm
  have hk : w.g.levelAttrs.keys = w.g.levelAttrs.vals.map w.lname := by
    unfold Dict.keys Dict.vals
    rw [List.map_map]
    exact List.map_congr_left hget
  rw [hk] at hn
  exact hn.of_map _

/-- Three levels added in another order than that of their energies. -/
example : let w := runAll (threeLevels 5 1 3) (emptyAtom 0 0)
    levelsGetInt 0 w = .ok 1 ∧ levelsGetInt 1 w = .ok 2 ∧ levelsGetInt 2 w = .ok 0 ∧ levelsGetInt (-1) w = .ok 0 ∧
    levelsGetInt 3 w = .error .IndexError := by decide +kernel
example : Reachable (runAll (threeLevels 5 1 3) (emptyAtom 0 0)) := demo_reachable (by decide +kernel)

end AtomTk
