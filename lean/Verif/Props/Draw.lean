import Verif.Model.Draw
import Verif.Props.Subs
import Verif.Props.Render
import Verif.Props.Transitions
import Verif.Props.Coupling
import Verif.Props.Energies

/-! # C142: the quick drawing of the levels -/

namespace AtomTk
open Util World

/-- Every node of the graph carries a level. -/
def World.Levelled (w : World) : Prop := ∀ n ∈ w.g.keys, w.g.lev n ≠ none

theorem levelled_addEdge {g : Graph} (h : ∀ n ∈ g.keys, g.lev n ≠ none) {a b : Str} (ha : g.lev a ≠ none) (hb : g.lev b ≠ none) (t : Nat) :
    ∀ n ∈ (g.addEdge a b t).keys, (g.addEdge a b t).lev n ≠ none := by
  have hk : ∀ n, g.lev n ≠ none → n ∈ g.keys := by
    intro n hn
    by_contra hc
    apply hn
    unfold Graph.lev
    rw [(Dict.get?_none _ _).2 hc]; rfl
  intro n hn
  rw [Graph.lev_addEdge]
  rw [Graph.keys_addEdge_of_mem g a b t (hk a ha) (hk b hb)] at hn
  exact h n hn

/-- In a state reached by sane calls every node carries a level. -/
theorem Reachable.levelled {w : World} (hr : Reachable w) : w.Levelled := by
  induction hr with
  | empty I B => intro n hn; simp [emptyAtom, Dict.keys] at hn
  | @step w op hr hs ih =>
    have frame : ∀ {w' : World}, Frame w w' → w'.Levelled := by
      intro w' hf n hn
      rw [hf.g] at hn ⊢
      exact ih n hn
    have addLv : ∀ i p ali, (World.addLevel i p ali w).1.Levelled := by
      intro i p ali
      obtain ⟨w', h1, h2⟩ := addLevel_def i p ali w
      rw [h1]
      intro n hn
      rw [h2.g] at hn ⊢
      change n ∈ (w.g.addNode (w.lname i) i).keys at hn
      change (w.g.addNode (w.lname i) i).lev n ≠ none
      rw [Graph.lev_addNode]
      split
      · simp
      · rename_i hne
        apply ih
        rw [Graph.keys_addNode] at hn
        split at hn
        · exact hn
        · rcases List.mem_append.1 hn with h | h
          · exact h
          · exact absurd (List.mem_singleton.1 h).symm hne
    cases op with
    | newLevel t E l A B C ali =>
      show (Op.void _ w).1.Levelled
      rw [Op.void_fst]; exact ih
    | addLevel i p ali => exact addLv i p ali
    | setItem key i => exact addLv i false (some key)
    | delItem key =>
      show (World.levelsDel key w).1.Levelled
      unfold World.levelsDel
      split
      · rename_i g hg
        intro n hn
        change n ∈ g.keys at hn
        change g.lev n ≠ none
        rw [Graph.keys_removeNode hg] at hn
        rw [Graph.lev_removeNode hg]
        obtain ⟨h1, h2⟩ := List.mem_filter.1 hn
        rw [if_neg (by simpa using h2)]
        exact ih n h1
      · exact ih
    | getLevel key =>
      show (Op.void _ w).1.Levelled
      rw [Op.void_fst]; exact frame (levelsGet_frame key w).frame
    | getSub r key =>
      show (Op.void _ w).1.Levelled
      rw [Op.void_fst]; exact frame (refItem_frame r key w).frame
    | setAlias r al => exact frame (setAlias_frame r al w)
    | setEnergy i v => exact frame (setE_frame w i v)
    | setHEnergy j v => exact frame (setHLevel_frame j v w)
    | setZEnergy k v => exact frame (setZLevel_frame k v w)
    | setConsts i l A B C => exact frame (lvEdit_frame w i _ rfl rfl)
    | setQuad k q => exact ih
    | setB b => exact ih
    | newTrans a b f A ali =>
      show (Op.void _ w).1.Levelled
      rw [Op.void_fst]
      obtain ⟨ha, hb, hJ0, hJ1, hA⟩ := hs
      obtain ⟨J0, hJ0⟩ := Option.ne_none_iff_exists'.mp hJ0
      obtain ⟨J1, hJ1⟩ := Option.ne_none_iff_exists'.mp hJ1
      rw [newTrans_ok w a b f A ali J0 J1 (hr.wf.node _ _ ha).2.1 hJ0 hJ1 hA]
      refine levelled_addEdge ih ?_ ?_ _
      · split
        · rw [show w.g.lev (w.lname a) = some a from ha]; simp
        · rw [show w.g.lev (w.lname b) = some b from hb]; simp
      · split
        · rw [show w.g.lev (w.lname b) = some b from hb]; simp
        · rw [show w.g.lev (w.lname a) = some a from ha]; simp
    | addTransition σ t =>
      obtain ⟨h1, h2, h3, h4⟩ := hs
      have hf := addTransition_frame σ t w
      intro n hn
      change n ∈ (World.addTransition σ t w).1.g.keys at hn
      change (World.addTransition σ t w).1.g.lev n ≠ none
      rw [hf.g] at hn ⊢
      rw [trAddToAtom_fst] at hn ⊢
      refine levelled_addEdge ih ?_ ?_ _ n hn
      · rw [show w.g.lev (w.lname (w.tr t).lower) = some _ from h3]; simp
      · rw [show w.g.lev (w.lname (w.tr t).upper) = some _ from h4]; simp
    | setFrequency σ t f => exact frame (setFrequency_frame σ t f w)
    | enforce σ => exact frame (enforce_frame σ none w)
    | fillSub t keys => exact ih

/-- The places are those of the levels. -/
theorem positions_get {w : World} (hw : w.WF) (n : Str) :
    w.positions.get? n = (w.g.lev n).map fun i => ((w.lv i).term.J, w.eHz i / 10 ^ 12) := by
  have e : (w.g.levelAttrs.vals.map fun i => (w.lname i, ((w.lv i).term.J, w.eHz i / 10 ^ 12))) =
      w.g.levelAttrs.map fun p => (p.1, ((w.lv p.2).term.J, w.eHz p.2 / 10 ^ 12)) := by
    unfold Dict.vals
    rw [List.map_map]
    apply List.map_congr_left
    rintro ⟨m, i⟩ hm
    have h1 := Dict.get?_of_mem (Graph.nodup_levelAttrs _ hw.gok.nodup) hm
    rw [Graph.get?_levelAttrs _ hw.gok.nodup] at h1
    simp only [Function.comp, (hw.node m i h1).1]
  unfold positions
  rw [e, ofList_nodup _ (by
    have := Graph.nodup_levelAttrs w.g hw.gok.nodup
    rw [List.map_map]; exact this)]
  have h2 := Dict.get?_map (fun _ i => ((w.lv i).term.J, w.eHz i / 10 ^ 12)) w.g.levelAttrs n
  rw [h2, Graph.get?_levelAttrs _ hw.gok.nodup]

/-- What a drawing of each kind ought to show: every level of the kind at its J and its energy in THz. -/
def Shows (w : World) (d : Drawing) : PlotType → Prop
  | .norm => ∀ n i, w.g.lev n = some i → (n, ((w.lv i).term.J, w.eHz i / 10 ^ 12)) ∈ d.nodes
  | .hf => ∀ j, j < w.nhf → ∃ e, w.hHz j = .ok e ∧ ((w.hf j).term.name, ((w.hf j).term.J, e / 10 ^ 12)) ∈ d.nodes
  | .z => ∀ z, z < w.nzl → ∃ e, w.zHz z = .ok e ∧ ((w.zl z).term.name, ((w.zl z).term.J, e / 10 ^ 12)) ∈ d.nodes

/-- The full claim. -/
def C142_full : Prop := ∀ (w : World) hes zes k, Reachable w → ∃ d, w.drawLevels hes zes k = .ok d ∧ Shows w d k

/-- The drawing of the levels: every level once, at its J and its energy in THz, and one line for every transition between different
levels. -/
theorem C142_levels_partial {w : World} (hr : Reachable w) (hes zes : List (Str × Str)) :
    ∃ d, w.drawLevels hes zes .norm = .ok d ∧ (d.nodes.map Prod.fst).Nodup ∧
      (∀ n q, (n, q) ∈ d.nodes ↔ ∃ i, w.g.lev n = some i ∧ q = ((w.lv i).term.J, w.eHz i / 10 ^ 12)) ∧
      d.lines.Nodup ∧ (∀ u v, ((u, v) ∈ d.lines ∨ (v, u) ∈ d.lines) ↔ u ≠ v ∧ w.g.adj u v ≠ none) ∧
      (∀ u v, (u, v) ∈ d.lines → (v, u) ∉ d.lines) := by
  have hw := hr.wf
  have hl := hr.levelled
  let f : Str → Str × (Option ℚ × ℚ) := fun n => (n, (w.positions.get? n).getD (none, 0))
  have hm : w.g.keys.mapM (nxPlace w.positions) = .ok (w.g.keys.map f) := by
    apply mapM_ok
    intro n hn
    obtain ⟨i, hi⟩ := Option.ne_none_iff_exists'.mp (hl n hn)
    have := positions_get hw n
    rw [hi] at this
    simp only [nxPlace, f, this, Option.map_some, Option.getD_some]
  refine ⟨⟨w.g.keys.map f, unloop w.g.edges.keys⟩, ?_, ?_, ?_, ?_, ?_, ?_⟩
  · simp only [drawLevels, nxDraw]
    rw [hm]; rfl
  · rw [List.map_map]
    rw [show (Prod.fst ∘ f) = id from rfl, List.map_id]
    exact hw.gok.nodup
  · intro n q
    have hk : ∀ i, w.g.lev n = some i → n ∈ w.g.keys := by
      intro i hi
      by_contra hc
      unfold Graph.lev at hi
      rw [(Dict.get?_none _ _).2 hc] at hi
      simp at hi
    constructor
    · intro h
      obtain ⟨m, hm1, hm2⟩ := List.mem_map.1 h
      obtain ⟨rfl, h3⟩ := Prod.mk.inj hm2
      obtain ⟨i, hi⟩ := Option.ne_none_iff_exists'.mp (hl m hm1)
      refine ⟨i, hi, ?_⟩
      rw [← h3, positions_get hw, hi]; rfl
    · rintro ⟨i, hi, rfl⟩
      refine List.mem_map.2 ⟨n, hk i hi, ?_⟩
      simp only [f, positions_get hw, hi, Option.map_some, Option.getD_some]
  · exact (Graph.nodup_edges hw.gok).filter _
  · intro u v
    have mem : ∀ a b, (a, b) ∈ unloop w.g.edges.keys ↔ (∃ t, w.g.adj a b = some t) ∧ w.g.Before a b ∧ a ≠ b := by
      intro a b
      unfold unloop Dict.keys
      rw [List.mem_filter, List.mem_map]
      constructor
      · rintro ⟨⟨⟨e, t⟩, h1, rfl⟩, h2⟩
        have := (Graph.mem_edges hw.gok a b t).1 h1
        exact ⟨⟨t, this.1⟩, this.2, by simpa using h2⟩
      · rintro ⟨⟨t, ht⟩, hb, hne⟩
        exact ⟨⟨((a, b), t), (Graph.mem_edges hw.gok a b t).2 ⟨ht, hb⟩, rfl⟩, by simpa using hne⟩
    show (_ ∈ unloop w.g.edges.keys ∨ _ ∈ unloop w.g.edges.keys) ↔ _
    rw [mem, mem]
    constructor
    · rintro (⟨⟨t, h1⟩, _, h3⟩ | ⟨⟨t, h1⟩, _, h3⟩)
      · exact ⟨h3, by rw [h1]; simp⟩
      · refine ⟨fun h => h3 h.symm, ?_⟩
        rw [hw.gok.symm u v, h1]; simp
    · rintro ⟨h1, h2⟩
      obtain ⟨t, ht⟩ := Option.ne_none_iff_exists'.mp h2
      rcases Graph.before_total w.g u v with hb | hb
      · exact .inl ⟨⟨t, ht⟩, hb, h1⟩
      · exact .inr ⟨⟨t, by rw [hw.gok.symm v u, ht]⟩, hb, fun h => h1 h.symm⟩
  · intro u v h1 h2
    have key : ∀ a b, (a, b) ∈ unloop w.g.edges.keys → w.g.Before a b ∧ a ≠ b ∧ a ∈ w.g.keys ∧ b ∈ w.g.keys := by
      intro a b h
      unfold unloop Dict.keys at h
      obtain ⟨h3, h4⟩ := List.mem_filter.1 h
      obtain ⟨⟨e, t⟩, h5, rfl⟩ := List.mem_map.1 h3
      have h6 := (Graph.mem_edges hw.gok a b t).1 h5
      have mk : ∀ x y, w.g.adj x y = some t → x ∈ w.g.keys := by
        intro x y hxy
        by_contra hc
        unfold Graph.adj at hxy
        rw [(Dict.get?_none _ _).2 hc] at hxy
        simp at hxy
      exact ⟨h6.2, by simpa using h4, mk a b h6.1, mk b a (by rw [hw.gok.symm b a]; exact h6.1)⟩
    obtain ⟨a1, a2, a3, a4⟩ := key u v h1
    obtain ⟨b1, -, -, -⟩ := key v u h2
    exact a2 (Graph.before_antisymm w.g u v a3 a4 a1 b1)

theorem mapM_err {α β : Type} {f : α → Py β} {e : PyErr} (l : List α) (h : ∀ a ∈ l, f a = .error e ∨ ∃ b, f a = .ok b) {a : α}
    (ha : a ∈ l) (hf : f a = .error e) : l.mapM f = .error e := by
  induction l with
  | nil => simp at ha
  | cons x l ih =>
    rw [List.mapM_cons]
    rcases h x List.mem_cons_self with hx | ⟨b, hx⟩
    · rw [hx]; rfl
    · rw [hx]
      have hal : a ∈ l := by
        rcases List.mem_cons.1 ha with rfl | h
        · rw [hf] at hx; simp at hx
        · exact h
      have := ih (fun y hy => h y (List.mem_cons_of_mem _ hy)) hal
      show (do let bs ← l.mapM f; pure (b :: bs) : Py (List β)) = _
      rw [this]; rfl

theorem nxDraw_err {pos : Dict Str (Option ℚ × ℚ)} {ns : List Str} {n : Str} (hn : n ∈ ns) (hp : pos.get? n = none) (es : List (Str × Str)) :
    nxDraw pos ns es = .error .NetworkXError := by
  unfold nxDraw
  rw [mapM_err (e := .NetworkXError) ns (fun a _ => ?_) hn (by simp only [nxPlace, hp])]
  · rfl
  · unfold nxPlace
    cases pos.get? a with
    | none => exact .inl rfl
    | some p => exact .inr ⟨_, rfl⟩

theorem name_marked {t : Term} {F : ℚ} (h : t.F = some F) : isIn Term.fEq t.name = true := by
  obtain ⟨c, tm, J, F', m, p, q⟩ := t
  simp only at h
  subst h
  have key : ∀ r : Str, isIn Term.fEq (c ++ ' ' :: (tm ++ Term.fracText J ++ (' ' :: Term.fEq ++ numToFrac F) ++ r)) = true := by
    intro r
    have : c ++ ' ' :: (tm ++ Term.fracText J ++ (' ' :: Term.fEq ++ numToFrac F) ++ r) =
        (c ++ ' ' :: (tm ++ Term.fracText J ++ [' '])) ++ (Term.fEq ++ (numToFrac F ++ r)) := by
      simp [List.append_assoc]
    rw [this]
    exact isIn_mid _ _ _
  exact key _

/-- As soon as a hyperfine (or Zeeman) level has been made, its graph cannot be drawn: the places are those of the levels only. -/
theorem C142_raises {w : World} (hr : Reachable w) (hes zes : List (Str × Str)) (hp : ∀ n i, w.g.lev n = some i → plainKey n = true) :
    (0 < w.nhf → w.drawLevels hes zes .hf = .error .NetworkXError) ∧
    (0 < w.nzl → w.drawLevels hes zes .z = .error .NetworkXError) := by
  have none_of : ∀ {t : Term} {F : ℚ}, t.F = some F → w.positions.get? t.name = none := by
    intro t F h
    rw [positions_get hr.wf]
    cases hl : w.g.lev t.name with
    | none => rfl
    | some i =>
      have h1 := ((plainKey_iff _).1 (hp _ _ hl)).2.2
      rw [name_marked h] at h1
      simp at h1
  refine ⟨fun h => ?_, fun h => ?_⟩
  · obtain ⟨J, F, -, hF, -⟩ := hr.valInv.hf 0 h
    refine nxDraw_err (n := w.hFull 0) ?_ (none_of hF) _
    rw [List.mem_dedup]
    exact List.mem_map.2 ⟨0, List.mem_range.2 h, rfl⟩
  · obtain ⟨J, F, m, -, hF, -, -⟩ := hr.valInv.z 0 h
    refine nxDraw_err (n := w.zFull 0) ?_ (none_of hF) _
    rw [List.mem_dedup]
    exact List.mem_map.2 ⟨0, List.mem_range.2 h, rfl⟩

/-- Two levels with sublevels: drawn as levels, not as hyperfine or Zeeman levels. -/
example : let w := runAll hfOps (emptyAtom (1 / 2) 0)
    w.drawLevels [] [] .norm = .ok ⟨[("g 2S1/2".toList, (some (1 / 2), 1 / 10 ^ 10)), ("a 2S1/2".toList, (some (1 / 2), 5 / 10 ^ 10))], []⟩ ∧
    0 < w.nhf ∧ 0 < w.nzl ∧ (∀ n ∈ w.g.keys, plainKey n = true) ∧
    w.drawLevels [] [] .hf = .error .NetworkXError ∧ w.drawLevels [] [] .z = .error .NetworkXError := by
  decide +kernel

/-- A transition is a line, a transition of a level to itself is not drawn. -/
example : let w := runAll (threeLevels 0 5 9 ++ [.newTrans 0 1 none .none none, .newTrans 0 0 none .none none]) (emptyAtom 0 0)
    (w.drawLevels [] [] .norm).map Drawing.lines = .ok [(demoName 'g', demoName 'a')] ∧ w.g.edges.length = 2 := by
  decide +kernel

/-- The claim is false. -/
theorem C142_fails : ¬C142_full := by
  intro h
  obtain ⟨d, hd, -⟩ := h (runAll hfOps (emptyAtom (1 / 2) 0)) [] [] .hf ((Reachable.empty (1 / 2) 0).runAll (by decide +kernel))
  have : (runAll hfOps (emptyAtom (1 / 2) 0)).drawLevels [] [] .hf = .error .NetworkXError := by decide +kernel
  rw [this] at hd
  simp at hd

end AtomTk
