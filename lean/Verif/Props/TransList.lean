import Verif.Proofs.TAlias
import Verif.Props.TransKeys
import Verif.Props.Container

/-! # C80-C82: aliases of transitions, listings, adding a transition by names -/

namespace AtomTk
open Util World Strengths

/-! ## C80 -/

/-- The calls that may assign the alias `al` to a transition. -/
def assignsT (w : World) : Op → Str → Prop
  | .newTrans _ _ _ _ ali, al => ali = some al
  | .addTransition _ t, al => (w.tr t).ali = some al
  | _, _ => False

theorem talias_kept (op : Op) (w : World) (al : Str) (h : ¬assignsT w op al) :
    (op.run w).1.talias.get? al = w.talias.get? al := by
  cases op with
  | newLevel t E l A B C ali =>
    show (Op.void _ w).1.talias.get? al = _
    rw [Op.void_fst]; rfl
  | addLevel i p ali =>
    show (World.addLevel i p ali w).1.talias.get? al = _
    have : (World.addLevel i p ali w).1.talias = w.talias := by
      unfold World.addLevel
      refine PyM.bind_rel (fun a b => b.talias = a.talias) (fun _ _ _ h1 h2 => h2.trans h1) (fun _ => rfl) (fun _ => ?_) w
      refine PyM.bind_rel (fun a b => b.talias = a.talias) (fun _ _ _ h1 h2 => h2.trans h1) (fun w => ?_) (fun _ => ?_)
      · cases ali with
        | none => rfl
        | some a => unfold setAliasOpt World.setAlias; simp only; split <;> rfl
      refine PyM.bind_rel (fun a b => b.talias = a.talias) (fun _ _ _ h1 h2 => h2.trans h1) (fun w => ?_) (fun _ w => ?_)
      · unfold regAlias; split <;> rfl
      · cases p
        · rfl
        · exact (populateHF_frame i w).talias
    rw [this]
  | setItem key i =>
    show (World.addLevel i false (some key) w).1.talias.get? al = _
    have : (World.addLevel i false (some key) w).1.talias = w.talias := by
      unfold World.addLevel
      refine PyM.bind_rel (fun a b => b.talias = a.talias) (fun _ _ _ h1 h2 => h2.trans h1) (fun _ => rfl) (fun _ => ?_) w
      refine PyM.bind_rel (fun a b => b.talias = a.talias) (fun _ _ _ h1 h2 => h2.trans h1) (fun w => ?_) (fun _ => ?_)
      · unfold setAliasOpt World.setAlias; simp only; split <;> rfl
      refine PyM.bind_rel (fun a b => b.talias = a.talias) (fun _ _ _ h1 h2 => h2.trans h1) (fun w => ?_) (fun _ w => rfl)
      unfold regAlias; split <;> rfl
    rw [this]
  | delItem key =>
    show (World.levelsDel key w).1.talias.get? al = _
    unfold World.levelsDel
    split <;> rfl
  | getLevel key =>
    show (Op.void _ w).1.talias.get? al = _
    rw [Op.void_fst, (levelsGet_frame key w).talias]
  | getSub r key =>
    show (Op.void _ w).1.talias.get? al = _
    rw [Op.void_fst, (refItem_frame r key w).talias]
  | setAlias r a =>
    show (World.setAlias r a w).1.talias.get? al = _
    unfold World.setAlias
    split
    · simp only
      split <;> rfl
    · rfl
  | setEnergy i v => rfl
  | setHEnergy j v =>
    show (World.setHLevel j v w).1.talias.get? al = _
    unfold World.setHLevel; split <;> rfl
  | setZEnergy k v =>
    show (World.setZLevel k v w).1.talias.get? al = _
    unfold World.setZLevel; split
    · unfold World.setHLevel; split <;> rfl
    · rfl
    · rfl
  | setConsts i l A B C => rfl
  | setQuad k q => rfl
  | setB b => rfl
  | newTrans a b f A ali =>
    show (Op.void _ w).1.talias.get? al = _
    rw [Op.void_fst]
    rcases (newTrans_talias a b f A ali w).1 with h1 | ⟨s, h1, h2⟩
    · rw [h1]
    · rw [h2, Dict.get?_set, if_neg]
      rintro rfl
      exact h h1
  | addTransition σ t =>
    show (World.addTransition σ t w).1.talias.get? al = _
    rw [addTransition_talias]
    split
    · rename_i s h1 h2
      rw [Dict.get?_set, if_neg]
      rintro rfl
      exact h h2
    · rfl
  | setFrequency σ t f =>
    show (World.setFrequency σ t f w).1.talias.get? al = _
    rw [setFrequency_talias]
  | enforce σ =>
    show (World.enforce σ none w).1.talias.get? al = _
    rw [enforce_talias]
  | fillSub t keys => rfl

/-- A history in which no call assigns the transition alias `al`. -/
def NeverAssignsT (al : Str) : List Op → World → Prop
  | [], _ => True
  | op :: ops, w => ¬assignsT w op al ∧ NeverAssignsT al ops (op.run w).1

theorem transGetStr_alias (W : Wig) (sd : SubDicts) {w : World} {al : Str} {t : Nat} (h : w.talias.get? al = some t) :
    transGetStr W sd al w = (w, .ok (.fine t)) := by
  unfold transGetStr
  rw [PyM.get_bind]
  simp only [h]
  rfl

/-- C80: the alias given to the constructor, to the attribute, or carried by a transition that is added, finds that
transition. -/
theorem C80_assigned (W : Wig) (sd : SubDicts) (w : World) (al : Str) :
    (∀ a b f A t, (World.newTrans a b f A (some al) w).2 = .ok t →
      let w' := (World.newTrans a b f A (some al) w).1; transGetStr W sd al w' = (w', .ok (.fine t))) ∧
    (∀ σ t, (w.tr t).ali = some al → (w.tr t).subKeys = [] →
      let w' := (World.addTransition σ t w).1; transGetStr W sd al w' = (w', .ok (.fine t))) ∧
    (∀ t, (w.lv (w.tr t).e1).inAtom = true →
      let w' := (World.setTAlias t al w).1; transGetStr W sd al w' = (w', .ok (.fine t))) := by
  refine ⟨fun a b f A t h => transGetStr_alias W sd ?_, fun σ t h1 h2 => transGetStr_alias W sd ?_,
    fun t h => transGetStr_alias W sd ?_⟩
  · obtain ⟨rfl, h2⟩ := (newTrans_talias a b f A (some al) w).2 t al h rfl
    rw [h2, Dict.get?_set, if_pos rfl]
  · rw [addTransition_talias, h1, h2]
    simp only
    rw [Dict.get?_set, if_pos rfl]
  · unfold setTAlias
    simp only [setTr, upd_same, h, if_true]
    rw [Dict.get?_set, if_pos rfl]

/-- C80: assigning the attribute changes nothing of the transitions but the alias of this one, which reads back also when the level
has no atom and the assignment raises an AttributeError; the alias it had before keeps finding it. -/
theorem C80_attribute (w : World) (t : Nat) (al : Str) :
    let w' := (World.setTAlias t al w).1
    w'.tr t = { w.tr t with ali := some al } ∧ (∀ s ≠ t, w'.tr s = w.tr s) ∧ w'.lv = w.lv ∧ w'.g = w.g ∧ w'.lalias = w.lalias ∧
      (∀ al' ≠ al, w'.talias.get? al' = w.talias.get? al') ∧
      (World.setTAlias t al w).2 = (if (w.lv (w.tr t).e1).inAtom then .ok () else .error .AttributeError) := by
  unfold setTAlias
  simp only [setTr, upd_same]
  split
  · rename_i h
    refine ⟨by simp, fun s hs => by simp [upd, hs], rfl, rfl, rfl, fun al' ha => ?_, by simp⟩
    simp only
    rw [Dict.get?_set, if_neg (Ne.symm ha)]
  · rename_i h
    exact ⟨by simp, fun s hs => by simp [upd, hs], rfl, rfl, rfl, fun _ _ => rfl, by simp⟩

/-- C80: an alias keeps finding its transition through any history that does not assign it again. -/
theorem C80_kept (W : Wig) (sd : SubDicts) (al : Str) (t : Nat) (ops : List Op) (w : World) (h : w.talias.get? al = some t)
    (hn : NeverAssignsT al ops w) : transGetStr W sd al (runAll ops w) = (runAll ops w, .ok (.fine t)) := by
  induction ops generalizing w with
  | nil => exact transGetStr_alias W sd h
  | cons op ops ih => exact ih (op.run w).1 (by rw [talias_kept op w al hn.1]; exact h) hn.2

/-- C80: a text that is no alias is taken apart into characters: with fewer than two there is nothing to look up. -/
theorem C80_unknown (W : Wig) (sd : SubDicts) (w : World) (s : Str) (h : w.talias.get? s = none) (hs : s.length < 2) :
    (∃ e, (transGetStr W sd s w).2 = .error e) ∧ (s = [] → (transGetStr W sd s w).2 = .error .IndexError) := by
  unfold transGetStr
  rw [PyM.get_bind]
  simp only [h]
  match s, hs with
  | [], _ => exact ⟨⟨_, rfl⟩, fun _ => rfl⟩
  | [c], _ =>
    refine ⟨?_, fun h => by cases h⟩
    cases hl : levelsGet [c] w with
    | mk w1 r => cases r with
      | error e => exact ⟨e, by simp only [PyM.bind_err hl]⟩
      | ok r => exact ⟨.IndexError, by simp only [PyM.bind_ok hl]; rfl⟩

/-- C80 in full: what an alias finds is a transition of the atom. -/
def C80_full : Prop := ∀ w al t, Reachable w → w.talias.get? al = some t → t ∈ w.transVals

/-- A transition with the alias `x`, one of whose levels is deleted. -/
def taliasOps : List Op := threeLevels 0 5 9 ++ [.newTrans 0 1 none .none (some ['x']), .delItem (demoName 'a')]

/-- C80 fails: a transition that was removed with its level is still found under its alias. -/
theorem C80_fails : ¬C80_full := by
  intro h
  have := h (runAll taliasOps (emptyAtom 0 0)) ['x'] 0 (demo_reachable (by decide +kernel)) (by decide +kernel)
  revert this
  decide +kernel

/-- Without deletions: what the alias of a transition with an edge in the graph finds is in the listing. -/
theorem C80_listed_partial (w : World) (al : Str) (t : Nat) (hr : Reachable w) (_h : w.talias.get? al = some t)
    (hadj : ∃ a b, w.g.adj a b = some t) : t ∈ w.transVals := by
  obtain ⟨a, b, hab⟩ := hadj
  rcases Graph.before_total w.g a b with hb | hb
  · exact List.mem_map.2 ⟨((a, b), t), (Graph.mem_edges hr.wf.gok _ _ _).2 ⟨hab, hb⟩, rfl⟩
  · exact List.mem_map.2 ⟨((b, a), t), (Graph.mem_edges hr.wf.gok _ _ _).2 ⟨by rw [hr.wf.gok.symm]; exact hab, hb⟩, rfl⟩

example : (runAll taliasOps (emptyAtom 0 0)).talias.get? ['x'] = some 0 := by decide +kernel
example : let w := runAll (threeLevels 0 5 9 ++ [.newTrans 0 1 none .none (some ['x'])]) (emptyAtom 0 0)
    w.talias.get? ['x'] = some 0 ∧ w.g.adj (demoName 'g') (demoName 'a') = some 0 := by decide +kernel
example : let w := runAll (threeLevels 0 5 9) (emptyAtom 0 0)
    (World.newTrans 0 1 none .none (some ['x']) w).2 = .ok 0 := by decide +kernel
example : NeverAssignsT ['x'] (threeLevels 0 1 2) (emptyAtom 0 0) := by
  simp [NeverAssignsT, threeLevels, assignsT]

/-! ## C81 -/

/-- The two levels of a transition of the atom, by name, in either order. -/
def Between (w : World) (t : Nat) (a b : Str) : Prop :=
  (a = w.lname (w.tr t).e1 ∧ b = w.lname (w.tr t).e2) ∨ (a = w.lname (w.tr t).e2 ∧ b = w.lname (w.tr t).e1)

theorem adj_between {w : World} (hr : Reachable w) {a b : Str} {t : Nat} (h : w.g.adj a b = some t) : Between w t a b := by
  obtain ⟨-, -, -, -, h5, h6⟩ := hr.wf.edge _ _ _ h
  unfold Between
  rcases h5 with ⟨e1, e2⟩ | ⟨e1, e2⟩ <;> rcases h6 with ⟨e3, e4⟩ | ⟨e3, e4⟩ <;> rw [e1, e2, e3, e4] <;> tauto

theorem nodup_of_keys_vals {κ α : Type _} {d : Dict κ α} (h : d.keys.Nodup) (hi : ∀ k k' v, (k, v) ∈ d → (k', v) ∈ d → k = k') :
    d.vals.Nodup := by
  unfold Dict.vals
  have hd : d.Nodup := by
    unfold Dict.keys at h
    exact h.of_map _
  rw [List.nodup_map_iff_inj_on hd]
  rintro ⟨k, v⟩ h1 ⟨k', v'⟩ h2 hv
  simp only at hv
  subst hv
  rw [hi k k' v h1 h2]

/-- C81: the listing of an atom.  Keys and values go together; every transition is listed once; no pair is listed in both
orders; a pair is listed, in one of the two orders, exactly when the two levels are joined, under the names of the two levels
of the transition; hiding self-transitions leaves out exactly the pairs of a level with itself. -/
theorem C81_listing (w : World) (hr : Reachable w) :
    w.transKeys.Nodup ∧ w.transVals.Nodup ∧ w.transLen = w.transKeys.length ∧ w.transLen = w.transVals.length ∧
    (∀ a b, (a, b) ∈ w.transKeys → (b, a) ∈ w.transKeys → a = b) ∧
    (∀ a b t, w.g.adj a b = some t ↔ (((a, b), t) ∈ w.transKeys.zip w.transVals ∨ ((b, a), t) ∈ w.transKeys.zip w.transVals)) ∧
    (∀ a b t, ((a, b), t) ∈ w.transKeys.zip w.transVals → Between w t a b ∧ a ∈ w.levelNames ∧ b ∈ w.levelNames) ∧
    w.transNames false = w.transKeys ∧
    (∀ k, k ∈ w.transNames true ↔ k ∈ w.transKeys ∧ k.1 ≠ k.2) := by
  have hok := hr.wf.gok
  have hz : w.transKeys.zip w.transVals = w.g.edges := by
    unfold transKeys transVals Dict.keys Dict.vals
    rw [List.zip_map', List.map_id']
  have hs : ∀ a b, w.g.adj a b = w.g.adj b a := hok.symm
  have hanti : ∀ a b, (a, b) ∈ w.transKeys → (b, a) ∈ w.transKeys → a = b := by
    intro a b h1 h2
    obtain ⟨⟨k, t⟩, h1, rfl⟩ := List.mem_map.1 h1
    obtain ⟨⟨k', t'⟩, h2, hk⟩ := List.mem_map.1 h2
    simp only at hk
    rw [hk] at h2
    obtain ⟨p1, p2⟩ := (Graph.mem_edges hok _ _ _).1 h1
    obtain ⟨q1, q2⟩ := (Graph.mem_edges hok _ _ _).1 h2
    exact Graph.before_antisymm w.g _ _ (Graph.mem_of_adj p1) (Graph.mem_of_adj q1) p2 q2
  have hbet : ∀ a b t, ((a, b), t) ∈ w.g.edges → Between w t a b := fun a b t h =>
    adj_between hr ((Graph.mem_edges hok _ _ _).1 h).1
  have hkey : ∀ k t, (k, t) ∈ w.g.edges → k ∈ w.transKeys := fun k t h => List.mem_map.2 ⟨_, h, rfl⟩
  refine ⟨Graph.nodup_edges hok, ?_, by simp [transLen, transKeys, Dict.keys], by simp [transLen, transVals, Dict.vals], hanti, ?_, ?_,
    rfl, ?_⟩
  · refine nodup_of_keys_vals (Graph.nodup_edges hok) ?_
    rintro ⟨a, b⟩ ⟨c, d⟩ t h1 h2
    have b1 := hbet _ _ _ h1
    have b2 := hbet _ _ _ h2
    have : (a = c ∧ b = d) ∨ (a = d ∧ b = c) := by
      unfold Between at b1 b2
      rcases b1 with ⟨e1, e2⟩ | ⟨e1, e2⟩ <;> rcases b2 with ⟨e3, e4⟩ | ⟨e3, e4⟩ <;> rw [e1, e2, e3, e4] <;> tauto
    rcases this with ⟨rfl, rfl⟩ | ⟨rfl, rfl⟩
    · rfl
    · rw [hanti a b (hkey _ _ h1) (hkey _ _ h2)]
  · intro a b t
    rw [hz, Graph.mem_edges hok, Graph.mem_edges hok, ← hs a b]
    constructor
    · intro h
      rcases Graph.before_total w.g a b with hb | hb
      · exact .inl ⟨h, hb⟩
      · exact .inr ⟨h, hb⟩
    · rintro (⟨h, _⟩ | ⟨h, _⟩) <;> exact h
  · intro a b t h
    rw [hz] at h
    refine ⟨hbet _ _ _ h, ?_⟩
    have h1 := ((Graph.mem_edges hok _ _ _).1 h).1
    obtain ⟨-, -, h3, h4, h5, -⟩ := hr.wf.edge _ _ _ h1
    have hm : ∀ n i, w.g.lev n = some i → n ∈ w.levelNames := by
      intro n i hl
      rw [← Graph.get?_levelAttrs _ hok.nodup] at hl
      exact (Dict.get?_isSome _ _).1 ⟨_, hl⟩
    rcases h5 with ⟨e1, e2⟩ | ⟨e1, e2⟩ <;> rw [e1, e2]
    · exact ⟨hm _ _ h3, hm _ _ h4⟩
    · exact ⟨hm _ _ h4, hm _ _ h3⟩
  · intro k
    unfold transNames
    simp

example : let w := runAll (threeLevels 0 5 9 ++ [.newTrans 0 1 none .none none, .newTrans 2 0 none .none none, .newTrans 1 1 none .none none]) (emptyAtom 0 0)
    w.transNames true = [(demoName 'g', demoName 'a'), (demoName 'g', demoName 'b')] ∧ w.transLen = 3 ∧ w.transVals = [0, 1, 2] := by
  decide +kernel

/-! ## C82 -/

theorem enforce_tr (σ : Ord') (trig : Option (Str × Str)) (w : World) : (enforce σ trig w).1.tr = w.tr := by
  unfold enforce
  split
  · rfl
  · refine enfComps_rel (fun a b => b.tr = a.tr) (fun _ => rfl) (fun _ _ _ h1 h2 => h2.trans h1) σ _
      (fun c w => ?_) _ _ _
    unfold enfComp
    split
    · rfl
    · rfl
    · exact enfEdges_tr _ _

theorem addTransition_ok {w : World} {σ : Ord'} (hσ : Shuffles σ) {t : Nat} (hw : WF (trAddToAtom t w).1) (hb : (w.tr t).built = true)
    (hk : (w.tr t).subKeys = []) : (addTransition σ t w).2 = .ok () ∧
      (addTransition σ t w).1.g = w.g.addEdge (w.lname (w.tr t).lower) (w.lname (w.tr t).upper) t ∧
      (addTransition σ t w).1.tr = w.tr := by
  have hg := (addTransition_frame σ t w).g
  rw [trAddToAtom_fst] at hg
  suffices h : (addTransition σ t w).2 = .ok () ∧ (addTransition σ t w).1.tr = w.tr from ⟨h.1, hg, h.2⟩
  have h1 : trAddToAtom t w = ((trAddToAtom t w).1, .ok ()) := by
    unfold trAddToAtom
    simp [hk]
  have htr : (trAddToAtom t w).1.tr = w.tr := by rw [trAddToAtom_fst]
  unfold addTransition
  rw [PyM.bind_ok h1]
  generalize (trAddToAtom t w).1 = w1 at hw htr
  have h2 : regTAlias t w1 = ((regTAlias t w1).1, .ok ()) := by unfold regTAlias; split <;> rfl
  have f2 := regTAlias_frame t w1
  rw [PyM.bind_ok h2]
  have hw2 := hw.frame f2
  have htr2 : (regTAlias t w1).1.tr = w.tr := by rw [← htr]; unfold regTAlias; split <;> rfl
  have hb2 : ((regTAlias t w1).1.tr t).built = true := by rw [(f2.tr t).2.2.2.2, htr]; exact hb
  generalize (regTAlias t w1).1 = w2 at hw2 hb2 htr2
  unfold enforceIfSet
  rw [if_pos hb2]
  split
  · obtain ⟨w', h, -⟩ := enforce_group hw2 hσ none ([] : Str)
    have := enforce_tr σ none w2
    rw [h] at this ⊢
    exact ⟨rfl, this.trans htr2⟩
  · exact ⟨rfl, htr2⟩

/-- The full claim: adding a transition by two names when there is one between these levels gives that one. -/
def C82_full : Prop := ∀ (w : World) (σ : Ord') (a b : Str) (ia ib t : Nat) (freq : Option ℚ) (A : AArg) (ali : Option Str), Reachable w →
  Shuffles σ → Plain w a → Plain w b → w.g.lev a = some ia → w.g.lev b = some ib → w.g.adj a b = some t →
  (addTransPair σ a b freq A ali w).2 = .ok t

theorem mem_edge_keys {w : World} (hr : Reachable w) (a b : Str) :
    (a, b) ∈ w.g.edges.keys ↔ (∃ t, w.g.adj a b = some t) ∧ w.levelNames.idxOf a ≤ w.levelNames.idxOf b := by
  rw [← Dict.get?_isSome, hr.names, ← before_iff]
  rw [Graph.get?_edges hr.wf.gok]
  by_cases h : w.g.Before a b
  · rw [if_pos h]; simp [h]
  · rw [if_neg h]; simp [h]

/-- What adding a pair of levels does. -/
structure MadeNew (w w' : World) (a b : Str) (ia ib : Nat) (freq : Option ℚ) (A : AArg) : Prop where
  adj : w'.g.adj a b = some w.ntr
  adj' : w'.g.adj b a = some w.ntr
  e1 : (w'.tr w.ntr).e1 = ia
  e2 : (w'.tr w.ntr).e2 = ib
  freq : (w'.tr w.ntr).setFreq = freq
  rate : (w'.tr w.ntr).A = A.rate
  rest : ∀ c d, ¬((c = a ∧ d = b) ∨ (c = b ∧ d = a)) → w'.g.adj c d = w.g.adj c d
  old : ∀ t, t < w.ntr → w'.tr t = w.tr t

theorem addTransLevels_spec {w : World} (hr : Reachable w) {σ : Ord'} (hσ : Shuffles σ) {a b : Str} {ia ib : Nat} {Ja Jb : ℚ}
    (freq : Option ℚ) (A : AArg) (ali : Option Str) (hA : ∀ e, A ≠ .bad e) (hla : w.g.lev a = some ia)
    (hlb : w.g.lev b = some ib) (hJa : (w.lv ia).term.J = some Ja) (hJb : (w.lv ib).term.J = some Jb) :
    ∃ w', addTransLevels σ ia ib freq A ali w = (w', .ok w.ntr) ∧ MadeNew w w' a b ia ib freq A ∧ Reachable w' := by
  obtain ⟨na, ina, -⟩ := hr.wf.node _ _ hla
  obtain ⟨nb, inb, -⟩ := hr.wf.node _ _ hlb
  have ra : w.Registered ia := by unfold Registered; rw [na]; exact hla
  have rb : w.Registered ib := by unfold Registered; rw [nb]; exact hlb
  have hnew := newTrans_ok w ia ib freq A ali Ja Jb ina hJa hJb hA
  have hr1 := Reachable.step (.newTrans ia ib freq A ali) hr ⟨ra, rb, by rw [hJa]; simp, by rw [hJb]; simp, hA⟩
  rw [show ((Op.newTrans ia ib freq A ali).run w).1 = (World.newTrans ia ib freq A ali w).1 from Op.void_fst _ _, hnew] at hr1
  have e : addTransLevels σ ia ib freq A ali w =
      (addTransition σ w.ntr >>= fun _ => pure w.ntr) (World.newTrans ia ib freq A ali w).1 := by
    unfold addTransLevels
    rw [PyM.bind_ok (show World.newTrans ia ib freq A ali w = ((World.newTrans ia ib freq A ali w).1, .ok w.ntr) by rw [hnew])]
  rw [hnew] at e
  simp only at e hr1 ⊢
  set w1 : World := { w with
          ntr := w.ntr + 1
          tr := upd w.tr w.ntr (finished w ia ib freq A ali Ja Jb)
          g := w.g.addEdge (w.lname (if w.eHz ib > w.eHz ia then ia else ib)) (w.lname (if w.eHz ib > w.eHz ia then ib else ia)) w.ntr
          talias := withAlias w.talias w.ntr ali } with hw1
  have t1 : w1.tr w.ntr = finished w ia ib freq A ali Ja Jb := by rw [hw1]; simp
  have hlo : w1.lname (w1.tr w.ntr).lower = w.lname (if w.eHz ib > w.eHz ia then ia else ib) := by
    rw [t1]; simp only [finished]; rfl
  have hup : w1.lname (w1.tr w.ntr).upper = w.lname (if w.eHz ib > w.eHz ia then ib else ia) := by
    rw [t1]; simp only [finished]; rfl
  have hnt : w.ntr < w1.ntr := by rw [hw1]; simp
  have hbl : (w1.tr w.ntr).built = true := by rw [t1]; rfl
  have hlr : w1.Registered (w1.tr w.ntr).lower := by
    · show w1.g.lev (w1.lname (w1.tr w.ntr).lower) = some (w1.tr w.ntr).lower
      rw [hlo, hw1]
      show (w.g.addEdge _ _ _).lev _ = some (upd w.tr w.ntr _ w.ntr).lower
      rw [Graph.lev_addEdge, upd_same]
      simp only [finished]
      split
      · exact ra
      · exact rb
  have hur : w1.Registered (w1.tr w.ntr).upper := by
    · show w1.g.lev (w1.lname (w1.tr w.ntr).upper) = some (w1.tr w.ntr).upper
      rw [hup, hw1]
      show (w.g.addEdge _ _ _).lev _ = some (upd w.tr w.ntr _ w.ntr).upper
      rw [Graph.lev_addEdge, upd_same]
      simp only [finished]
      split
      · exact rb
      · exact ra
  have hr2 : Reachable (addTransition σ w.ntr w1).1 := Reachable.step (.addTransition σ w.ntr) hr1 ⟨hnt, hbl, hlr, hur⟩
  have hwf : WF (trAddToAtom w.ntr w1).1 := by
    refine hr1.wf.trAddToAtom w.ntr hnt hbl hlr hur ?_
    · rw [t1]
      simp only [finished]
      split
      · exact .inl ⟨rfl, rfl⟩
      · exact .inr ⟨rfl, rfl⟩
  obtain ⟨o1, o2, o3⟩ := addTransition_ok hσ hwf (by rw [t1]; rfl) (by rw [t1]; rfl)
  have e2 : addTransLevels σ ia ib freq A ali w = ((addTransition σ w.ntr w1).1, .ok w.ntr) := by
    rw [e, PyM.bind_ok (show addTransition σ w.ntr w1 = ((addTransition σ w.ntr w1).1, .ok ()) by rw [← o1])]
    rfl
  have hadj : ∀ c d, (addTransition σ w.ntr w1).1.g.adj c d = if (c = a ∧ d = b) ∨ (c = b ∧ d = a) then some w.ntr else w.g.adj c d := by
    intro c d
    rw [o2, hlo, hup, Graph.adj_addEdge]
    have : w1.g.adj c d = if (c = w.lname (if w.eHz ib > w.eHz ia then ia else ib) ∧ d = w.lname (if w.eHz ib > w.eHz ia then ib else ia)) ∨
        (c = w.lname (if w.eHz ib > w.eHz ia then ib else ia) ∧ d = w.lname (if w.eHz ib > w.eHz ia then ia else ib)) then some w.ntr
        else w.g.adj c d := by
      rw [hw1]
      show (w.g.addEdge _ _ _).adj c d = _
      rw [Graph.adj_addEdge]
      refine if_congr ?_ rfl rfl
      constructor
      · rintro (⟨rfl, rfl⟩ | ⟨rfl, rfl⟩)
        · exact .inl ⟨rfl, rfl⟩
        · exact .inr ⟨rfl, rfl⟩
      · rintro (⟨rfl, rfl⟩ | ⟨rfl, rfl⟩)
        · exact .inl ⟨rfl, rfl⟩
        · exact .inr ⟨rfl, rfl⟩
    rw [this]
    by_cases hc : w.eHz ib > w.eHz ia
    · simp only [hc, if_true, na, nb]
      by_cases hcd : (c = a ∧ d = b) ∨ (c = b ∧ d = a)
      · rw [if_pos hcd, ite_self]
      · rw [if_neg hcd, if_neg]
        rintro (⟨rfl, rfl⟩ | ⟨rfl, rfl⟩) <;> simp at hcd
    · simp only [hc, if_false, na, nb]
      by_cases hcd : (c = a ∧ d = b) ∨ (c = b ∧ d = a)
      · rw [if_pos hcd, if_pos hcd.symm, ite_self]
      · rw [if_neg hcd, if_neg, if_neg (fun h => hcd h.symm)]
        rintro (⟨rfl, rfl⟩ | ⟨rfl, rfl⟩) <;> simp at hcd
  refine ⟨_, e2, ⟨?_, ?_, ?_, ?_, ?_, ?_, ?_, ?_⟩, hr2⟩
  · rw [hadj, if_pos (.inl ⟨rfl, rfl⟩)]
  · rw [hadj, if_pos (.inr ⟨rfl, rfl⟩)]
  · rw [o3, t1]; rfl
  · rw [o3, t1]; rfl
  · rw [o3, t1]; rfl
  · rw [o3, t1]; rfl
  · intro c d hcd
    rw [hadj, if_neg hcd]
  · intro t ht
    rw [o3, hw1]
    exact upd_ne _ _ _ (by omega)

/-- A pair of names that is no key is as good as the pair of the levels. -/
theorem addTransPair_eq {w : World} (hr : Reachable w) (σ : Ord') {a b : Str} {ia ib : Nat} (freq : Option ℚ) (A : AArg) (ali : Option Str)
    (ha : Plain w a) (hb : Plain w b) (hla : w.g.lev a = some ia) (hlb : w.g.lev b = some ib) (hno : (a, b) ∉ w.transKeys) :
    addTransPair σ a b freq A ali w = addTransLevels σ ia ib freq A ali w := by
  have hn := hr.wf.gok.nodup
  unfold addTransPair addTransLevels
  rw [PyM.get_bind, if_neg (show ¬(a, b) ∈ w.g.edges.keys from hno)]
  have h1 : newTransNamed a b freq A ali w = World.newTrans ia ib freq A ali w := by
    unfold newTransNamed
    rw [PyM.bind_ok (levelsGet_plain hn ha hla), PyM.bind_ok (levelsGet_plain hn hb hlb)]
  show PyM.bind' _ _ w = PyM.bind' _ _ w
  unfold PyM.bind'
  rw [h1]

/-- C82: between two levels without a transition a new one is made, with the data given, and is there afterwards. -/
theorem C82_new {w : World} (hr : Reachable w) {σ : Ord'} (hσ : Shuffles σ) {a b : Str} {ia ib : Nat} {Ja Jb : ℚ} (freq : Option ℚ)
    (A : AArg) (ali : Option Str) (hA : ∀ e, A ≠ .bad e) (ha : Plain w a) (hb : Plain w b) (hla : w.g.lev a = some ia)
    (hlb : w.g.lev b = some ib) (hJa : (w.lv ia).term.J = some Ja) (hJb : (w.lv ib).term.J = some Jb)
    (hno : (a, b) ∉ w.transKeys) :
    let w' := (addTransPair σ a b freq A ali w).1
    (addTransPair σ a b freq A ali w).2 = .ok w.ntr ∧ w'.g.adj a b = some w.ntr ∧ w'.g.adj b a = some w.ntr ∧
      (w'.tr w.ntr).e1 = ia ∧ (w'.tr w.ntr).e2 = ib ∧ (w'.tr w.ntr).setFreq = freq ∧ (w'.tr w.ntr).A = A.rate ∧
      (∀ c d, ¬((c = a ∧ d = b) ∨ (c = b ∧ d = a)) → w'.g.adj c d = w.g.adj c d) ∧ Reachable w' := by
  obtain ⟨w', h, m, hr'⟩ := addTransLevels_spec hr hσ freq A ali hA hla hlb hJa hJb
  rw [← addTransPair_eq hr σ freq A ali ha hb hla hlb hno] at h
  rw [h]
  exact ⟨rfl, m.adj, m.adj', m.e1, m.e2, m.freq, m.rate, m.rest, hr'⟩

/-- C82: a pair that is a key of the listing and whose first level is not the higher one gives the transition that is there;
no pair of levels is joined differently afterwards. -/
theorem C82_present_partial {w : World} (hr : Reachable w) {σ : Ord'} (hσ : Shuffles σ) {a b : Str} {ia ib t : Nat} (freq : Option ℚ)
    (A : AArg) (ali : Option Str) (ha : Plain w a) (hb : Plain w b) (hla : w.g.lev a = some ia) (hlb : w.g.lev b = some ib)
    (hk : (a, b) ∈ w.transKeys) (hE : w.eHz ia ≤ w.eHz ib) (hadj : w.g.adj a b = some t) (hs : (w.tr t).subKeys = []) :
    (addTransPair σ a b freq A ali w).2 = .ok t ∧ (∀ c d, (addTransPair σ a b freq A ali w).1.g.adj c d = w.g.adj c d) ∧
      (addTransPair σ a b freq A ali w).1.tr = w.tr := by
  have hn := hr.wf.gok.nodup
  obtain ⟨na, -⟩ := hr.wf.node _ _ hla
  obtain ⟨nb, -⟩ := hr.wf.node _ _ hlb
  have hke : (a, b) ∈ w.g.edges.keys := hk
  have hbef : w.g.Before a b := by
    obtain ⟨⟨k, t'⟩, h1, rfl⟩ := List.mem_map.1 hke
    exact ((Graph.mem_edges hr.wf.gok _ _ _).1 h1).2
  have hget : transGet a b w = (w, .ok t) := by
    have := transGet_le hr (ia := ia) (ib := ib) (by rw [na]; exact ha) (by rw [nb]; exact hb) (by rw [na]; exact hla)
      (by rw [nb]; exact hlb) hE
    rw [na, nb] at this
    rw [this]
    unfold Dict.getE
    rw [Graph.get?_edges hr.wf.gok, if_pos hbef, hadj]
    rfl
  obtain ⟨g1, g2, g3, g4, g5, g6⟩ := hr.wf.edge _ _ _ hadj
  have hwf : WF (trAddToAtom t w).1 := hr.wf.trAddToAtom t g1 g2 g3 g4 g6
  obtain ⟨o1, o2, o3⟩ := addTransition_ok hσ hwf g2 hs
  have e2 : addTransPair σ a b freq A ali w = ((addTransition σ t w).1, .ok t) := by
    unfold addTransPair
    rw [PyM.get_bind, if_pos hke, PyM.bind_ok hget,
      PyM.bind_ok (show addTransition σ t w = ((addTransition σ t w).1, .ok ()) by rw [← o1])]
    rfl
  rw [e2]
  refine ⟨rfl, fun c d => ?_, o3⟩
  show (addTransition σ t w).1.g.adj c d = _
  rw [o2, Graph.adj_addEdge]
  split
  · rename_i h
    have hba : w.g.adj b a = some t := by rw [hr.wf.gok.symm]; exact hadj
    rcases g5 with ⟨e1, e2⟩ | ⟨e1, e2⟩ <;> rw [← e1, ← e2] at h <;> rcases h with ⟨rfl, rfl⟩ | ⟨rfl, rfl⟩ <;> simp [hadj, hba]
  · rfl

/-- C82: a pair that is a key of the listing but whose first level is the higher one is not found. -/
theorem C82_contradicts {w : World} (hr : Reachable w) (σ : Ord') {a b : Str} {ia ib : Nat} (freq : Option ℚ)
    (A : AArg) (ali : Option Str) (ha : Plain w a) (hb : Plain w b) (hla : w.g.lev a = some ia) (hlb : w.g.lev b = some ib)
    (hk : (a, b) ∈ w.transKeys) (hE : w.eHz ib < w.eHz ia) : addTransPair σ a b freq A ali w = (w, .error .KeyError) := by
  have hn := hr.wf.gok.nodup
  have hke : (a, b) ∈ w.g.edges.keys := hk
  have hab : a ≠ b := by
    rintro rfl
    rw [hla] at hlb
    cases hlb
    exact lt_irrefl _ hE
  have hno : (b, a) ∉ w.g.edges.keys := fun h => hab ((C81_listing w hr).2.2.2.2.1 a b hk h)
  have hget : transGet a b w = (w, .error .KeyError) := by
    rw [transGet_plainKey ha.1 hb.1, levelsGet_plain hn ha hla, levelsGet_plain hn hb hlb]
    simp only [bind, Except.bind, refHz]
    rw [if_pos (by simpa using hE)]
    have : w.g.edges.get? (b, a) = none := by
      cases h : w.g.edges.get? (b, a) with
      | none => rfl
      | some t => exact absurd ((Dict.get?_isSome _ _).1 ⟨_, h⟩) hno
    simp only [Dict.getE, this]
  unfold addTransPair
  rw [PyM.get_bind, if_pos hke, PyM.bind_err hget]

/-- C82: two levels joined by a transition listed under the other order: the transition is replaced by a new one. -/
theorem C82_replaced {w : World} (hr : Reachable w) {σ : Ord'} (hσ : Shuffles σ) {a b : Str} {ia ib t : Nat} {Ja Jb : ℚ}
    (freq : Option ℚ) (A : AArg) (ali : Option Str) (hA : ∀ e, A ≠ .bad e) (ha : Plain w a) (hb : Plain w b)
    (hla : w.g.lev a = some ia) (hlb : w.g.lev b = some ib) (hJa : (w.lv ia).term.J = some Ja) (hJb : (w.lv ib).term.J = some Jb)
    (hab : a ≠ b) (hk : (b, a) ∈ w.transKeys) (hadj : w.g.adj a b = some t) :
    (addTransPair σ a b freq A ali w).2 = .ok w.ntr ∧ w.ntr ≠ t ∧ t ∉ (addTransPair σ a b freq A ali w).1.transVals := by
  have hno : (a, b) ∉ w.transKeys := fun h => hab ((C81_listing w hr).2.2.2.2.1 a b h hk)
  obtain ⟨h1, h2, h3, -, -, -, -, h8, h9⟩ := C82_new hr hσ freq A ali hA ha hb hla hlb hJa hJb hno
  obtain ⟨g1, -⟩ := hr.wf.edge _ _ _ hadj
  refine ⟨h1, by omega, fun hm => ?_⟩
  obtain ⟨⟨⟨c, d⟩, t'⟩, hm', rfl⟩ := List.mem_map.1 hm
  clear hm
  have hm := hm'
  have hm2 := ((Graph.mem_edges h9.wf.gok _ _ _).1 hm).1
  by_cases hcd : (c = a ∧ d = b) ∨ (c = b ∧ d = a)
  · have : (addTransPair σ a b freq A ali w).1.g.adj c d = some w.ntr := by
      rcases hcd with ⟨rfl, rfl⟩ | ⟨rfl, rfl⟩
      · exact h2
      · exact h3
    rw [this] at hm2
    cases hm2
    omega
  · rw [h8 c d hcd] at hm2
    have b1 := adj_between hr hm2
    have b2 := adj_between hr hadj
    apply hcd
    unfold Between at b1 b2
    rcases b1 with ⟨e1, e2⟩ | ⟨e1, e2⟩ <;> rcases b2 with ⟨e3, e4⟩ | ⟨e3, e4⟩ <;> rw [e1, e2, e3, e4] <;> tauto

/-- Two levels with a transition. -/
def pairOps : List Op := threeLevels 0 5 9 ++ [.newTrans 0 1 none .none none]

/-- C82 fails: naming the two levels in the other order makes a new transition in the place of the old one. -/
theorem C82_fails : ¬C82_full := by
  intro h
  have hr : Reachable (runAll pairOps (emptyAtom 0 0)) := demo_reachable (by decide +kernel)
  have := h _ idOrd (demoName 'a') (demoName 'g') 1 0 0 none .none none hr idOrd_shuffles (by decide +kernel) (by decide +kernel)
    (by decide +kernel) (by decide +kernel) (by decide +kernel)
  revert this
  decide +kernel

example : let w := runAll pairOps (emptyAtom 0 0)
    Plain w (demoName 'a') ∧ Plain w (demoName 'g') ∧ w.g.lev (demoName 'a') = some 1 ∧ w.g.lev (demoName 'g') = some 0 ∧
    (demoName 'g', demoName 'a') ∈ w.transKeys ∧ w.g.adj (demoName 'a') (demoName 'g') = some 0 ∧ w.eHz 0 < w.eHz 1 ∧
    (demoName 'g', demoName 'b') ∉ w.transKeys ∧ (w.tr 0).subKeys = [] := by decide +kernel

/-- The levels were added the other way round: the key of the listing has the higher level first. -/
example : let w := runAll (threeLevels 7 5 9 ++ [.newTrans 0 1 none .none none]) (emptyAtom 0 0)
    (demoName 'g', demoName 'a') ∈ w.transKeys ∧ w.eHz 1 < w.eHz 0 := by decide +kernel

end AtomTk
