import Verif.Props.Quiet
import Verif.Props.TransList

/-!
# C158: calls that raise

A call that raises should leave the atom as it was.  Three calls do not: an alias given to a level that is in no atom, `add_level` with
`populate` of a level without J, `add_transition` of a transition whose subtransitions have been computed.  (A fourth, the constructor
of `Transition`, is C47.)
-/

namespace AtomTk
open Util World

/-- A transition that was built has its first level in the atom. -/
def HomeInv (w : World) : Prop :=
  ∀ t, (w.tr t).built = true → (w.lv (w.tr t).e1).inAtom = true ∧ (w.tr t).e1 < w.nlv

theorem HomeInv.frame {w w' : World} (h : HomeInv w) (hf : Frame w w') : HomeInv w' := by
  intro t ht
  obtain ⟨h1, -, -, -, h5⟩ := hf.tr t
  rw [h1, hf.inAtom, hf.nlv]
  exact h t (h5 ▸ ht)

theorem HomeInv.lvAddToAtom {w : World} (h : HomeInv w) (i : Nat) : HomeInv (World.lvAddToAtom i w).1 := by
  intro t ht
  obtain ⟨h1, h2⟩ := h t ht
  refine ⟨?_, h2⟩
  show (upd w.lv i { w.lv i with inAtom := true } (w.tr t).e1).inAtom = true
  by_cases e : (w.tr t).e1 = i
  · rw [e, upd_same]
  · rw [upd_ne _ _ _ e]; exact h1

theorem HomeInv.addLevel {w : World} (h : HomeInv w) (i : Nat) (p : Bool) (ali : Option Str) : HomeInv (World.addLevel i p ali w).1 := by
  obtain ⟨w', h1, h2⟩ := addLevel_def i p ali w
  rw [h1]
  exact (h.lvAddToAtom i).frame h2

theorem Reachable.home {w : World} (hr : Reachable w) : HomeInv w := by
  induction hr with
  | empty I B => intro t ht; simp [emptyAtom] at ht
  | @step w op hr hs h =>
    cases op with
    | newLevel t E l A B C ali =>
      rw [show Op.run (.newLevel t E l A B C ali) = Op.void (World.newLevel t E l A B C ali) from rfl, Op.void_fst]
      intro x hx
      obtain ⟨h1, h2⟩ := h x hx
      refine ⟨?_, Nat.lt_succ_of_lt h2⟩
      show (upd w.lv w.nlv _ (w.tr x).e1).inAtom = true
      rw [upd_ne _ _ _ (Nat.ne_of_lt h2)]
      exact h1
    | addLevel i p ali => exact h.addLevel i p ali
    | setItem key i => exact h.addLevel i false (some key)
    | delItem key =>
      show HomeInv (World.levelsDel key w).1
      unfold World.levelsDel
      split <;> exact h
    | getLevel key =>
      rw [show Op.run (.getLevel key) = Op.void (World.levelsGet key) from rfl, Op.void_fst]
      exact h.frame (levelsGet_frame key w).frame
    | getSub r key =>
      rw [show Op.run (.getSub r key) = Op.void (World.refItem r key) from rfl, Op.void_fst]
      exact h.frame (refItem_frame r key w).frame
    | setAlias r al => exact h.frame (setAlias_frame r al w)
    | setEnergy i v => exact h.frame (setE_frame w i v)
    | setHEnergy j v => exact h.frame (setHLevel_frame j v w)
    | setZEnergy k v => exact h.frame (setZLevel_frame k v w)
    | setConsts i l A B C => exact h.frame (lvEdit_frame w i _ rfl rfl)
    | setQuad k q => exact h
    | setB b => exact h
    | newTrans a b f A ali =>
      rw [show Op.run (.newTrans a b f A ali) = Op.void (World.newTrans a b f A ali) from rfl, Op.void_fst]
      obtain ⟨ha, hb, hJ0, hJ1, hA⟩ := hs
      obtain ⟨J0, hJ0⟩ := Option.ne_none_iff_exists'.mp hJ0
      obtain ⟨J1, hJ1⟩ := Option.ne_none_iff_exists'.mp hJ1
      have hn := hr.wf.node _ _ ha
      rw [newTrans_ok w a b f A ali J0 J1 hn.2.1 hJ0 hJ1 hA]
      intro t ht
      by_cases e : t = w.ntr
      · subst e
        simp only [upd_same, finished]
        exact ⟨hn.2.1, hn.2.2⟩
      · simp only [upd_ne _ _ _ e] at ht ⊢
        exact h t ht
    | addTransition σ t =>
      refine HomeInv.frame (w := (World.trAddToAtom t w).1) ?_ (addTransition_frame σ t w)
      rw [trAddToAtom_fst]
      exact h
    | setFrequency σ t f => exact h.frame (setFrequency_frame σ t f w)
    | enforce σ => exact h.frame (enforce_frame σ none w)
    | fillSub t keys => exact h.frame (setTr_frame w t _ ⟨rfl, rfl, rfl, rfl, rfl⟩)

/-- Every iteration order used by the call is an order. -/
def Op.Orderly : Op → Prop
  | .addTransition σ _ | .setFrequency σ _ _ | .enforce σ => Shuffles σ
  | _ => True

/-- The full claim: a call that raises changes nothing about the atom, except that sublevels may have been made on the way. -/
def C158_full : Prop := ∀ (w : World) (op : Op) (w' : World) (e : PyErr), Reachable w → op.Sane w → op.Orderly → op.run w = (w', .error e) → LFrame w w'

/-- The calls that are no transactions: `level.alias = ...` of a level in no atom; `add_level(level, populate=True)` of a level whose
sublevels cannot be made; `add_transition` after the subtransitions were computed. -/
def Op.Leaky (w : World) : Op → Prop
  | .addLevel i p _ => p = true ∧ ¬∃ J, (w.lv i).term.J = some J ∧ (w.lv i).term.F = none ∧ IsSpin J ∧ IsSpin w.I
  | .setAlias (.fine i) _ => (w.lv i).inAtom = false
  | .addTransition _ t => (w.tr t).subKeys ≠ []
  | _ => False

theorem void_err {α : Type} {m : PyM α} {w w' : World} {e : PyErr} (h : Op.void m w = (w', .error e)) : (m w).1 = w' := by
  have := Op.void_fst m w
  rw [h] at this
  exact this.symm

theorem populateHF_made {w : World} {i : Nat} {J : ℚ} (hJ : (w.lv i).term.J = some J) (hF : (w.lv i).term.F = none) (hs : IsSpin J)
    (hI : IsSpin w.I) : (populateHF i w).2 = .ok () := by
  unfold populateHF
  split
  · rw [hJ]
    obtain ⟨w', h, -⟩ := popHFs_ok i J (hfFs w.I J) w hJ hF fun f hf => by
      obtain ⟨n, rfl⟩ := hfFs_spin hI hs hf
      positivity
    show (popHFs i (hfFs w.I J) w).2 = _
    rw [h]
  · rfl

theorem setAliasOpt_ok (i : Nat) (ali : Option Str) (w : World) (h : (w.lv i).inAtom = true) :
    setAliasOpt i ali w = ((setAliasOpt i ali w).1, .ok ()) := by
  cases ali with
  | none => rfl
  | some al =>
    show setAlias (.fine i) al w = ((setAlias (.fine i) al w).1, .ok ())
    unfold setAlias
    simp [setLv, h]

/-- `add_level` returns if the sublevels can be made, or are not asked for. -/
theorem addLevel_returns {w : World} {i : Nat} {p : Bool} (ali : Option Str) (h : ¬(Op.addLevel i p ali).Leaky w) :
    (addLevel i p ali w).2 = .ok () := by
  unfold addLevel
  have hl : World.lvAddToAtom i w = ((World.lvAddToAtom i w).1, .ok ()) := rfl
  rw [PyM.bind_ok hl]
  have hin : ((World.lvAddToAtom i w).1.lv i).inAtom = true := by
    show (upd w.lv i { w.lv i with inAtom := true } i).inAtom = true
    rw [upd_same]
  have ht : ((World.lvAddToAtom i w).1.lv i).term = (w.lv i).term := by
    show (upd w.lv i { w.lv i with inAtom := true } i).term = _
    rw [upd_same]
  have hI1 : (World.lvAddToAtom i w).1.I = w.I := rfl
  generalize (World.lvAddToAtom i w).1 = w1 at hin ht hI1
  rw [PyM.bind_ok (setAliasOpt_ok i ali w1 hin)]
  have ht2 : ((setAliasOpt i ali w1).1.lv i).term = (w.lv i).term := by rw [(setAliasOpt_frame i ali w1).term, ht]
  have hI2 : (setAliasOpt i ali w1).1.I = w.I := by
    rw [← hI1]
    cases ali with
    | none => rfl
    | some al =>
      show (setAlias (.fine i) al w1).1.I = _
      unfold setAlias
      simp only
      split <;> rfl
  generalize (setAliasOpt i ali w1).1 = w2 at ht2 hI2
  have hreg : regAlias i w2 = ((regAlias i w2).1, .ok ()) := by unfold regAlias; split <;> rfl
  rw [PyM.bind_ok hreg]
  have ht3 : ((regAlias i w2).1.lv i).term = (w.lv i).term := by rw [(regAlias_frame i w2).term, ht2]
  have hI3 : (regAlias i w2).1.I = w.I := by rw [← hI2]; unfold regAlias; split <;> rfl
  generalize (regAlias i w2).1 = w3 at ht3 hI3
  cases p with
  | false => rfl
  | true =>
    have : ∃ J, (w.lv i).term.J = some J ∧ (w.lv i).term.F = none ∧ IsSpin J ∧ IsSpin w.I := by
      by_contra hc
      exact h ⟨rfl, hc⟩
    obtain ⟨J, h1, h2, h3, h4⟩ := this
    exact populateHF_made (by rw [ht3, h1]) (by rw [ht3, h2]) h3 (by rw [hI3]; exact h4)

/-- C158 for all calls but the three: what raises leaves everything as it was, up to sublevels made on the way. -/
theorem C158_atomic_partial {w w' : World} {op : Op} {e : PyErr} (hr : Reachable w) (hs : op.Sane w) (ho : op.Orderly) (hl : ¬op.Leaky w)
    (h : op.run w = (w', .error e)) : LFrame w w' := by
  have h2 := congrArg Prod.snd h
  have h1 := (congrArg Prod.fst h).symm
  simp only at h1 h2
  subst h1
  have no : ∀ {P : Prop}, (op.run w).2 = .ok () → P := fun hok => by rw [h2] at hok; simp at hok
  cases op with
  | newLevel t E l A B C ali => exact no rfl
  | addLevel i p ali => exact no (addLevel_returns ali hl)
  | setItem key i => exact no (addLevel_returns (p := false) (some key) fun hc => by simpa using hc.1)
  | delItem key =>
    show LFrame w (World.levelsDel key w).1
    have h2 : (World.levelsDel key w).2 = .error e := h2
    unfold World.levelsDel at h2 ⊢
    split at h2
    · simp at h2
    · exact .refl w
  | getLevel key =>
    rw [show Op.run (.getLevel key) = Op.void (World.levelsGet key) from rfl, Op.void_fst]
    exact levelsGet_frame key w
  | getSub r key =>
    rw [show Op.run (.getSub r key) = Op.void (World.refItem r key) from rfl, Op.void_fst]
    exact refItem_frame r key w
  | setAlias r al =>
    refine no ?_
    show (World.setAlias r al w).2 = _
    cases r with
    | fine i =>
      have : (w.lv i).inAtom = true := by
        cases hc : (w.lv i).inAtom
        · exact absurd hc hl
        · rfl
      unfold World.setAlias
      simp [setLv, this]
    | hyp j => rfl
    | zee k => rfl
  | setEnergy i v => exact no rfl
  | setHEnergy j v =>
    have h2 : (World.setHLevel j v w).2 = .error e := h2
    show LFrame w (World.setHLevel j v w).1
    unfold World.setHLevel at h2 ⊢
    split at h2
    · simp at h2
    · exact .refl w
  | setZEnergy k v =>
    have h2 : (World.setZLevel k v w).2 = .error e := h2
    show LFrame w (World.setZLevel k v w).1
    unfold World.setZLevel at h2 ⊢
    split at h2
    · unfold World.setHLevel at h2 ⊢
      split at h2
      · simp at h2
      · exact .refl w
    · exact .refl w
    · exact .refl w
  | setConsts i l A B C => exact no rfl
  | setQuad k q => exact no rfl
  | setB b => exact no rfl
  | newTrans a b f A ali =>
    refine no ?_
    obtain ⟨ha, hb, hJ0, hJ1, hA⟩ := hs
    obtain ⟨J0, hJ0⟩ := Option.ne_none_iff_exists'.mp hJ0
    obtain ⟨J1, hJ1⟩ := Option.ne_none_iff_exists'.mp hJ1
    show (Op.void (World.newTrans a b f A ali) w).2 = _
    unfold Op.void
    rw [newTrans_ok w a b f A ali J0 J1 (hr.wf.node _ _ ha).2.1 hJ0 hJ1 hA]
  | addTransition σ t =>
    obtain ⟨h3, h4, h5, h6⟩ := hs
    refine no (addTransition_ok ho (hr.wf.trAddToAtom t h3 h4 h5 h6 (hr.inv.2 t h3)) h4 ?_).1
    by_contra hc
    exact hl hc
  | setFrequency σ t f =>
    by_cases hb : (w.tr t).built = true
    · obtain ⟨w', h3, -⟩ := setFrequency_frame' hr.wf ho (f := f) hb (hr.home t hb).1
      refine no ?_
      show (World.setFrequency σ t f w).2 = _
      rw [h3]
    · show LFrame w (World.setFrequency σ t f w).1
      unfold World.setFrequency
      rw [if_neg hb]
      exact .refl w
  | enforce σ =>
    obtain ⟨w', h3, -⟩ := enforce_group hr.wf ho none ([] : Str)
    refine no ?_
    show (World.enforce σ none w).2 = _
    rw [h3]
  | fillSub t keys => exact no rfl

/-- Everything after a call that raised goes as if it had not been made: every call of the rest of the program returns or raises the same,
and the atom ends up the same, up to which sublevels have been made. -/
theorem C158_as_if_partial {w w' : World} {op : Op} {e : PyErr} (hr : Reachable w) (hs : op.Sane w) (ho : op.Orderly) (hl : ¬op.Leaky w)
    (h : op.run w = (w', .error e)) (rest : List Op) (hf : ∀ o ∈ rest, o.Fine) :
    Alike (runAll rest w) (runAll rest w') ∧ outcomes rest w' = outcomes rest w := by
  have ha : Alike w w' := (C158_atomic_partial hr hs ho hl h).alike
  clear h hr hs hl
  induction rest generalizing w w' with
  | nil => exact ⟨ha, rfl⟩
  | cons o rest ih =>
    obtain ⟨h1, h2⟩ := deaf_alike (op_deaf (hf o List.mem_cons_self) w) ha
    obtain ⟨h3, h4⟩ := ih (fun b hb => hf b (List.mem_cons_of_mem _ hb)) h1
    refine ⟨h3, ?_⟩
    show (o.run w').2 :: _ = (o.run w).2 :: _
    rw [h2, h4]
/-- An alias given to a level in no atom raises, and is registered when the level is added after all. -/
theorem C158_alias_kept {w : World} {i : Nat} (al : Str) (h : (w.lv i).inAtom = false) :
    ((Op.setAlias (.fine i) al).run w).2 = .error .AttributeError ∧
    ((Op.addLevel i false none).run ((Op.setAlias (.fine i) al).run w).1).1.lalias.get? al = some (.fine i) := by
  have e1 : (Op.setAlias (.fine i) al).run w = (w.setLv i { w.lv i with ali := some al }, .error .AttributeError) := by
    show World.setAlias (.fine i) al w = _
    unfold World.setAlias
    simp [setLv, h]
  rw [e1]
  refine ⟨rfl, ?_⟩
  show (World.addLevel i false none (w.setLv i { w.lv i with ali := some al })).1.lalias.get? al = _
  unfold World.addLevel
  have hl : World.lvAddToAtom i (w.setLv i { w.lv i with ali := some al }) =
    ((World.lvAddToAtom i (w.setLv i { w.lv i with ali := some al })).1, .ok ()) := rfl
  rw [PyM.bind_ok hl]
  have ha : ((World.lvAddToAtom i (w.setLv i { w.lv i with ali := some al })).1.lv i).ali = some al := by
    show (upd (upd w.lv i _) i _ i).ali = _
    rw [upd_same]
    show (upd w.lv i _ i).ali = _
    rw [upd_same]
  generalize (World.lvAddToAtom i (w.setLv i { w.lv i with ali := some al })).1 = w1 at ha
  have e2 : setAliasOpt i none w1 = (w1, .ok ()) := rfl
  rw [PyM.bind_ok e2]
  have e3 : regAlias i w1 = ({ w1 with lalias := w1.lalias.set al (.fine i) }, .ok ()) := by
    unfold regAlias
    rw [ha]
  rw [PyM.bind_ok e3]
  show (w1.lalias.set al (.fine i)).get? al = _
  rw [Dict.get?_set, if_pos rfl]

/-- Making the sublevels of a level without J raises when the level has been added already. -/
theorem C158_listed {w : World} {i : Nat} (h : (w.lv i).term.J = none) :
    (addLevel i true none w).2 = .error .TypeError ∧ (addLevel i true none w).1.g.lev (w.lname i) = some i := by
  have hg : (addLevel i true none w).1.g = w.g.addNode (w.lname i) i := by
    obtain ⟨w', h1, h2⟩ := addLevel_def i true none w
    rw [h1, h2.g]
    rfl
  refine ⟨?_, by rw [hg, Graph.lev_addNode, if_pos rfl]⟩
  unfold addLevel
  have hl : World.lvAddToAtom i w = ((World.lvAddToAtom i w).1, .ok ()) := rfl
  rw [PyM.bind_ok hl]
  have ht : ((World.lvAddToAtom i w).1.lv i).term = (w.lv i).term ∧ ((World.lvAddToAtom i w).1.lv i).inAtom = true := by
    refine ⟨?_, ?_⟩
    · show (upd w.lv i { w.lv i with inAtom := true } i).term = _
      rw [upd_same]
    · show (upd w.lv i { w.lv i with inAtom := true } i).inAtom = _
      rw [upd_same]
  generalize (World.lvAddToAtom i w).1 = w1 at ht
  have e2 : setAliasOpt i none w1 = (w1, .ok ()) := rfl
  rw [PyM.bind_ok e2]
  have hreg : regAlias i w1 = ((regAlias i w1).1, .ok ()) := by unfold regAlias; split <;> rfl
  rw [PyM.bind_ok hreg]
  have f := regAlias_frame i w1
  show (populateHF i (regAlias i w1).1).2 = _
  unfold populateHF
  rw [if_pos (by rw [f.inAtom, ht.2]), f.term, ht.1, h]

/-- Adding a transition again, after its subtransitions were computed, raises when the edge has been set already; its alias is not. -/
theorem C158_edge_set {w : World} {t : Nat} (σ : Ord') (h : (w.tr t).subKeys ≠ []) :
    (addTransition σ t w).2 = .error .AttributeError ∧
    (addTransition σ t w).1 = { w with g := w.g.addEdge (w.lname (w.tr t).lower) (w.lname (w.tr t).upper) t } := by
  have e1 : trAddToAtom t w =
      ({ w with g := w.g.addEdge (w.lname (w.tr t).lower) (w.lname (w.tr t).upper) t }, .error .AttributeError) := by
    unfold trAddToAtom
    simp [h]
  unfold addTransition
  rw [PyM.bind_err e1]
  exact ⟨rfl, rfl⟩

/-- A level without J. -/
def bareTerm : Term := ⟨['x'], "2S".toList, none, none, none, 100, { l := some 0, s := some (1/2) }⟩

/-- One level, of which nothing has been said. -/
def unsaidOps : List Op := [.newLevel (demoTerm 'g') 0 0 0 0 0 none]

theorem C158_fails : ¬C158_full := by
  intro h
  have hr : Reachable (runAll unsaidOps (emptyAtom 0 0)) := demo_reachable (by decide +kernel)
  have h1 : ((Op.setAlias (.fine 0) ['g']).run (runAll unsaidOps (emptyAtom 0 0))).2 = .error .AttributeError := by decide +kernel
  have := h _ (.setAlias (.fine 0) ['g']) ((Op.setAlias (.fine 0) ['g']).run (runAll unsaidOps (emptyAtom 0 0))).1 .AttributeError hr trivial
    trivial (by rw [← h1])
  obtain ⟨s, hs⟩ := this.lv 0
  have h2 : (((Op.setAlias (.fine 0) ['g']).run (runAll unsaidOps (emptyAtom 0 0))).1.lv 0).ali =
    ((runAll unsaidOps (emptyAtom 0 0)).lv 0).ali := by rw [hs]
  clear hs
  revert h2
  decide +kernel

/-- The difference shows: with the call that raised the level is found by the alias after `add_level`, without it it is not. -/
example :
    let w := runAll unsaidOps (emptyAtom 0 0)
    let w' := ((Op.setAlias (.fine 0) ['g']).run w).1
    (levelsGet ['g'] (runAll [.addLevel 0 false none] w)).2 = .error .KeyError ∧
    (levelsGet ['g'] (runAll [.addLevel 0 false none] w')).2 = .ok (.fine 0) := by decide +kernel

/-- The second: `add_level(level, populate=True)` raises TypeError and the level is listed. -/
example :
    let w := runAll [.newLevel bareTerm 0 0 0 0 0 none] (emptyAtom 0 0)
    let r := (Op.addLevel 0 true none).run w
    (Op.addLevel 0 true none).Sane w ∧ r.2 = .error .TypeError ∧ w.levelNames = [] ∧ r.1.levelNames = [bareTerm.name] := by
  decide +kernel

/-- The third: two transitions between the same levels; adding the first again raises AttributeError and replaces the second. -/
example :
    let w := runAll (threeLevels 0 5 9 ++ [.newTrans 0 1 none .none none, .fillSub 0 [(['a'], ['b'])], .newTrans 0 1 none .none none])
      (emptyAtom 0 0)
    let r := (Op.addTransition idOrd 0).run w
    (Op.addTransition idOrd 0).Sane w ∧ r.2 = .error .AttributeError ∧ w.g.adj (demoName 'g') (demoName 'a') = some 1 ∧
      r.1.g.adj (demoName 'g') (demoName 'a') = some 0 := by
  decide +kernel

/-- Calls that raise and are covered: a name that is not there, sublevels that are not there (made on the way all the same), a deletion of
nothing. -/
example :
    let w := runAll (threeLevels 0 5 9) (emptyAtom 0 0)
    ((Op.getLevel ['q']).run w).2 = .error .KeyError ∧ ((Op.getSub (.fine 0) ['q']).run w).2 = .error .KeyError ∧
      (((Op.getSub (.fine 0) ['q']).run w).1.lv 0).subs.length = 1 ∧ ((Op.delItem ['q']).run w).2 = .error .NetworkXError ∧
      ((Op.setFrequency idOrd 7 1).run w).2 = .error .AttributeError := by decide +kernel
end AtomTk
