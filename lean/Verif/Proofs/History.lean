import Verif.Proofs.World

/-! # Invariants of histories -/

namespace AtomTk
open Util

namespace Op
open World

theorem void_fst {α} (m : PyM α) (w : World) : (void m w).1 = (m w).1 := by
  unfold void
  rcases m w with ⟨w', r⟩
  cases r <;> rfl

end Op

namespace World

/-- Every transition object connects its levels in one of the two orders. -/
def Ends (w : World) : Prop := ∀ t, t < w.ntr →
  ((w.tr t).e1 = (w.tr t).lower ∧ (w.tr t).e2 = (w.tr t).upper) ∨
    ((w.tr t).e1 = (w.tr t).upper ∧ (w.tr t).e2 = (w.tr t).lower)

theorem Ends.frame {w w' : World} (h : Ends w) (hf : Frame w w') : Ends w' := by
  intro t ht
  obtain ⟨h1, h2, h3, h4, _⟩ := hf.tr t
  rw [h1, h2, h3, h4]
  exact h t (hf.ntr ▸ ht)

theorem Frame.inv {w w' : World} (h : WF w ∧ Ends w) (hf : Frame w w') : WF w' ∧ Ends w' :=
  ⟨h.1.frame hf, h.2.frame hf⟩

theorem addLevel_ends {w : World} (h : Ends w) (i : Nat) (p : Bool) (ali : Option Str) :
    Ends (World.addLevel i p ali w).1 := by
  obtain ⟨w', h1, h2⟩ := addLevel_def i p ali w
  rw [h1]
  refine Ends.frame ?_ h2
  exact h

theorem trAddToAtom_fst (t : Nat) (w : World) : (World.trAddToAtom t w).1 =
    { w with g := w.g.addEdge (w.lname (w.tr t).lower) (w.lname (w.tr t).upper) t } := by
  unfold World.trAddToAtom
  simp only
  split <;> rfl

theorem taliasSet_frame (w : World) (d : Dict Str Nat) : Frame w { w with talias := d } :=
  ⟨rfl, rfl, rfl, fun _ => rfl, fun _ => rfl, fun _ => ⟨rfl, rfl, rfl, rfl, rfl⟩⟩

theorem regTAlias_frame (t : Nat) (w : World) : Frame w (regTAlias t w).1 := by
  unfold regTAlias
  split
  · exact taliasSet_frame _ _
  · exact .refl w

theorem enforceIfSet_frame (σ : Ord') (t : Nat) (w : World) : Frame w (enforceIfSet σ t w).1 := by
  unfold enforceIfSet
  split
  · split
    · exact enforce_frame _ _ _
    · exact .refl w
  · exact .refl w

theorem addTransition_frame (σ : Ord') (t : Nat) (w : World) :
    Frame (World.trAddToAtom t w).1 (World.addTransition σ t w).1 := by
  unfold World.addTransition
  rw [PyM.bind_def]
  rcases hr : World.trAddToAtom t w with ⟨w', r⟩
  cases r with
  | error e => exact .refl _
  | ok u =>
    exact PyM.bind_rel Frame Frame.trans (regTAlias_frame t) (fun _ => enforceIfSet_frame σ t) w'

theorem lvEdit_frame (w : World) (i : Nat) (e : ELevel) (h1 : e.term = (w.lv i).term)
    (h2 : e.inAtom = (w.lv i).inAtom) : Frame w (w.setLv i e) := by
  refine ⟨rfl, rfl, rfl, ?_, ?_, fun _ => ⟨rfl, rfl, rfl, rfl, rfl⟩⟩
  · intro k
    by_cases h : k = i
    · subst h; simp [setLv, h1]
    · simp [setLv, upd_ne _ _ _ h]
  · intro k
    by_cases h : k = i
    · subst h; simp [setLv, h2]
    · simp [setLv, upd_ne _ _ _ h]

theorem step_inv {w : World} (h : WF w ∧ Ends w) (op : Op) (hs : op.Sane w) :
    WF (op.run w).1 ∧ Ends (op.run w).1 := by
  cases op with
  | newLevel t E l A B C ali =>
    show WF (Op.void _ w).1 ∧ Ends (Op.void _ w).1
    rw [Op.void_fst]
    exact ⟨h.1.newLevel t E l A B C ali, h.2⟩
  | addLevel i p ali => exact ⟨h.1.addLevel i p ali hs.1 hs.2, addLevel_ends h.2 i p ali⟩
  | setItem key i => exact ⟨h.1.addLevel i false (some key) hs.1 hs.2, addLevel_ends h.2 i false (some key)⟩
  | delItem key =>
    refine ⟨h.1.levelsDel key, ?_⟩
    show Ends (World.levelsDel key w).1
    unfold World.levelsDel
    split <;> exact h.2
  | getLevel key =>
    show WF (Op.void _ w).1 ∧ Ends (Op.void _ w).1
    rw [Op.void_fst]
    exact Frame.inv h (levelsGet_frame key w).frame
  | getSub r key =>
    show WF (Op.void _ w).1 ∧ Ends (Op.void _ w).1
    rw [Op.void_fst]
    exact Frame.inv h (refItem_frame r key w).frame
  | setAlias r al => exact Frame.inv h (setAlias_frame r al w)
  | setEnergy i v => exact Frame.inv h (setE_frame w i v)
  | setHEnergy j v => exact Frame.inv h (setHLevel_frame j v w)
  | setZEnergy k v => exact Frame.inv h (setZLevel_frame k v w)
  | setConsts i l A B C => exact Frame.inv h (lvEdit_frame w i _ rfl rfl)
  | setQuad k q =>
    exact Frame.inv h ⟨rfl, rfl, rfl, fun _ => rfl, fun _ => rfl, fun _ => ⟨rfl, rfl, rfl, rfl, rfl⟩⟩
  | setB b =>
    exact Frame.inv h ⟨rfl, rfl, rfl, fun _ => rfl, fun _ => rfl, fun _ => ⟨rfl, rfl, rfl, rfl, rfl⟩⟩
  | newTrans a b f A ali =>
    show WF (Op.void _ w).1 ∧ Ends (Op.void _ w).1
    rw [Op.void_fst]
    obtain ⟨ha, hb, hJ0, hJ1, hA⟩ := hs
    obtain ⟨J0, hJ0⟩ := Option.ne_none_iff_exists'.mp hJ0
    obtain ⟨J1, hJ1⟩ := Option.ne_none_iff_exists'.mp hJ1
    refine ⟨h.1.newTrans a b f A ali J0 J1 ha hb hJ0 hJ1 hA, ?_⟩
    rw [newTrans_ok w a b f A ali J0 J1 (h.1.node _ _ ha).2.1 hJ0 hJ1 hA]
    intro t ht
    show ((upd w.tr w.ntr _ t).e1 = _ ∧ _) ∨ _
    simp only
    by_cases e : t = w.ntr
    · subst e
      simp only [upd_same, finished]
      split
      · exact .inl ⟨rfl, rfl⟩
      · exact .inr ⟨rfl, rfl⟩
    · simp only [upd_ne _ _ _ e]
      exact h.2 t (Nat.lt_of_le_of_ne (Nat.lt_succ_iff.mp ht) e)
  | addTransition σ t =>
    obtain ⟨h1, h2, h3, h4⟩ := hs
    refine Frame.inv ⟨h.1.trAddToAtom t h1 h2 h3 h4 (h.2 t h1), ?_⟩ (addTransition_frame σ t w)
    rw [trAddToAtom_fst]
    exact h.2
  | setFrequency σ t f => exact Frame.inv h (setFrequency_frame σ t f w)
  | enforce σ => exact Frame.inv h (enforce_frame σ none w)
  | fillSub t keys => exact Frame.inv h (setTr_frame w t _ ⟨rfl, rfl, rfl, rfl, rfl⟩)

end World

/-- Every state reached by sane calls is well formed. -/
theorem Reachable.inv {w : World} (h : Reachable w) : w.WF ∧ w.Ends := by
  induction h with
  | empty I B =>
    refine ⟨⟨Graph.Ok.empty, ?_, ?_⟩, ?_⟩
    · intro n i hi
      simp [emptyAtom, Graph.lev, Dict.get?] at hi
    · intro u v t ht
      simp [emptyAtom, Graph.adj, Dict.get?] at ht
    · intro t ht
      simp [emptyAtom] at ht
  | step op _ hs ih => exact World.step_inv ih op hs

theorem Reachable.wf {w : World} (h : Reachable w) : w.WF := h.inv.1

end AtomTk
