import Verif.Proofs.Alias

/-! # What no call ever changes: terms of levels, ends and multipole types of transitions -/

namespace AtomTk
namespace World

/-- The attributes of a transition that its constructor fixes for good. -/
def core (x : Trans) : Nat × Nat × Nat × Nat × Bool × Option ℚ × (Bool × Bool × Bool) :=
  (x.e1, x.e2, x.lower, x.upper, x.built, x.A, x.allowed)

/-- Objects existing in `w` have the same fixed attributes in `w'`. -/
structure Keep (w w' : World) : Prop where
  I : w'.I = w.I
  nlv : w.nlv ≤ w'.nlv
  ntr : w.ntr ≤ w'.ntr
  term : ∀ i, i < w.nlv → (w'.lv i).term = (w.lv i).term
  core : ∀ t, t < w.ntr → core (w'.tr t) = core (w.tr t)

theorem Keep.refl (w : World) : Keep w w := ⟨rfl, le_refl _, le_refl _, fun _ _ => rfl, fun _ _ => rfl⟩

theorem Keep.trans (a b c : World) (h1 : Keep a b) (h2 : Keep b c) : Keep a c :=
  ⟨h2.I.trans h1.I, h1.nlv.trans h2.nlv, h1.ntr.trans h2.ntr,
    fun i hi => (h2.term i (lt_of_lt_of_le hi h1.nlv)).trans (h1.term i hi),
    fun t ht => (h2.core t (lt_of_lt_of_le ht h1.ntr)).trans (h1.core t ht)⟩

theorem LFrame.keep {w w' : World} (h : LFrame w w') : Keep w w' :=
  ⟨h.I, le_of_eq h.nlv.symm, le_of_eq h.ntr.symm, fun i _ => h.frame.term i, fun t _ => by rw [h.tr]⟩

/-- A change of one level object that keeps its term. -/
theorem keep_setLv (w : World) (i : Nat) (e : ELevel) (h : e.term = (w.lv i).term) : Keep w (w.setLv i e) := by
  refine ⟨rfl, le_refl _, le_refl _, fun k _ => ?_, fun _ _ => rfl⟩
  by_cases hk : k = i
  · subst hk; simp [setLv, h]
  · simp [setLv, upd_ne _ _ _ hk]

theorem keep_setE (w : World) (i : Nat) (v : ℚ) : Keep w (w.setE i v) := keep_setLv w i _ rfl
theorem keep_setFixed (w : World) (i : Nat) (b : Bool) : Keep w (w.setFixed i b) := keep_setLv w i _ rfl

/-- A change of one transition object that keeps its fixed attributes. -/
theorem keep_setTr (w : World) (t : Nat) (x : Trans) (h : World.core x = World.core (w.tr t)) : Keep w (w.setTr t x) := by
  refine ⟨rfl, le_refl _, le_refl _, fun _ _ => rfl, fun k _ => ?_⟩
  by_cases hk : k = t
  · subst hk; simp [setTr, h]
  · simp [setTr, upd_ne _ _ _ hk]

theorem setHLevel_keep (j : Nat) (v : ℚ) (w : World) : Keep w (setHLevel j v w).1 := by
  unfold setHLevel
  split
  · exact keep_setE ..
  · exact .refl w

theorem setZLevel_keep (k : Nat) (v : ℚ) (w : World) : Keep w (setZLevel k v w).1 := by
  unfold setZLevel
  split
  · exact setHLevel_keep ..
  · exact .refl w
  · exact .refl w

theorem setAlias_keep (r : Ref) (al : Str) (w : World) : Keep w (setAlias r al w).1 := by
  unfold setAlias
  split
  · rename_i i
    have h := keep_setLv w i { w.lv i with ali := some al } rfl
    simp only
    split
    · exact ⟨h.I, h.nlv, h.ntr, h.term, h.core⟩
    · exact h
  · exact ⟨rfl, le_refl _, le_refl _, fun _ _ => rfl, fun _ _ => rfl⟩

theorem addLevel_keep (i : Nat) (p : Bool) (ali : Option Str) (w : World) : Keep w (addLevel i p ali w).1 := by
  unfold addLevel
  refine PyM.bind_rel Keep Keep.trans (fun w => ?_) (fun _ => ?_) w
  · refine ⟨rfl, le_refl _, le_refl _, fun k _ => ?_, fun _ _ => rfl⟩
    simp only [lvAddToAtom, PyM.modify]
    by_cases hk : k = i
    · subst hk; simp
    · simp [upd_ne _ _ _ hk]
  refine PyM.bind_rel Keep Keep.trans (fun w => ?_) (fun _ => ?_)
  · cases ali with
    | none => exact .refl w
    | some a => exact setAlias_keep _ _ _
  refine PyM.bind_rel Keep Keep.trans (fun w => ?_) (fun _ w => ?_)
  · unfold regAlias
    split
    · exact ⟨rfl, le_refl _, le_refl _, fun _ _ => rfl, fun _ _ => rfl⟩
    · exact .refl w
  · cases p
    · exact .refl w
    · exact (populateHF_frame i w).keep

theorem enfEdge_keep (u v : Str) (w : World) : Keep w (enfEdge u v w).1 := by
  unfold enfEdge
  split
  · exact .refl w
  · split
    · exact .refl w
    · refine Keep.trans _ _ _ (Keep.trans _ _ _ ?_ (keep_setFixed _ _ _)) (keep_setFixed _ _ _)
      split
      · exact ⟨rfl, le_refl _, le_refl _, fun _ _ => rfl, fun _ _ => rfl⟩
      · split <;> exact keep_setE ..

theorem enfEdges_keep (l : List (Str × Str)) (w : World) : Keep w (enfEdges l w).1 := by
  induction l generalizing w with
  | nil => exact .refl w
  | cons p t ih =>
    obtain ⟨u, v⟩ := p
    unfold enfEdges
    exact PyM.bind_rel Keep Keep.trans (enfEdge_keep u v) (fun _ => ih) w

theorem enforce_keep (σ : Ord') (trig : Option (Str × Str)) (w : World) : Keep w (enforce σ trig w).1 := by
  unfold enforce
  split
  · exact .refl w
  · refine enfComps_rel Keep Keep.refl Keep.trans σ _ (fun c w => ?_) _ _ _
    unfold enfComp
    split
    · exact .refl w
    · exact .refl w
    · exact enfEdges_keep _ _

theorem setFrequency_keep (σ : Ord') (t : Nat) (f : ℚ) (w : World) : Keep w (setFrequency σ t f w).1 := by
  unfold setFrequency
  split
  · simp only
    set w1 := if truthy (w.tr t).setFreq = true ∧ (w.lv (w.tr t).upper).fixed = true ∧
        (w.lv (w.tr t).lower).fixed = true then w.setFixed (w.tr t).upper false else w with hw1
    have h1 : Keep w w1 := by
      rw [hw1]; split
      · exact keep_setFixed ..
      · exact .refl w
    have h2 : Keep w1 (w1.setTr t { w1.tr t with setFreq := some f }) := keep_setTr w1 t _ rfl
    split
    · exact Keep.trans _ _ _ h1 (Keep.trans _ _ _ h2 (enforce_keep ..))
    · exact Keep.trans _ _ _ h1 h2
  · exact .refl w

theorem trAddToAtom_keep (t : Nat) (w : World) : Keep w (trAddToAtom t w).1 := by
  rw [trAddToAtom_fst]
  exact ⟨rfl, le_refl _, le_refl _, fun _ _ => rfl, fun _ _ => rfl⟩

theorem addTransition_keep (σ : Ord') (t : Nat) (w : World) : Keep w (addTransition σ t w).1 := by
  unfold addTransition
  refine PyM.bind_rel Keep Keep.trans (trAddToAtom_keep t) (fun _ => ?_) w
  refine PyM.bind_rel Keep Keep.trans (fun w => ?_) (fun _ w => ?_)
  · unfold regTAlias
    split
    · exact ⟨rfl, le_refl _, le_refl _, fun _ _ => rfl, fun _ _ => rfl⟩
    · exact .refl w
  · unfold enforceIfSet
    split
    · split
      · exact enforce_keep ..
      · exact .refl w
    · exact .refl w

/-- The constructor first: an object is allocated and possibly an edge is added. -/
theorem newTransObj_def (a b : Nat) (ali : Option Str) (w : World) :
    ∃ g, newTransObj a b ali w = ({ newTransHeap w a b ali with g := g }, .ok w.ntr) := by
  unfold newTransObj newTransHeap
  simp only
  split
  · refine ⟨w.g.addEdge (w.lname (if w.eHz b > w.eHz a then a else b)) (w.lname (if w.eHz b > w.eHz a then b else a)) w.ntr, ?_⟩
    simp [trAddToAtom, lname]
  · exact ⟨w.g, rfl⟩

theorem newTrans_keep (a b : Nat) (f : Option ℚ) (A : AArg) (ali : Option Str) (w : World) :
    Keep w (newTrans a b f A ali w).1 := by
  obtain ⟨g, hg⟩ := newTransObj_def a b ali w
  unfold newTrans
  rw [PyM.bind_ok hg]
  set w1 : World := { newTransHeap w a b ali with g := g } with hw1
  have h1 : ∀ w2 : World, w2.I = w.I → w2.nlv = w.nlv → w2.ntr = w.ntr + 1 → w2.lv = w.lv →
      (∀ t, t ≠ w.ntr → w2.tr t = w.tr t) → Keep w w2 := by
    intro w2 e1 e2 e3 e4 e5
    exact ⟨e1, le_of_eq e2.symm, by omega, fun i _ => by rw [e4], fun t ht => by rw [e5 t (by omega)]⟩
  have hb : ∀ t, t ≠ w.ntr → w1.tr t = w.tr t := fun t ht => upd_ne _ _ _ ht
  have key : Keep w (newTransAttrs w.ntr f A w1).1 := by
    unfold newTransAttrs
    split
    · exact h1 _ rfl rfl rfl rfl hb
    · split
      · exact h1 _ rfl rfl rfl rfl hb
      · simp only
        have hb2 : ∀ x : Trans, ∀ t, t ≠ w.ntr → (w1.setTr w.ntr x).tr t = w.tr t := by
          intro x t ht
          rw [← hb t ht]
          exact upd_ne _ _ _ ht
        split
        · exact h1 _ rfl rfl rfl rfl (hb2 _)
        · split
          · exact h1 _ rfl rfl rfl rfl (hb2 _)
          · exact h1 _ rfl rfl rfl rfl (hb2 _)
  rcases hr : newTransAttrs w.ntr f A w1 with ⟨w2, r⟩
  rw [hr] at key
  cases r with
  | error e => rw [PyM.bind_err hr]; exact key
  | ok u => rw [PyM.bind_ok hr]; exact key

/-- No call changes the fixed attributes of existing objects. -/
theorem step_keep (op : Op) (w : World) : Keep w (op.run w).1 := by
  cases op with
  | newLevel t E l A B C ali =>
    show Keep w (Op.void _ w).1
    rw [Op.void_fst]
    refine ⟨rfl, Nat.le_succ _, le_refl _, fun i hi => ?_, fun _ _ => rfl⟩
    simp only [newLevel]
    rw [upd_ne _ _ _ (Nat.ne_of_lt hi)]
  | addLevel i p ali => exact addLevel_keep ..
  | setItem key i => exact addLevel_keep ..
  | delItem key =>
    show Keep w (levelsDel key w).1
    unfold levelsDel
    split
    · exact ⟨rfl, le_refl _, le_refl _, fun _ _ => rfl, fun _ _ => rfl⟩
    · exact .refl w
  | getLevel key =>
    show Keep w (Op.void _ w).1
    rw [Op.void_fst]; exact (levelsGet_frame key w).keep
  | getSub r key =>
    show Keep w (Op.void _ w).1
    rw [Op.void_fst]; exact (refItem_frame r key w).keep
  | setAlias r al => exact setAlias_keep ..
  | setEnergy i v => exact keep_setE ..
  | setHEnergy j v => exact setHLevel_keep ..
  | setZEnergy k v => exact setZLevel_keep ..
  | setConsts i l A B C => exact keep_setLv w i _ rfl
  | setQuad k q => exact ⟨rfl, le_refl _, le_refl _, fun _ _ => rfl, fun _ _ => rfl⟩
  | setB b => exact ⟨rfl, le_refl _, le_refl _, fun _ _ => rfl, fun _ _ => rfl⟩
  | newTrans a b f A ali =>
    show Keep w (Op.void _ w).1
    rw [Op.void_fst]; exact newTrans_keep ..
  | addTransition σ t => exact addTransition_keep ..
  | setFrequency σ t f => exact setFrequency_keep ..
  | enforce σ => exact enforce_keep ..
  | fillSub t keys => exact keep_setTr w t _ rfl

theorem run_keep (ops : List Op) (w : World) : Keep w (runAll ops w) := by
  induction ops generalizing w with
  | nil => exact .refl w
  | cons op ops ih => exact Keep.trans _ _ _ (step_keep op w) (ih _)

end World
end AtomTk
