import Verif.Proofs.Forest

/-! # `set_frequency` as preparation followed by enforcement -/

namespace AtomTk
open Util
namespace World

/-- Does `set_frequency` release the upper level? -/
def releases (w : World) (t : Nat) : Prop :=
  truthy (w.tr t).setFreq = true ∧ (w.lv (w.tr t).upper).fixed = true ∧ (w.lv (w.tr t).lower).fixed = true

instance (w : World) (t : Nat) : Decidable (releases w t) := by unfold releases; infer_instance

/-- The state in which `set_frequency` calls `enforce_consistency`. -/
def prep (w : World) (t : Nat) (f : ℚ) : World :=
  if releases w t then withFreq (w.setFixed (w.tr t).upper false) t f else withFreq w t f

theorem prep_frame (w : World) (t : Nat) (f : ℚ) : Frame w (prep w t f) := by
  unfold prep withFreq
  split
  · exact Frame.trans _ _ _ (setFixed_frame w _ _) (setTr_frame _ t _ ⟨rfl, rfl, rfl, rfl, rfl⟩)
  · exact setTr_frame w t _ ⟨rfl, rfl, rfl, rfl, rfl⟩

theorem prep_g (w : World) (t : Nat) (f : ℚ) : (prep w t f).g = w.g := by
  unfold prep; split <;> rfl

theorem prep_tr (w : World) (t : Nat) (f : ℚ) : (prep w t f).tr = (withFreq w t f).tr := by
  unfold prep; split <;> rfl

theorem withFreq_tr_same (w : World) (t : Nat) (f : ℚ) : (withFreq w t f).tr t = { w.tr t with setFreq := some f } := by
  simp [withFreq, setTr]

theorem withFreq_tr_ne (w : World) {t t' : Nat} (h : t' ≠ t) (f : ℚ) : (withFreq w t f).tr t' = w.tr t' := by
  simp [withFreq, setTr, upd_ne _ _ _ h]

theorem prep_eHz (w : World) (t : Nat) (f : ℚ) (i : Nat) : (prep w t f).eHz i = w.eHz i := by
  unfold prep
  split
  · show (upd w.lv _ _ i).levelHz = _
    by_cases h : i = (w.tr t).upper
    · subst h; simp [eHz]
    · simp only [upd_ne _ _ _ h]; rfl
  · rfl

theorem prep_warned (w : World) (t : Nat) (f : ℚ) : (prep w t f).warned = w.warned := by
  unfold prep; split <;> rfl

theorem prep_fixed (w : World) (t : Nat) (f : ℚ) (i : Nat) : ((prep w t f).lv i).fixed =
    if releases w t ∧ i = (w.tr t).upper then false else (w.lv i).fixed := by
  unfold prep
  by_cases hr : releases w t
  · rw [if_pos hr]
    show (upd w.lv _ _ i).fixed = _
    by_cases h : i = (w.tr t).upper
    · subst h; simp [hr]
    · simp [upd_ne _ _ _ h, h]
  · rw [if_neg hr]
    simp [hr, withFreq, setTr]

theorem prep_setEdge (w : World) (t : Nat) (f : ℚ) (u v : Str) (t' : Nat) (f' : ℚ) :
    SetEdge (prep w t f) u v t' f' ↔ SetEdge (withFreq w t f) u v t' f' := by
  unfold SetEdge; rw [prep_g, prep_tr]; rfl

theorem prep_conn (w : World) (t : Nat) (f : ℚ) : SetConn (prep w t f) = SetConn (withFreq w t f) := by
  unfold SetConn; simp only [prep_setEdge]

theorem prep_inX (w : World) (t : Nat) (f : ℚ) (X : Str → Prop) (i : Nat) : InX (prep w t f) X i ↔ InX w X i := by
  unfold InX; rw [prep_g]

theorem withFreq_setEdge (w : World) (t : Nat) (f : ℚ) (u v : Str) (t' : Nat) (f' : ℚ) :
    SetEdge (withFreq w t f) u v t' f' ↔
      (t' = t ∧ f' = f ∧ w.g.adj u v = some t) ∨ (t' ≠ t ∧ SetEdge w u v t' f') := by
  unfold SetEdge
  show (w.g.adj u v = some t' ∧ _) ↔ _
  by_cases h : t' = t
  · subst h
    rw [withFreq_tr_same]
    simp only [Option.some.injEq, true_and, ne_eq, not_true_eq_false, false_and, or_false]
    exact ⟨fun ⟨a, b⟩ => ⟨b.symm, a⟩, fun ⟨a, b⟩ => ⟨b, a.symm⟩⟩
  · rw [withFreq_tr_ne w h]
    simp [h]

theorem setFrequency_eq {w : World} {t : Nat} (hb : (w.tr t).built = true) (ha : (w.lv (w.tr t).e1).inAtom = true)
    (σ : Ord') (f : ℚ) :
    setFrequency σ t f w = enforce σ (some (w.lname (w.tr t).e1, w.lname (w.tr t).e2)) (prep w t f) := by
  unfold setFrequency
  rw [if_pos hb]
  by_cases hr : releases w t
  · have hr' := hr
    unfold releases at hr'
    unfold prep
    rw [if_pos hr]
    simp only [if_pos hr']
    have e1 : ((w.setFixed (w.tr t).upper false).setTr t
      { (w.setFixed (w.tr t).upper false).tr t with setFreq := some f }).tr t = { w.tr t with setFreq := some f } := by
      simp [setTr, setFixed, setLv]
    have e2 : ∀ i, ((upd w.lv (w.tr t).upper { w.lv (w.tr t).upper with fixed := false }) i).inAtom = (w.lv i).inAtom := by
      intro i
      by_cases h : i = (w.tr t).upper
      · subst h; simp
      · simp [upd_ne _ _ _ h]
    have e3 : ∀ i, ((upd w.lv (w.tr t).upper { w.lv (w.tr t).upper with fixed := false }) i).term = (w.lv i).term := by
      intro i
      by_cases h : i = (w.tr t).upper
      · subst h; simp
      · simp [upd_ne _ _ _ h]
    rw [e1]
    simp only [setTr, setFixed, setLv, withFreq, lname, e2, e3, ha, if_true]
  · have hr' := hr
    unfold releases at hr'
    unfold prep
    rw [if_neg hr]
    simp only [if_neg hr']
    have e1 : (w.setTr t { w.tr t with setFreq := some f }).tr t = { w.tr t with setFreq := some f } := by
      simp [setTr]
    rw [e1]
    simp only [setTr, withFreq, lname, ha, if_true]

/-- The frequency of a transition whose ends differ by `f`. -/
theorem freqHz_of {w w' : World} {t : Nat} {f : ℚ}
    (he : ((w'.tr t).e1 = (w.tr t).lower ∧ (w'.tr t).e2 = (w.tr t).upper) ∨
      ((w'.tr t).e1 = (w.tr t).upper ∧ (w'.tr t).e2 = (w.tr t).lower))
    (h0 : 0 ≤ f) (h : w'.eHz (w.tr t).upper - w'.eHz (w.tr t).lower = f) : w'.freqHz t = f := by
  unfold freqHz
  rcases he with ⟨e1, e2⟩ | ⟨e1, e2⟩
  · rw [e1, e2, abs_sub_comm, h, abs_of_nonneg h0]
  · rw [e1, e2, h, abs_of_nonneg h0]

/-- `set_frequency` returns normally and stays within its group. -/
theorem setFrequency_frame' {w : World} (hw : WF w) {σ : Ord'} (hσ : Shuffles σ) {t : Nat} {f : ℚ}
    (hb : (w.tr t).built = true) (ha : (w.lv (w.tr t).e1).inAtom = true) :
    ∃ w', setFrequency σ t f w = (w', .ok ()) ∧ EFrame (prep w t f) w' ∧
      ∀ i, ¬InX w (SetConn (withFreq w t f) (w.lname (w.tr t).e1)) i → w'.lv i = (prep w t f).lv i := by
  rw [setFrequency_eq hb ha]
  obtain ⟨w', k1, k2, k3, _⟩ := enforce_group (hw.frame (prep_frame w t f)) hσ
    (some (w.lname (w.tr t).e1, w.lname (w.tr t).e2)) (w.lname (w.tr t).e1)
  refine ⟨w', k1, k2, ?_⟩
  intro i hi
  apply k3 _ rfl i
  rw [prep_inX, prep_conn]
  exact hi

/-- The group of a ready transition is enforced. -/
theorem setFrequency_ready {w : World} (hw : WF w) {σ : Ord'} (hσ : Shuffles σ) {t : Nat} {f : ℚ}
    (ht : w.g.adj (w.lname (w.tr t).e1) (w.lname (w.tr t).e2) = some t)
    (hr : Ready (prep w t f) (SetConn (withFreq w t f) (w.lname (w.tr t).e1))) :
    ∃ w', setFrequency σ t f w = (w', .ok ()) ∧ EFrame (prep w t f) w' ∧
      Done (prep w t f) w' (SetConn (withFreq w t f) (w.lname (w.tr t).e1)) := by
  obtain ⟨h1, hb, h3, h4, h5, h6⟩ := hw.edge _ _ _ ht
  have ha : (w.lv (w.tr t).e1).inAtom = true := by
    rcases h6 with ⟨e, _⟩ | ⟨e, _⟩
    · rw [e]; exact (hw.node _ _ h3).2.1
    · rw [e]; exact (hw.node _ _ h4).2.1
  rw [setFrequency_eq hb ha]
  have hself : SetEdge (prep w t f) (w.lname (w.tr t).e1) (w.lname (w.tr t).e2) t f :=
    (prep_setEdge ..).2 ((withFreq_setEdge ..).2 (.inl ⟨rfl, rfl, ht⟩))
  obtain ⟨w', k1, k2, k3, k4⟩ := enforce_group (hw.frame (prep_frame w t f)) hσ
    (some (w.lname (w.tr t).e1, w.lname (w.tr t).e2)) (w.lname (w.tr t).e1)
  refine ⟨w', k1, k2, ?_⟩
  rw [prep_conn] at k4
  refine k4 ?_ ⟨_, _, _, hself⟩ hr
  rintro p hp
  simp only [Option.some.injEq] at hp
  subst hp
  exact ⟨.refl, t, f, hself⟩

end World
end AtomTk
