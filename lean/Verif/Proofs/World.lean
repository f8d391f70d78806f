import Verif.Spec.Atom
import Verif.Proofs.Graph

/-! # Invariants of the world -/

namespace AtomTk
open Util

@[simp] theorem upd_same {α} (h : Nat → α) (i : Nat) (a : α) : upd h i a i = a := by simp [upd]
theorem upd_ne {α} (h : Nat → α) (i : Nat) (a : α) {j : Nat} (hj : j ≠ i) : upd h i a j = h j := by simp [upd, hj]

namespace PyM
theorem bind_def {α β} (m : PyM α) (f : α → PyM β) (w : World) :
    (m >>= f) w = match m w with | (w', .ok a) => f a w' | (w', .error e) => (w', .error e) := rfl
theorem pure_def {α} (a : α) (w : World) : (pure a : PyM α) w = (w, .ok a) := rfl
theorem bind_ok {α β} {m : PyM α} {f : α → PyM β} {w w' : World} {a : α} (h : m w = (w', .ok a)) :
    (m >>= f) w = f a w' := by rw [bind_def, h]
theorem bind_err {α β} {m : PyM α} {f : α → PyM β} {w w' : World} {e : PyErr} (h : m w = (w', .error e)) :
    (m >>= f) w = (w', .error e) := by rw [bind_def, h]

/-- A relation between states preserved by sequencing. -/
theorem bind_rel {α β} (R : World → World → Prop) (tr : ∀ a b c, R a b → R b c → R a c) {m : PyM α}
    {f : α → PyM β} (hm : ∀ w, R w (m w).1) (hf : ∀ a w, R w (f a w).1) (w : World) : R w ((m >>= f) w).1 := by
  rw [bind_def]
  have := hm w
  cases h : m w with
  | mk w' r =>
    rw [h] at this
    cases r with
    | ok a => exact tr _ _ _ this (hf a w')
    | error e => exact this

/-- A method changes the state only within the relation. -/
def Pres {α} (R : World → World → Prop) (m : PyM α) : Prop := ∀ w, R w (m w).1

theorem Pres.bind {α β} {R : World → World → Prop} (tr : ∀ a b c, R a b → R b c → R a c) {m : PyM α}
    {f : α → PyM β} (hm : Pres R m) (hf : ∀ a, Pres R (f a)) : Pres R (m >>= f) :=
  fun w => bind_rel R tr hm hf w
end PyM

namespace World

/-! ## What lookups may change -/

/-- Lookups only fill in sublevels. -/
structure LFrame (w w' : World) : Prop where
  I : w'.I = w.I
  B : w'.B = w.B
  nlv : w'.nlv = w.nlv
  ntr : w'.ntr = w.ntr
  tr : w'.tr = w.tr
  g : w'.g = w.g
  lalias : w'.lalias = w.lalias
  talias : w'.talias = w.talias
  warned : w'.warned = w.warned
  lv : ∀ i, ∃ s, w'.lv i = { w.lv i with subs := s }
  nhf : w.nhf ≤ w'.nhf
  nzl : w.nzl ≤ w'.nzl
  hf : ∀ j, j < w.nhf → ∃ s, w'.hf j = { w.hf j with subs := s }
  zl : ∀ k, k < w.nzl → w'.zl k = w.zl k

theorem LFrame.refl (w : World) : LFrame w w :=
  ⟨rfl, rfl, rfl, rfl, rfl, rfl, rfl, rfl, rfl, fun _ => ⟨_, rfl⟩, le_refl _, le_refl _, fun _ _ => ⟨_, rfl⟩,
    fun _ _ => rfl⟩

theorem LFrame.trans (a b c : World) (h1 : LFrame a b) (h2 : LFrame b c) : LFrame a c := by
  refine ⟨h2.I.trans h1.I, h2.B.trans h1.B, h2.nlv.trans h1.nlv, h2.ntr.trans h1.ntr, h2.tr.trans h1.tr,
    h2.g.trans h1.g, h2.lalias.trans h1.lalias, h2.talias.trans h1.talias, h2.warned.trans h1.warned, ?_,
    le_trans h1.nhf h2.nhf, le_trans h1.nzl h2.nzl, ?_, ?_⟩
  · intro i
    obtain ⟨s, hs⟩ := h1.lv i
    obtain ⟨s', hs'⟩ := h2.lv i
    exact ⟨s', by rw [hs', hs]⟩
  · intro j hj
    obtain ⟨s, hs⟩ := h1.hf j hj
    obtain ⟨s', hs'⟩ := h2.hf j (lt_of_lt_of_le hj h1.nhf)
    exact ⟨s', by rw [hs', hs]⟩
  · intro k hk
    rw [h2.zl k (lt_of_lt_of_le hk h1.nzl), h1.zl k hk]

theorem popHF1_frame (i : Nat) (f : ℚ) (w : World) : LFrame w (popHF1 i f w).1 := by
  unfold popHF1
  split
  · exact .refl w
  · split
    · split
      · exact .refl w
      · refine ⟨rfl, rfl, rfl, rfl, rfl, rfl, rfl, rfl, rfl, ?_, Nat.le_succ _, le_refl _, ?_, fun _ _ => rfl⟩
        · intro i'
          by_cases h : i' = i
          · subst h; exact ⟨(w.lv i').subs.set (fKey f) w.nhf, by simp⟩
          · exact ⟨(w.lv i').subs, by simp only [upd_ne _ _ _ h]⟩
        · intro j hj
          exact ⟨(w.hf j).subs, by simp only [upd_ne _ _ _ (Nat.ne_of_lt hj)]⟩
    · exact .refl w

theorem popHFs_frame (i : Nat) (l : List ℚ) (w : World) : LFrame w (popHFs i l w).1 := by
  induction l generalizing w with
  | nil => exact .refl w
  | cons f fs ih =>
    unfold popHFs
    exact PyM.bind_rel LFrame LFrame.trans (popHF1_frame i f) (fun _ => ih) w

theorem populateHF_frame (i : Nat) (w : World) : LFrame w (populateHF i w).1 := by
  unfold populateHF
  split
  · split
    · exact popHFs_frame _ _ _
    · exact .refl w
  · exact .refl w

theorem lazyHF_frame (i : Nat) (w : World) : LFrame w (lazyHF i w).1 := by
  unfold lazyHF
  split
  · split
    · exact populateHF_frame _ _
    · exact .refl w
  · exact .refl w

theorem popZ1_frame (j : Nat) (m : ℚ) (w : World) : LFrame w (popZ1 j m w).1 := by
  unfold popZ1
  split
  · exact .refl w
  · split
    · split
      · exact .refl w
      · refine ⟨rfl, rfl, rfl, rfl, rfl, rfl, rfl, rfl, rfl, fun _ => ⟨_, rfl⟩, le_refl _, Nat.le_succ _, ?_, ?_⟩
        · intro j' hj
          by_cases h : j' = j
          · subst h; exact ⟨(w.hf j').subs.set (mKey m) w.nzl, by simp⟩
          · exact ⟨(w.hf j').subs, by simp only [upd_ne _ _ _ h]⟩
        · intro k hk
          simp only [upd_ne _ _ _ (Nat.ne_of_lt hk)]
    · exact .refl w

theorem popZs_frame (j : Nat) (l : List ℚ) (w : World) : LFrame w (popZs j l w).1 := by
  induction l generalizing w with
  | nil => exact .refl w
  | cons f fs ih =>
    unfold popZs
    exact PyM.bind_rel LFrame LFrame.trans (popZ1_frame j f) (fun _ => ih) w

theorem lazyZ_frame (j : Nat) (w : World) : LFrame w (lazyZ j w).1 := by
  unfold lazyZ
  split
  · split
    · exact popZs_frame _ _ _
    · exact .refl w
  · exact .refl w

theorem get_frame (w : World) : LFrame w (PyM.get w).1 := .refl w
theorem lift_frame {α} (r : Py α) (w : World) : LFrame w ((PyM.lift r : PyM α) w).1 := .refl w
theorem raise_frame {α} (e : PyErr) (w : World) : LFrame w ((PyM.raise e : PyM α) w).1 := .refl w
theorem pure_frame {α} (a : α) (w : World) : LFrame w ((pure a : PyM α) w).1 := .refl w

theorem hfItem_frame (j : Nat) (key : Str) (w : World) : LFrame w (hfItem j key w).1 := by
  unfold hfItem
  refine PyM.bind_rel LFrame LFrame.trans (lazyZ_frame j) (fun _ => ?_) w
  refine PyM.bind_rel LFrame LFrame.trans get_frame (fun w1 => ?_)
  intro w2
  split
  · exact raise_frame _ _
  · exact lift_frame _ _

theorem lvItem_frame (i : Nat) (key : Str) (w : World) : LFrame w (lvItem i key w).1 := by
  unfold lvItem
  refine PyM.bind_rel LFrame LFrame.trans (lazyHF_frame i) (fun _ => ?_) w
  refine PyM.bind_rel LFrame LFrame.trans get_frame (fun w1 => ?_)
  intro w2
  split
  · refine PyM.bind_rel LFrame LFrame.trans (lift_frame _) (fun _ => ?_) w2
    exact PyM.bind_rel LFrame LFrame.trans (hfItem_frame _ _) (fun _ => pure_frame _)
  · exact PyM.bind_rel LFrame LFrame.trans (lift_frame _) (fun _ => pure_frame _) w2

theorem refItem_frame (r : Ref) (key : Str) (w : World) : LFrame w (refItem r key w).1 := by
  unfold refItem
  split
  · exact lvItem_frame _ _ _
  · exact PyM.bind_rel LFrame LFrame.trans (hfItem_frame _ _) (fun _ => pure_frame _) w
  · exact raise_frame _ _

theorem levelsGet_frame (key : Str) (w : World) : LFrame w (levelsGet key w).1 := by
  suffices h : PyM.Pres LFrame (levelsGet key) from h w
  unfold levelsGet
  refine PyM.Pres.bind LFrame.trans get_frame (fun w1 => ?_)
  split
  · exact pure_frame _
  · split
    · split
      · refine PyM.Pres.bind LFrame.trans (lift_frame _) (fun _ => ?_)
        exact PyM.Pres.bind LFrame.trans (lvItem_frame _ _) (fun _ => refItem_frame _ _)
      · exact raise_frame _
    · split
      · split
        · refine PyM.Pres.bind LFrame.trans (lift_frame _) (fun _ => ?_)
          exact PyM.Pres.bind LFrame.trans (lvItem_frame _ _) (fun _ => refItem_frame _ _)
        · exact raise_frame _
      · split
        · split
          · exact PyM.Pres.bind LFrame.trans (lift_frame _) (fun _ => lvItem_frame _ _)
          · exact raise_frame _
        · exact PyM.Pres.bind LFrame.trans (lift_frame _) (fun _ => pure_frame _)

/-! ## Well-formed worlds -/

/-- The invariant of every atom that is used through its API without registering two levels under one name:
the graph's nodes are named after their levels, its edges carry complete transitions between registered levels. -/
structure WF (w : World) : Prop where
  gok : w.g.Ok
  node : ∀ n i, w.g.lev n = some i → w.lname i = n ∧ (w.lv i).inAtom = true ∧ i < w.nlv
  edge : ∀ u v t, w.g.adj u v = some t →
    t < w.ntr ∧ (w.tr t).built = true ∧
    w.g.lev (w.lname (w.tr t).lower) = some (w.tr t).lower ∧
    w.g.lev (w.lname (w.tr t).upper) = some (w.tr t).upper ∧
    ((u = w.lname (w.tr t).lower ∧ v = w.lname (w.tr t).upper) ∨
      (u = w.lname (w.tr t).upper ∧ v = w.lname (w.tr t).lower)) ∧
    (((w.tr t).e1 = (w.tr t).lower ∧ (w.tr t).e2 = (w.tr t).upper) ∨
      ((w.tr t).e1 = (w.tr t).upper ∧ (w.tr t).e2 = (w.tr t).lower))

/-- The parts the invariant talks about are unchanged. -/
structure Frame (w w' : World) : Prop where
  nlv : w'.nlv = w.nlv
  ntr : w'.ntr = w.ntr
  g : w'.g = w.g
  term : ∀ i, (w'.lv i).term = (w.lv i).term
  inAtom : ∀ i, (w'.lv i).inAtom = (w.lv i).inAtom
  tr : ∀ t, (w'.tr t).e1 = (w.tr t).e1 ∧ (w'.tr t).e2 = (w.tr t).e2 ∧ (w'.tr t).lower = (w.tr t).lower ∧
    (w'.tr t).upper = (w.tr t).upper ∧ (w'.tr t).built = (w.tr t).built

theorem Frame.refl (w : World) : Frame w w :=
  ⟨rfl, rfl, rfl, fun _ => rfl, fun _ => rfl, fun _ => ⟨rfl, rfl, rfl, rfl, rfl⟩⟩

theorem Frame.trans (a b c : World) (h1 : Frame a b) (h2 : Frame b c) : Frame a c := by
  refine ⟨h2.nlv.trans h1.nlv, h2.ntr.trans h1.ntr, h2.g.trans h1.g, fun i => (h2.term i).trans (h1.term i),
    fun i => (h2.inAtom i).trans (h1.inAtom i), fun t => ?_⟩
  obtain ⟨p1, p2, p3, p4, p5⟩ := h1.tr t
  obtain ⟨q1, q2, q3, q4, q5⟩ := h2.tr t
  exact ⟨q1.trans p1, q2.trans p2, q3.trans p3, q4.trans p4, q5.trans p5⟩

theorem Frame.lname {w w' : World} (h : Frame w w') (i : Nat) : w'.lname i = w.lname i := by
  unfold World.lname; rw [h.term]

theorem LFrame.frame {w w' : World} (h : LFrame w w') : Frame w w' := by
  refine ⟨h.nlv, h.ntr, h.g, ?_, ?_, ?_⟩
  · intro i; obtain ⟨s, hs⟩ := h.lv i; rw [hs]
  · intro i; obtain ⟨s, hs⟩ := h.lv i; rw [hs]
  · intro t; rw [h.tr]; exact ⟨rfl, rfl, rfl, rfl, rfl⟩

theorem WF.frame {w w' : World} (hw : WF w) (h : Frame w w') : WF w' := by
  refine ⟨?_, ?_, ?_⟩
  · rw [h.g]; exact hw.gok
  · intro n i hi
    rw [h.g] at hi
    rw [h.lname, h.inAtom, h.nlv]
    exact hw.node n i hi
  · intro u v t ht
    rw [h.g] at ht
    obtain ⟨h1, h2, h3, h4, h5⟩ := h.tr t
    rw [h1, h2, h3, h4, h5, h.lname, h.lname, h.g, h.ntr]
    exact hw.edge u v t ht

theorem setE_frame (w : World) (i : Nat) (v : ℚ) : Frame w (w.setE i v) := by
  refine ⟨rfl, rfl, rfl, ?_, ?_, fun _ => ⟨rfl, rfl, rfl, rfl, rfl⟩⟩ <;>
  · intro k
    by_cases h : k = i
    · subst h; simp [setE, setLv]
    · simp [setE, setLv, upd_ne _ _ _ h]

theorem setFixed_frame (w : World) (i : Nat) (b : Bool) : Frame w (w.setFixed i b) := by
  refine ⟨rfl, rfl, rfl, ?_, ?_, fun _ => ⟨rfl, rfl, rfl, rfl, rfl⟩⟩ <;>
  · intro k
    by_cases h : k = i
    · subst h; simp [setFixed, setLv]
    · simp [setFixed, setLv, upd_ne _ _ _ h]

theorem setHLevel_frame (j : Nat) (v : ℚ) (w : World) : Frame w (setHLevel j v w).1 := by
  unfold setHLevel
  split
  · exact setE_frame _ _ _
  · exact .refl w

theorem setZLevel_frame (k : Nat) (v : ℚ) (w : World) : Frame w (setZLevel k v w).1 := by
  unfold setZLevel
  split
  · exact setHLevel_frame _ _ _
  · exact .refl w
  · exact .refl w

theorem enfEdge_frame (u v : Str) (w : World) : Frame w (enfEdge u v w).1 := by
  unfold enfEdge
  split
  · exact .refl w
  · split
    · exact .refl w
    · rename_i t _ _ f _
      simp only
      refine Frame.trans _ _ _ ?_ (Frame.trans _ _ _ (setFixed_frame _ (w.tr t).upper true) (setFixed_frame _ _ true))
      split
      · exact ⟨rfl, rfl, rfl, fun _ => rfl, fun _ => rfl, fun _ => ⟨rfl, rfl, rfl, rfl, rfl⟩⟩
      · split
        · exact setE_frame _ _ _
        · exact setE_frame _ _ _

theorem enfEdge_tr (u v : Str) (w : World) : (enfEdge u v w).1.tr = w.tr := by
  unfold enfEdge
  split
  · rfl
  · split
    · rfl
    · simp only [setFixed, setLv, setE]
      split
      · rfl
      · split <;> rfl

theorem enfEdges_frame (l : List (Str × Str)) (w : World) : Frame w (enfEdges l w).1 := by
  induction l generalizing w with
  | nil => exact .refl w
  | cons p t ih =>
    obtain ⟨u, v⟩ := p
    unfold enfEdges
    exact PyM.bind_rel Frame Frame.trans (enfEdge_frame u v) (fun _ => ih) w

theorem enfEdges_tr (l : List (Str × Str)) (w : World) : (enfEdges l w).1.tr = w.tr := by
  induction l generalizing w with
  | nil => rfl
  | cons p t ih =>
    obtain ⟨u, v⟩ := p
    unfold enfEdges
    exact PyM.bind_rel (fun a b => b.tr = a.tr) (fun _ _ _ h1 h2 => h2.trans h1) (enfEdge_tr u v) (fun _ => ih) w

theorem enfComp_frame (σ : Ord') (es : List (Str × Str)) (c : List Str) (w : World) : Frame w (enfComp σ es c w).1 := by
  unfold enfComp
  split
  · exact .refl w
  · exact .refl w
  · exact enfEdges_frame _ _

theorem enfComp_tr (σ : Ord') (es : List (Str × Str)) (c : List Str) (w : World) : (enfComp σ es c w).1.tr = w.tr := by
  unfold enfComp
  split
  · rfl
  · rfl
  · exact enfEdges_tr _ _

theorem enfComps_rel (R : World → World → Prop) (refl : ∀ a, R a a) (tr : ∀ a b c, R a b → R b c → R a c)
    (σ : Ord') (es : List (Str × Str)) (hc : ∀ c w, R w (enfComp σ es c w).1)
    (trig : Option (Str × Str)) (cs : List (List Str)) (w : World) : R w (enfComps σ es trig cs w).1 := by
  induction cs generalizing w with
  | nil => exact refl w
  | cons c cs ih =>
    unfold enfComps
    split
    · exact PyM.bind_rel R tr (hc c) (fun _ => ih) w
    · exact ih w

theorem enforce_frame (σ : Ord') (trig : Option (Str × Str)) (w : World) : Frame w (enforce σ trig w).1 := by
  unfold enforce
  split
  · exact .refl w
  · exact enfComps_rel Frame .refl .trans σ _ (enfComp_frame σ _) _ _ _

theorem enforce_tr (σ : Ord') (trig : Option (Str × Str)) (w : World) : (enforce σ trig w).1.tr = w.tr := by
  unfold enforce
  split
  · rfl
  · exact enfComps_rel (fun a b => b.tr = a.tr) (fun _ => rfl) (fun _ _ _ h1 h2 => h2.trans h1) σ _ (enfComp_tr σ _) _ _ _

theorem setTr_frame (w : World) (t : Nat) (x : Trans) (h : x.e1 = (w.tr t).e1 ∧ x.e2 = (w.tr t).e2 ∧
    x.lower = (w.tr t).lower ∧ x.upper = (w.tr t).upper ∧ x.built = (w.tr t).built) : Frame w (w.setTr t x) := by
  refine ⟨rfl, rfl, rfl, fun _ => rfl, fun _ => rfl, ?_⟩
  intro s
  by_cases hs : s = t
  · subst hs; simpa [setTr] using h
  · simp [setTr, upd_ne _ _ _ hs]

theorem setFrequency_frame (σ : Ord') (t : Nat) (f : ℚ) (w : World) : Frame w (setFrequency σ t f w).1 := by
  unfold setFrequency
  split
  · simp only
    generalize hb : truthy (w.tr t).setFreq = b
    have key : ∀ w0 : World, Frame w w0 →
        Frame w (if ((w0.setTr t { w0.tr t with setFreq := some f }).lv
            ((w0.setTr t { w0.tr t with setFreq := some f }).tr t).e1).inAtom = true then
          enforce σ (some ((w0.setTr t { w0.tr t with setFreq := some f }).lname
              ((w0.setTr t { w0.tr t with setFreq := some f }).tr t).e1,
            (w0.setTr t { w0.tr t with setFreq := some f }).lname
              ((w0.setTr t { w0.tr t with setFreq := some f }).tr t).e2)) (w0.setTr t { w0.tr t with setFreq := some f })
          else ((w0.setTr t { w0.tr t with setFreq := some f }), .error .AttributeError)).1 := by
      intro w0 h0
      have h1 := Frame.trans _ _ _ h0 (setTr_frame w0 t { w0.tr t with setFreq := some f } ⟨rfl, rfl, rfl, rfl, rfl⟩)
      split
      · exact Frame.trans _ _ _ h1 (enforce_frame _ _ _)
      · exact h1
    apply key
    by_cases hc : b = true ∧ (w.lv (w.tr t).upper).fixed = true ∧ (w.lv (w.tr t).lower).fixed = true
    · rw [if_pos hc]; exact setFixed_frame _ _ _
    · rw [if_neg hc]; exact .refl w
  · exact .refl w

theorem setAlias_frame (r : Ref) (al : Str) (w : World) : Frame w (setAlias r al w).1 := by
  unfold setAlias
  split
  · rename_i i
    have : Frame w (w.setLv i { w.lv i with ali := some al }) := by
      refine ⟨rfl, rfl, rfl, ?_, ?_, fun _ => ⟨rfl, rfl, rfl, rfl, rfl⟩⟩ <;>
      · intro k
        by_cases h : k = i
        · subst h; simp [setLv]
        · simp [setLv, upd_ne _ _ _ h]
    simp only
    split
    · exact ⟨this.nlv, this.ntr, this.g, this.term, this.inAtom, this.tr⟩
    · exact this
  · exact ⟨rfl, rfl, rfl, fun _ => rfl, fun _ => rfl, fun _ => ⟨rfl, rfl, rfl, rfl, rfl⟩⟩

/-! ## Operations that change the skeleton -/

theorem WF.newLevel {w : World} (h : WF w) (t : Term) (E l A B C : ℚ) (ali : Option Str) :
    WF (World.newLevel t E l A B C ali w).1 := by
  have hn : ∀ i, i < w.nlv → (World.newLevel t E l A B C ali w).1.lname i = w.lname i := by
    intro i hi
    simp [World.newLevel, lname, upd_ne _ _ _ (Nat.ne_of_lt hi)]
  refine ⟨h.gok, ?_, ?_⟩
  · intro n i hi
    obtain ⟨h1, h2, h3⟩ := h.node n i hi
    refine ⟨by rw [hn i h3, h1], ?_, Nat.lt_succ_of_lt h3⟩
    simpa [World.newLevel, upd_ne _ _ _ (Nat.ne_of_lt h3)] using h2
  · intro u v s hs
    obtain ⟨h1, h2, h3, h4, h5, h6⟩ := h.edge u v s hs
    have l1 := (h.node _ _ h3).2.2
    have l2 := (h.node _ _ h4).2.2
    refine ⟨h1, h2, ?_, ?_, ?_, h6⟩
    · show w.g.lev (_ : Str) = some (w.tr s).lower
      rw [show (World.newLevel t E l A B C ali w).1.tr = w.tr from rfl, hn _ l1]; exact h3
    · show w.g.lev (_ : Str) = some (w.tr s).upper
      rw [show (World.newLevel t E l A B C ali w).1.tr = w.tr from rfl, hn _ l2]; exact h4
    · rw [show (World.newLevel t E l A B C ali w).1.tr = w.tr from rfl, hn _ l1, hn _ l2]; exact h5

theorem WF.lvAddToAtom {w : World} (h : WF w) (i : Nat) (hi : i < w.nlv)
    (hname : w.g.lev (w.lname i) = none ∨ w.g.lev (w.lname i) = some i) : WF (World.lvAddToAtom i w).1 := by
  have hln : ∀ k, (World.lvAddToAtom i w).1.lname k = w.lname k := by
    intro k
    by_cases hk : k = i
    · subst hk; simp [World.lvAddToAtom, PyM.modify, lname]
    · simp [World.lvAddToAtom, PyM.modify, lname, upd_ne _ _ _ hk]
  have hlev : ∀ n k, w.g.lev n = some k → (World.lvAddToAtom i w).1.g.lev n = some k := by
    intro n k hk
    show (w.g.addNode (w.lname i) i).lev n = some k
    rw [Graph.lev_addNode]
    split
    · rename_i e
      subst e
      rcases hname with h0 | h0
      · rw [h0] at hk; simp at hk
      · rw [h0] at hk; exact hk
    · exact hk
  refine ⟨h.gok.addNode _ _, ?_, ?_⟩
  · intro n k hk
    rw [hln]
    have hk' : (w.g.addNode (w.lname i) i).lev n = some k := hk
    rw [Graph.lev_addNode] at hk'
    split at hk'
    · rename_i e
      simp at hk'
      subst hk'
      refine ⟨e, ?_, hi⟩
      simp [World.lvAddToAtom, PyM.modify]
    · obtain ⟨h1, h2, h3⟩ := h.node n k hk'
      refine ⟨h1, ?_, h3⟩
      by_cases hki : k = i
      · subst hki; simp [World.lvAddToAtom, PyM.modify]
      · simpa [World.lvAddToAtom, PyM.modify, upd_ne _ _ _ hki] using h2
  · intro u v s hs
    have hs' : (w.g.addNode (w.lname i) i).adj u v = some s := hs
    rw [Graph.adj_addNode] at hs'
    obtain ⟨h1, h2, h3, h4, h5, h6⟩ := h.edge u v s hs'
    rw [hln, hln]
    exact ⟨h1, h2, hlev _ _ h3, hlev _ _ h4, h5, h6⟩

theorem aliasSet_frame (w : World) (d : Dict Str Ref) : Frame w { w with lalias := d } :=
  ⟨rfl, rfl, rfl, fun _ => rfl, fun _ => rfl, fun _ => ⟨rfl, rfl, rfl, rfl, rfl⟩⟩

theorem setAliasOpt_frame (i : Nat) (ali : Option Str) (w : World) : Frame w (setAliasOpt i ali w).1 := by
  cases ali with
  | none => exact .refl w
  | some al => exact setAlias_frame _ _ _

theorem regAlias_frame (i : Nat) (w : World) : Frame w (regAlias i w).1 := by
  unfold regAlias
  split
  · exact aliasSet_frame _ _
  · exact .refl w

theorem addLevel_def (i : Nat) (p : Bool) (ali : Option Str) (w : World) :
    ∃ w', addLevel i p ali w = w' ∧ Frame (World.lvAddToAtom i w).1 w'.1 := by
  refine ⟨_, rfl, ?_⟩
  unfold addLevel
  have hl : World.lvAddToAtom i w = ((World.lvAddToAtom i w).1, .ok ()) := rfl
  rw [PyM.bind_ok hl]
  refine PyM.bind_rel Frame Frame.trans (setAliasOpt_frame i ali) (fun _ => ?_) _
  refine PyM.bind_rel Frame Frame.trans (regAlias_frame i) (fun _ w2 => ?_)
  cases p with
  | true => exact (populateHF_frame _ _).frame
  | false => exact .refl w2

theorem WF.addLevel {w : World} (h : WF w) (i : Nat) (p : Bool) (ali : Option Str) (hi : i < w.nlv)
    (hname : w.g.lev (w.lname i) = none ∨ w.g.lev (w.lname i) = some i) : WF (World.addLevel i p ali w).1 := by
  obtain ⟨w', h1, h2⟩ := addLevel_def i p ali w
  rw [h1]
  exact (h.lvAddToAtom i hi hname).frame h2

theorem WF.levelsDel {w : World} (h : WF w) (key : Str) : WF (World.levelsDel key w).1 := by
  unfold World.levelsDel
  split
  · rename_i g hg
    refine ⟨h.gok.removeNode hg, ?_, ?_⟩
    · intro n i hi
      have hi' : g.lev n = some i := hi
      rw [Graph.lev_removeNode hg] at hi'
      split at hi'
      · simp at hi'
      · exact h.node n i hi'
    · intro u v t ht
      have ht' : g.adj u v = some t := ht
      rw [Graph.adj_removeNode hg] at ht'
      split at ht'
      · simp at ht'
      · rename_i hne
        push Not at hne
        obtain ⟨h1, h2, h3, h4, h5, h6⟩ := h.edge u v t ht'
        have hlo : w.lname (w.tr t).lower ≠ key := by
          rcases h5 with ⟨a, b⟩ | ⟨a, b⟩
          · rw [← a]; exact hne.1
          · rw [← b]; exact hne.2
        have hup : w.lname (w.tr t).upper ≠ key := by
          rcases h5 with ⟨a, b⟩ | ⟨a, b⟩
          · rw [← b]; exact hne.2
          · rw [← a]; exact hne.1
        refine ⟨h1, h2, ?_, ?_, h5, h6⟩
        · show g.lev (w.lname (w.tr t).lower) = _
          rw [Graph.lev_removeNode hg, if_neg hlo]; exact h3
        · show g.lev (w.lname (w.tr t).upper) = _
          rw [Graph.lev_removeNode hg, if_neg hup]; exact h4
  · exact h

theorem WF.trAddToAtom {w : World} (h : WF w) (t : Nat) (ht : t < w.ntr) (hb : (w.tr t).built = true)
    (hl : w.Registered (w.tr t).lower) (hu : w.Registered (w.tr t).upper)
    (he : ((w.tr t).e1 = (w.tr t).lower ∧ (w.tr t).e2 = (w.tr t).upper) ∨
      ((w.tr t).e1 = (w.tr t).upper ∧ (w.tr t).e2 = (w.tr t).lower)) : WF (World.trAddToAtom t w).1 := by
  have hw : (World.trAddToAtom t w).1 =
      { w with g := w.g.addEdge (w.lname (w.tr t).lower) (w.lname (w.tr t).upper) t } := by
    unfold World.trAddToAtom
    simp only
    split <;> rfl
  rw [hw]
  refine ⟨h.gok.addEdge _ _ _, ?_, ?_⟩
  · intro n i hi
    have hi' : (w.g.addEdge (w.lname (w.tr t).lower) (w.lname (w.tr t).upper) t).lev n = some i := hi
    rw [Graph.lev_addEdge] at hi'
    exact h.node n i hi'
  · intro u v s hs
    have hs' : (w.g.addEdge (w.lname (w.tr t).lower) (w.lname (w.tr t).upper) t).adj u v = some s := hs
    rw [Graph.adj_addEdge] at hs'
    show _ ∧ _ ∧ (w.g.addEdge _ _ _).lev _ = _ ∧ (w.g.addEdge _ _ _).lev _ = _ ∧ _
    rw [Graph.lev_addEdge, Graph.lev_addEdge]
    split at hs'
    · rename_i hc
      simp at hs'
      subst hs'
      refine ⟨ht, hb, hl, hu, ?_, he⟩
      rcases hc with ⟨a, b⟩ | ⟨a, b⟩
      · exact .inl ⟨a.symm, b.symm⟩
      · exact .inr ⟨b.symm, a.symm⟩
    · exact h.edge u v s hs'

/-- The heap after the first part of the constructor. -/
def newTransHeap (w : World) (a b : Nat) (ali : Option Str) : World :=
  { w with ntr := w.ntr + 1, tr := upd w.tr w.ntr ⟨a, b, if w.eHz b > w.eHz a then a else b,
    if w.eHz b > w.eHz a then b else a, false, none, (false, false, false), none, ali, []⟩ }

/-- The finished object. -/
def finished (w : World) (a b : Nat) (freq : Option ℚ) (A : AArg) (ali : Option Str) (J0 J1 : ℚ) : Trans :=
  ⟨a, b, if w.eHz b > w.eHz a then a else b, if w.eHz b > w.eHz a then b else a, true, A.rate,
    allowedTypes J0 J1 (w.lv a).term.parity (w.lv b).term.parity (decide (a = b)), freq, ali, []⟩

/-- Alias registration. -/
def withAlias (d : Dict Str Nat) (t : Nat) : Option Str → Dict Str Nat
  | some s => d.set s t
  | none => d

/-- The constructor in one go, for arguments that make it succeed (levels in the atom). -/
theorem newTrans_ok (w : World) (a b : Nat) (freq : Option ℚ) (A : AArg) (ali : Option Str) (J0 J1 : ℚ)
    (hin : (w.lv a).inAtom = true) (hJ0 : (w.lv a).term.J = some J0) (hJ1 : (w.lv b).term.J = some J1)
    (hA : ∀ e, A ≠ .bad e) :
    newTrans a b freq A ali w =
      ({ w with
          ntr := w.ntr + 1
          tr := upd w.tr w.ntr (finished w a b freq A ali J0 J1)
          g := w.g.addEdge (w.lname (if w.eHz b > w.eHz a then a else b)) (w.lname (if w.eHz b > w.eHz a then b else a)) w.ntr
          talias := withAlias w.talias w.ntr ali },
        .ok w.ntr) := by
  have e1 : newTransObj a b ali w = ({ newTransHeap w a b ali with
      g := w.g.addEdge (w.lname (if w.eHz b > w.eHz a then a else b)) (w.lname (if w.eHz b > w.eHz a then b else a)) w.ntr },
      .ok w.ntr) := by
    simp [newTransObj, hin, trAddToAtom, newTransHeap, lname]
  unfold newTrans
  rw [PyM.bind_ok e1]
  set w1 : World := { newTransHeap w a b ali with
      g := w.g.addEdge (w.lname (if w.eHz b > w.eHz a then a else b)) (w.lname (if w.eHz b > w.eHz a then b else a)) w.ntr }
    with hw1
  have hall : w1.transAllowed (w1.tr w.ntr).e1 (w1.tr w.ntr).e2 =
      .ok (allowedTypes J0 J1 (w.lv a).term.parity (w.lv b).term.parity (decide (a = b))) := by
    simp [hw1, newTransHeap, transAllowed, hJ0, hJ1]
  have hupd : ∀ x y : Trans, upd (upd w.tr w.ntr x) w.ntr y = upd w.tr w.ntr y := by
    intro x y; funext k; simp only [upd]; split <;> rfl
  have e2 : newTransAttrs w.ntr freq A w1 = ({ w with
          ntr := w.ntr + 1
          tr := upd w.tr w.ntr (finished w a b freq A ali J0 J1)
          g := w.g.addEdge (w.lname (if w.eHz b > w.eHz a then a else b)) (w.lname (if w.eHz b > w.eHz a then b else a)) w.ntr
          talias := withAlias w.talias w.ntr ali }, .ok ()) := by
    unfold newTransAttrs
    cases A with
    | bad e => exact absurd rfl (hA e)
    | none =>
      simp only [hall]
      cases ali <;> simp [hw1, newTransHeap, setTr, hupd, hin, finished, withAlias]
    | hz q =>
      simp only [hall]
      cases ali <;> simp [hw1, newTransHeap, setTr, hupd, hin, finished, withAlias]
  rw [PyM.bind_ok e2]
  rfl

theorem WF.newTrans {w : World} (h : WF w) (a b : Nat) (freq : Option ℚ) (A : AArg) (ali : Option Str) (J0 J1 : ℚ)
    (ha : w.Registered a) (hb : w.Registered b) (hJ0 : (w.lv a).term.J = some J0) (hJ1 : (w.lv b).term.J = some J1)
    (hA : ∀ e, A ≠ .bad e) : WF (World.newTrans a b freq A ali w).1 := by
  rw [newTrans_ok w a b freq A ali J0 J1 (h.node _ _ ha).2.1 hJ0 hJ1 hA]
  have hlo : w.Registered (if w.eHz b > w.eHz a then a else b) := by split <;> assumption
  have hup : w.Registered (if w.eHz b > w.eHz a then b else a) := by split <;> assumption
  refine ⟨h.gok.addEdge _ _ _, ?_, ?_⟩
  · intro n i hi
    have hi' : (w.g.addEdge (w.lname (if w.eHz b > w.eHz a then a else b))
      (w.lname (if w.eHz b > w.eHz a then b else a)) w.ntr).lev n = some i := hi
    rw [Graph.lev_addEdge] at hi'
    exact h.node n i hi'
  · intro u v s hs
    have hs' : (w.g.addEdge (w.lname (if w.eHz b > w.eHz a then a else b))
      (w.lname (if w.eHz b > w.eHz a then b else a)) w.ntr).adj u v = some s := hs
    rw [Graph.adj_addEdge] at hs'
    generalize hlo' : (if w.eHz b > w.eHz a then a else b) = lo at *
    generalize hup' : (if w.eHz b > w.eHz a then b else a) = up at *
    have hlev : ∀ n, (w.g.addEdge (w.lname lo) (w.lname up) w.ntr).lev n = w.g.lev n := fun n => Graph.lev_addEdge ..
    by_cases hc : (w.lname lo = u ∧ w.lname up = v ∨ w.lname lo = v ∧ w.lname up = u)
    · rw [if_pos hc] at hs'
      simp at hs'
      subst hs'
      have hx : upd w.tr w.ntr (finished w a b freq A ali J0 J1) w.ntr = finished w a b freq A ali J0 J1 := upd_same ..
      have h1 : (finished w a b freq A ali J0 J1).lower = lo := hlo'
      have h2 : (finished w a b freq A ali J0 J1).upper = up := hup'
      refine ⟨Nat.lt_succ_self _, ?_, ?_, ?_, ?_, ?_⟩
      · show (upd w.tr w.ntr _ w.ntr).built = true
        rw [hx]; rfl
      · show (w.g.addEdge _ _ _).lev (w.lname (upd w.tr w.ntr _ w.ntr).lower) = some (upd w.tr w.ntr _ w.ntr).lower
        rw [hx, hlev, h1]; exact hlo
      · show (w.g.addEdge _ _ _).lev (w.lname (upd w.tr w.ntr _ w.ntr).upper) = some (upd w.tr w.ntr _ w.ntr).upper
        rw [hx, hlev, h2]; exact hup
      · show (u = w.lname (upd w.tr w.ntr _ w.ntr).lower ∧ v = w.lname (upd w.tr w.ntr _ w.ntr).upper) ∨
          (u = w.lname (upd w.tr w.ntr _ w.ntr).upper ∧ v = w.lname (upd w.tr w.ntr _ w.ntr).lower)
        rw [hx, h1, h2]
        rcases hc with ⟨x, y⟩ | ⟨x, y⟩
        · exact .inl ⟨x.symm, y.symm⟩
        · exact .inr ⟨y.symm, x.symm⟩
      · simp only [upd_same, finished]
        split
        · exact .inl ⟨rfl, rfl⟩
        · exact .inr ⟨rfl, rfl⟩
    · rw [if_neg hc] at hs'
      obtain ⟨h1, h2, h3, h4, h5⟩ := h.edge u v s hs'
      have hne : s ≠ w.ntr := Nat.ne_of_lt h1
      have hx : upd w.tr w.ntr (finished w a b freq A ali J0 J1) s = w.tr s := upd_ne _ _ _ hne
      refine ⟨Nat.lt_succ_of_lt h1, ?_, ?_, ?_, ?_⟩
      · show (upd w.tr w.ntr _ s).built = true
        rw [hx]; exact h2
      · show (w.g.addEdge _ _ _).lev (w.lname (upd w.tr w.ntr _ s).lower) = some (upd w.tr w.ntr _ s).lower
        rw [hx, hlev]; exact h3
      · show (w.g.addEdge _ _ _).lev (w.lname (upd w.tr w.ntr _ s).upper) = some (upd w.tr w.ntr _ s).upper
        rw [hx, hlev]; exact h4
      · simp only [hx]
        exact h5

end World
end AtomTk
